import Verif.Lemmas.Books

/-!
# C65: what branching heuristics and presolvers are told about what was posted

For any sequence of installing propagators and disabling constraints.
-/

namespace Gcs

section
variable {σ μ : Type}

/-- C65: the degree of a variable is the number of propagators that are about it, directly or through views. Disabling changes nothing, and constants have degree 0. -/
theorem degree_counts (acts : List (Act σ μ)) :
    (∀ i, (Engine.after acts).degreeOf (.simple i) = (installed acts).countP fun x => decide (i ∈ x.2.about)) ∧
    (∀ i neg add, (Engine.after acts).degreeOf (.view i neg add) = (Engine.after acts).degreeOf (.simple i)) ∧ ∀ k, (Engine.after acts).degreeOf (.const k) = 0 :=
  ⟨(books_after acts).deg, fun _ _ _ => rfl, fun _ => rfl⟩

/-- C65: a propagator is disabled if, after it was installed, its constraint was named in a request to disable, and only then. -/
theorem disabled_exactly (pre post : List (Act σ μ)) (c : Nat) (f : Prog σ μ PState) (t : Triggers) :
    ∃ b, (Engine.after (pre ++ .install c f t :: post)).permDisabled[(installed pre).length]? = some b ∧ (b = true ↔ ∃ ids, Act.disable ids ∈ post ∧ c ∈ ids) := by
  have h := (books_after pre).install c f t
  have hl : (Engine.after pre).permDisabled.length = (installed pre).length :=
    (perm_length pre (E := Engine.empty) rfl).trans (books_after pre).progs
  have e : installed (pre ++ [.install c f t]) = installed pre ++ [(c, t)] := by rw [installed_snoc]; rfl
  obtain ⟨b, h1, h2⟩ := disabled_all post (p := (installed pre).length) (c := c) (t := t) (b := false) h (by rw [e]; simp)
    (by rw [(install_fields _ c f t).2.1, ← hl]; simp)
  refine ⟨b, ?_, by simpa using h2⟩
  rw [← h1]
  unfold Engine.after
  rw [List.foldl_append]; rfl

/-- C65: every constraint that has a propagator has one index, under which its identity can be looked up. -/
theorem constraint_indices (acts : List (Act σ μ)) :
    (Engine.after acts).constraintIds.Nodup ∧ (∀ c, c ∈ (Engine.after acts).constraintIds ↔ ∃ x ∈ installed acts, x.1 = c) ∧
    ∀ (p : Nat) x, (installed acts)[p]? = some x → ∃ ci, (Engine.after acts).propConstraint[p]? = some ci ∧ (Engine.after acts).constraintIds[ci]? = some x.1 :=
  ⟨(books_after acts).idsNodup, (books_after acts).ids, (books_after acts).prop⟩

/-- C65: the constraints of a variable are those that have a propagator that is about it, each listed once. -/
theorem constraints_of_variable (acts : List (Act σ μ)) (i : Nat) :
    ((Engine.after acts).varConstraints[i]?.getD []).Nodup ∧
    ∀ ci, ci ∈ (Engine.after acts).varConstraints[i]?.getD [] ↔ ∃ c, (Engine.after acts).constraintIds[ci]? = some c ∧ Touches acts c i :=
  ⟨(books_after acts).adjNodup i, (books_after acts).adj i⟩

/-- C65: the scope of a constraint is what its propagators are about, each variable listed once. -/
theorem scope_of_constraint (acts : List (Act σ μ)) {ci c : Nat} (h : (Engine.after acts).constraintIds[ci]? = some c) :
    ∃ s, (Engine.after acts).constraintScope[ci]? = some s ∧ s.Nodup ∧ ∀ i, i ∈ s ↔ Touches acts c i := by
  have hb := books_after acts
  have hl : ci < (Engine.after acts).constraintScope.length := by rw [hb.csLen]; exact (List.getElem?_eq_some_iff.1 h).1
  have e : (Engine.after acts).constraintScope[ci]?.getD [] = (Engine.after acts).constraintScope[ci] := by rw [List.getElem?_eq_getElem hl]; rfl
  refine ⟨_, List.getElem?_eq_getElem hl, e ▸ hb.csNodup ci, fun i => ?_⟩
  rw [← e, hb.cs]
  exact ⟨fun ⟨d, h1, h2⟩ => by cases h.symm.trans h1; exact h2, fun h2 => ⟨c, h, h2⟩⟩

/-- C65: the scope of a propagator is what it is about, each variable listed once. -/
theorem scope_of_propagator (acts : List (Act σ μ)) {p : Nat} {x : Nat × Triggers} (h : (installed acts)[p]? = some x) :
    ∃ s, (Engine.after acts).scope[p]? = some s ∧ s.Nodup ∧ ∀ i, i ∈ s ↔ i ∈ x.2.about := (books_after acts).scope p x h

end

/-! ## An example -/

namespace Books.Demo

def nothing : Prog Unit Unit PState := .ret .enable

/-- Constraint 7 has two propagators, one about variables 0 and 1, one about 1 and 2 (1 through a view, twice); constraint 5 has one about 1; then 7 is disabled, then 5, and then 7 gets another one. -/
def acts : List (Act Unit Unit) :=
  [.install 7 nothing { onChange := [.simple 0, .simple 1] }, .install 7 nothing { onBounds := [.view 1 true 3, .const 4], refined := [(.cond (Cond.eq (.simple 2) 1), 0), (.cond (Cond.eq (.simple 1) 1), 0)] },
    .disable [7], .install 5 nothing { scopeOnly := [.simple 1] }, .disable [5, 9], .install 7 nothing { onInstantiated := [.simple 0] }]

example : (Engine.after acts).degreeOf (.view 1 true 0) = 3 ∧ (Engine.after acts).degreeOf (.simple 0) = 2 ∧ (Engine.after acts).degreeOf (.simple 9) = 0 := by decide
example : (Engine.after acts).permDisabled = [true, true, true, false] := by decide
example : (Engine.after acts).constraintIds = [7, 5] ∧ (Engine.after acts).varConstraints = [[0], [0, 1], [0]] ∧ (Engine.after acts).constraintScope = [[0, 1, 2], [1]] := by decide

/-- The hypotheses of the theorems above hold here. -/
example : ∃ s, (Engine.after acts).constraintScope[0]? = some s ∧ s.Nodup ∧ ∀ i, i ∈ s ↔ Touches acts 7 i := scope_of_constraint acts (by decide)
example : ∃ s, (Engine.after acts).scope[1]? = some s ∧ s.Nodup ∧ ∀ i, i ∈ s ↔ i ∈ [1, 2, 1] := scope_of_propagator acts (p := 1) (x := (7, _)) rfl

end Books.Demo
end Gcs
