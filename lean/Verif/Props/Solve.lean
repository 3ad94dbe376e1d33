import Verif.Props.Search
import Verif.Props.Heuristics
import Verif.Props.EngineDemo
import Verif.Lemmas.Relative
import Verif.Lemmas.Ver

/-!
# Constraints, heuristics and search together (C25, C26, C28)

A problem is a list of posted propagators, each with the constraint it stands for and the variables that constraint is about. If every one of them is sound and checks its constraint, the heuristic is
`branch_with` a right variable and value order, and every variable some constraint or the objective is about is branched on, then the search reports exactly the assignments that satisfy all constraints.
Without learning; `Props/Nogoods.lean` has the part with restarts.

The end of the file is a concrete problem, run with and without an objective, that meets all hypotheses of the theorems here and in `Props/Search.lean`.
-/

namespace Gcs
open IntervalSet Queue

section
variable {σ μ : Type} {n m : Nat} {R : Err → Prop}

/-- A posted propagator, and what it stands for. -/
structure Posting (σ μ : Type) where
  prog : Prog σ μ PState
  triggers : Triggers
  holds : Asg → Prop
  about : List Nat

/-- The postings are sound and check their constraints, for assignments within the domains `root` at the time of posting: constraints may look at these domains to decide what to install. -/
structure PostingsOK (n m : Nat) (R : Err → Prop) (E : Engine σ μ) (root : Doms) (ps : List (Posting σ μ)) : Prop where
  built : Built n m R E (ps.map fun p => (p.prog, p.triggers))
  enabled : ∀ p, p < ps.length → E.permDisabled[p]? = some false
  sound : ∀ p ∈ ps, ∀ a, Within root a → (∀ q ∈ ps, q.holds a) → p.prog.Truthful n a
  checks : ∀ p ∈ ps, Checks n p.prog p.triggers (fun a => Within root a → p.holds a) p.about

/-- The heuristic is `branch_with` a variable order that picks an open variable from `vars` and a value order that partitions. It may use what it likes of the state. -/
structure BranchesOn (n m : Nat) (V : SearchEnv σ μ) (vars : List VarId) : Prop where
  valid : ∀ v ∈ vars, v.Valid n
  shape : ∀ i s, NodeOK n m V.engine s → ∃ var val, V.branch i s = branchWith var val s.doms ∧ RightOrOverflow (var s.doms) (Picked s.doms vars) ∧
    (∀ v ∈ vars, Open s.doms v → RightOrOverflow (val s.doms v) (BranchOK s.doms.length s.doms)) ∧ Guesses val s.doms

/-- Everything a constraint or the objective is about is branched on. -/
structure Covered (V : SearchEnv σ μ) (ps : List (Posting σ μ)) (vars : List VarId) (n : Nat) : Prop where
  about : ∀ p ∈ ps, ∀ v ∈ p.about, ∃ x ∈ vars, x.underlyingIndex = some v
  objective : ∀ o, V.minimise = some o → o.Valid n ∧ ∀ v, o.underlyingIndex = some v → ∃ x ∈ vars, x.underlyingIndex = some v

theorem BranchesOn.branch {V : SearchEnv σ μ} {vars : List VarId} (hb : BranchesOn n m V vars) (i : Nat) (s : Sys σ μ) (hs : NodeOK n m V.engine s) :
    (∃ e, V.branch i s = .error e ∧ (e = .overflow ∨ R e)) ∨ ∃ bs, V.branch i s = .ok bs ∧ if bs = [] then ∀ v ∈ vars.filterMap VarId.underlyingIndex, Fixed s.doms v
      else BranchOK n s.doms bs ∧ ∀ b ∈ bs, ∀ v, b.var.underlyingIndex = some v → v ∈ vars.filterMap VarId.underlyingIndex := by
  obtain ⟨var, val, e, h1, h2, h3⟩ := hb.shape i s hs
  have hl : s.doms.length = n := hs.call.domsLen
  rw [e]
  rcases branchWith_clause (B := vars.filterMap VarId.underlyingIndex) hs.call.domsOK (fun v hv => by rw [hl]; exact hb.valid v hv) (fun i hi => by
      obtain ⟨x, hx, k⟩ := List.mem_filterMap.1 hi; exact ⟨x, hx, k⟩) h1 h2 h3 with h | ⟨bs, h, hbs⟩
  · exact .inl ⟨_, h, .inl rfl⟩
  · refine .inr ⟨bs, h, ?_⟩
    rw [hl] at hbs
    split
    · rename_i hn; rw [if_pos hn] at hbs; exact hbs
    · rename_i hn
      rw [if_neg hn] at hbs
      obtain ⟨h4, x, hx, h5⟩ := hbs
      exact ⟨h4, fun b hb v hv => List.mem_filterMap.2 ⟨x, hx, by rw [← h5 b hb]; exact hv⟩⟩

/-- The contract of `Spec/Search.lean` is met, for the assignments that satisfy every constraint. -/
theorem solve_contract {V : SearchEnv σ μ} {ps : List (Posting σ μ)} {vars : List VarId} {rt : Doms} (hp : PostingsOK n m R V.engine rt ps) (hb : BranchesOn n m V vars) (hc : Covered V ps vars n)
    (hmono : ∀ i j, i ≤ j → V.abort i = true → V.abort j = true) (hlearn : V.learn = none) :
    ∃ I, SearchContract n m R V (fun a => Within rt a ∧ ∀ p ∈ ps, p.holds a) (fun d => ∀ v ∈ vars.filterMap VarId.underlyingIndex, Fixed d v) (fun _ => []) (fun _ _ => True) (fun s => True ∧ Rooted rt s) I := by
  have hget : ∀ {p : Nat} {f t}, (ps.map fun p => (p.prog, p.triggers))[p]? = some (f, t) → ∃ x : Posting σ μ, ps[p]? = some x ∧ x.prog = f ∧ x.triggers = t := by
    intro p f t h
    rw [List.getElem?_map] at h
    cases e : ps[p]? with
    | none => rw [e] at h; cases h
    | some x => rw [e] at h; cases h; exact ⟨x, rfl, rfl, rfl⟩
  have hlen : ∀ p, V.engine.permDisabled[p]? = some false → p < ps.length := by
    intro p h
    have h1 := (List.getElem?_eq_some_iff.1 h).1
    have h2 := hp.built.wf.permLen
    have h3 : V.engine.progs.length = ps.length := by rw [hp.built.progs]; simp
    omega
  refine ⟨_, (checks_contract (Fin := fun a => Within rt a → ∀ p ∈ ps, p.holds a) (C := fun p a => Within rt a → (ps[p]?.map (·.holds)).getD (fun _ => True) a)
    (vs := fun p => (ps[p]?.map (·.about)).getD []) hp.built ?_ ?_ ?_ ?_ ?_ ?_ hmono hlearn).relative fun a h1 h2 => ⟨h1, h2 h1⟩⟩
  · intro p f hf _ a ha
    rw [hp.built.progs, List.getElem?_map, List.getElem?_map] at hf
    cases e : ps[p]? with
    | none => rw [e] at hf; cases hf
    | some x =>
      rw [e] at hf; cases hf
      exact hp.sound x (List.mem_of_getElem? e) a ha.1 ha.2
  · intro p f t hl _
    obtain ⟨x, e, rfl, rfl⟩ := hget hl
    simp only [e, Option.map_some, Option.getD_some]
    exact hp.checks x (List.mem_of_getElem? e)
  · intro a ha hw p hm
    obtain ⟨i, hi⟩ := List.mem_iff_getElem?.1 hm
    have := ha i (hp.enabled i (List.getElem?_eq_some_iff.1 hi).1) hw
    simpa [hi] using this
  · intro p hen v hv
    have := hlen p hen
    rw [List.getElem?_eq_getElem this] at hv
    obtain ⟨x, hx, e⟩ := hc.about _ (List.getElem_mem this) v hv
    exact List.mem_filterMap.2 ⟨x, hx, e⟩
  · intro o ho
    refine ⟨(hc.objective o ho).1, fun v hv => ?_⟩
    obtain ⟨x, hx, e⟩ := (hc.objective o ho).2 v hv
    exact List.mem_filterMap.2 ⟨x, hx, e⟩
  · exact hb.branch

/-- What a contract for these assignments gives. -/
theorem contract_enumerates {V : SearchEnv σ μ} {ps : List (Posting σ μ)} {vars : List VarId} {rt : Doms} {s s' : Sys σ μ} {J : Sys σ μ → Prop} {I : Nat → Sys σ μ → Prop}
    (hC : SearchContract n m R V (fun a => Within rt a ∧ ∀ p ∈ ps, p.holds a) (fun d => ∀ v ∈ vars.filterMap VarId.underlyingIndex, Fixed d v) (fun _ => []) (fun _ _ => True) J I)
    (hst : StartOK n m V (fun _ => []) J s) (hin : Rooted rt s)
    {depthFuel fuel : Nat} (hd : s.doms.card < depthFuel) (hf : 0 < fuel) (ho : V.minimise = none) {res : SearchResult} {has : Bool} {t : Tally}
    (hr : search V depthFuel fuel none s = .ok ((res, has, s', t), true)) :
    (∀ a, (∀ p ∈ ps, p.holds a) ∧ Within s.doms a ↔ ∃ (i : Nat) (d : Doms), t.found[i]? = some d ∧ Within d a ∧ ∀ (j : Nat) (e : Doms), t.found[j]? = some e → Within e a → j = i) ∧
    (∀ d ∈ t.found, ∀ x ∈ vars, ∃ v, ∀ a, Within d a → x.eval a = v) ∧ t.found.Pairwise (Distinguished vars) := by
  have hen : Enough V s depthFuel fuel none := ⟨hd, hf, nofun⟩
  refine ⟨fun a => Iff.trans ⟨fun h => ⟨⟨hin a h.2, h.1⟩, h.2⟩, fun h => ⟨h.1.2, h.2⟩⟩ (enumeration_exactly_once hC hst hen hr ho rfl a), fun d hm x hx => ?_, enumeration_distinct hC hst hen hr ho⟩
  obtain ⟨hl, hlen, ⟨a0, ha0⟩, _⟩ := reported_are_solutions hC hst hen hr d hm
  refine ⟨x.eval a0, fun a ha => ?_⟩
  have key : ∀ i, x.underlyingIndex = some i → a i = a0 i := by
    intro i hi
    obtain ⟨s, hs, w, hw⟩ := hl i (List.mem_filterMap.2 ⟨x, hx, hi⟩)
    rw [(hw _).1 (ha i s hs), (hw _).1 (ha0 i s hs)]
  cases x with
  | const c => rfl
  | simple i => exact key i rfl
  | view i ng k => simp only [VarId.eval]; rw [key i rfl]

/-- C25, C26: all solutions of the constraints within the initial domains are reported, each once, and nothing else is; each report fixes the variables branched on, and no two agree on all of these. -/
theorem solve_enumerates {V : SearchEnv σ μ} {ps : List (Posting σ μ)} {vars : List VarId} {rt : Doms} (hp : PostingsOK n m R V.engine rt ps) (hb : BranchesOn n m V vars) (hc : Covered V ps vars n)
    (hmono : ∀ i j, i ≤ j → V.abort i = true → V.abort j = true) (hlearn : V.learn = none) {s s' : Sys σ μ} (hroot : RootOK n m V.engine s) (hg : s.st.guesses = []) (hin : Rooted rt s)
    {depthFuel fuel : Nat} (hd : s.doms.card < depthFuel) (hf : 0 < fuel) (ho : V.minimise = none) {res : SearchResult} {has : Bool} {t : Tally}
    (hr : search V depthFuel fuel none s = .ok ((res, has, s', t), true)) :
    (∀ a, (∀ p ∈ ps, p.holds a) ∧ Within s.doms a ↔ ∃ (i : Nat) (d : Doms), t.found[i]? = some d ∧ Within d a ∧ ∀ (j : Nat) (e : Doms), t.found[j]? = some e → Within e a → j = i) ∧
    (∀ d ∈ t.found, ∀ x ∈ vars, ∃ v, ∀ a, Within d a → x.eval a = v) ∧ t.found.Pairwise (Distinguished vars) := by
  obtain ⟨I, hC⟩ := solve_contract hp hb hc hmono hlearn
  have hst : StartOK n m V (fun _ => []) (fun s => True ∧ Rooted rt s) s := ⟨hroot, ⟨trivial, hin⟩, hg, rfl⟩
  exact contract_enumerates hC hst hin hd hf ho hr

/-- The same with an objective. -/
theorem contract_optimises {V : SearchEnv σ μ} {ps : List (Posting σ μ)} {vars : List VarId} {rt : Doms} {s s' : Sys σ μ} {J : Sys σ μ → Prop} {I : Nat → Sys σ μ → Prop}
    (hC : SearchContract n m R V (fun a => Within rt a ∧ ∀ p ∈ ps, p.holds a) (fun d => ∀ v ∈ vars.filterMap VarId.underlyingIndex, Fixed d v) (fun _ => []) (fun _ _ => True) J I)
    (hst : StartOK n m V (fun _ => []) J s) (hin : Rooted rt s)
    {depthFuel fuel : Nat} (hd : s.doms.card < depthFuel) (hf : 0 < fuel) {o : VarId} (ho : V.minimise = some o) {res : SearchResult} {has : Bool} {t : Tally}
    (hr : search V depthFuel fuel none s = .ok ((res, has, s', t), true)) :
    (t.found = [] ∧ ∀ a, Within s.doms a → ¬ ∀ p ∈ ps, p.holds a) ∨
    ∃ d v, t.found.getLast? = some d ∧ (∃ a, Within d a) ∧ (∀ a, Within d a → (∀ p ∈ ps, p.holds a) ∧ Within s.doms a ∧ o.eval a = v) ∧
      ∀ b, (∀ p ∈ ps, p.holds b) → Within s.doms b → v ≤ o.eval b := by
  have hen : Enough V s depthFuel fuel none := ⟨hd, hf, nofun⟩
  rcases optimisation_optimal hC hst hen hr ho rfl with ⟨h1, _, h3⟩ | ⟨d, v, h1, _, h3, h4⟩
  · exact .inl ⟨h1, fun a ha hs => h3 a ha ⟨hin a ha, hs⟩⟩
  · exact .inr ⟨d, v, h1, (reported_are_solutions hC hst hen hr d (List.mem_of_getLast? h1)).2.2.1, fun a ha => ⟨(h3 a ha).1.2, (h3 a ha).2⟩, fun b hb hw => h4 b ⟨hin b hw, hb⟩ hw⟩

/-- C28: with an objective, the last solution reported is one of the constraints' best solutions within the initial domains, or there are none and nothing is reported. -/
theorem solve_optimises {V : SearchEnv σ μ} {ps : List (Posting σ μ)} {vars : List VarId} {rt : Doms} (hp : PostingsOK n m R V.engine rt ps) (hb : BranchesOn n m V vars) (hc : Covered V ps vars n)
    (hmono : ∀ i j, i ≤ j → V.abort i = true → V.abort j = true) (hlearn : V.learn = none) {s s' : Sys σ μ} (hroot : RootOK n m V.engine s) (hg : s.st.guesses = []) (hin : Rooted rt s)
    {depthFuel fuel : Nat} (hd : s.doms.card < depthFuel) (hf : 0 < fuel) {o : VarId} (ho : V.minimise = some o) {res : SearchResult} {has : Bool} {t : Tally}
    (hr : search V depthFuel fuel none s = .ok ((res, has, s', t), true)) :
    (t.found = [] ∧ ∀ a, Within s.doms a → ¬ ∀ p ∈ ps, p.holds a) ∨
    ∃ d v, t.found.getLast? = some d ∧ (∃ a, Within d a) ∧ (∀ a, Within d a → (∀ p ∈ ps, p.holds a) ∧ Within s.doms a ∧ o.eval a = v) ∧
      ∀ b, (∀ p ∈ ps, p.holds b) → Within s.doms b → v ≤ o.eval b := by
  obtain ⟨I, hC⟩ := solve_contract hp hb hc hmono hlearn
  have hst : StartOK n m V (fun _ => []) (fun s => True ∧ Rooted rt s) s := ⟨hroot, ⟨trivial, hin⟩, hg, rfl⟩
  exact contract_optimises hC hst hin hd hf ho hr

end

/-! ## A concrete problem -/

namespace Demo

theorem less_checks {n : Nat} (x y : VarId) (k : Int) (hk : InI64 k) (hx : x.Valid n) (hy : y.Valid n) {i j : Nat} (ei : x.underlyingIndex = some i) (ej : y.underlyingIndex = some j) :
    Checks n (less x y k) { onBounds := [x, y] } (fun a => x.eval a + k < y.eval a) [i, j] where
  wakes := by
    intro v hv
    simp only [List.mem_cons, List.not_mem_nil, or_false] at hv
    rcases hv with rfl | rfl
    · exact ⟨x, .inr (.inl (by simp)), ei⟩
    · exact ⟨y, .inr (.inl (by simp)), ej⟩
  checks := by
    intro d hd hl
    refine wp_ask fun r hr => ?_
    intro d1 _ _ h1 d2 _ _ h2
    refine ⟨fun hfix a ha => ?_, fun _ => nofun, nofun⟩
    have w1 := (h2 a).1 ha
    have w0 := (h1 a).1 w1.1
    have hge : r.1 ≤ y.eval a := w0.2
    have hsame : ∀ b, Within d b → x.eval b = x.eval a := by
      intro b hb
      obtain ⟨s, hs, w, hw⟩ := hfix i (by simp)
      have e : b i = a i := by rw [(hw _).1 (hb i s hs), (hw _).1 (w0.1 i s hs)]
      cases x with
      | const c => rfl
      | simple i' => cases ei; exact e
      | view i' ng k => cases ei; simp only [VarId.eval]; rw [e]
    obtain ⟨lx, e1, hr⟩ := bind_ok hr
    obtain ⟨uy, e2, hr⟩ := bind_ok hr
    obtain ⟨lo, e3, hr⟩ := bind_ok hr
    obtain ⟨hi, e4, hr⟩ := bind_ok hr
    obtain ⟨lo1, e5, hr⟩ := bind_ok hr
    cases hr
    have l1 := (lower_roo hd (by rw [hl]; exact hx)).value e1
    have l3 := (add_roo l1.1 hk).value e3
    have l5 := (add_roo l3.2 (by decide)).value e5
    obtain ⟨b, hb, eb⟩ := l1.2.1
    have := hsame b hb
    have hge : lo1 ≤ y.eval a := hge
    omega

def postings : List (Posting Unit Unit) :=
  [⟨less x y 0, { onBounds := [x, y] }, fun a => x.eval a + 0 < y.eval a, [0, 1]⟩, ⟨less y x (-3), { onBounds := [x, y] }, fun a => y.eval a + -3 < x.eval a, [0, 1]⟩]

theorem postings_ok : PostingsOK 2 0 (· = .overflow) E s0.doms postings where
  built := built
  enabled := by
    intro p hp
    match p, hp with
    | 0, _ => rfl
    | 1, _ => rfl
    | p + 2, hp => simp only [postings, List.length_cons, List.length_nil] at hp; omega
  sound := by
    intro p hp a _ ha
    have ha := ha p hp
    simp only [postings, List.mem_cons, List.not_mem_nil, or_false] at hp
    rcases hp with rfl | rfl
    · exact (less_sound x y 0 (by decide) (show 0 < 2 by decide) (show 1 < 2 by decide) a ha).truthful
    · exact (less_sound y x (-3) (by decide) (show 1 < 2 by decide) (show 0 < 2 by decide) a ha).truthful
  checks := by
    intro p hp
    simp only [postings, List.mem_cons, List.not_mem_nil, or_false] at hp
    rcases hp with rfl | rfl
    · exact (less_checks x y 0 (by decide) (show 0 < 2 by decide) (show 1 < 2 by decide) rfl rfl).mono fun _ h _ => h
    · have := less_checks (n := 2) y x (-3) (by decide) (show 1 < 2 by decide) (show 0 < 2 by decide) (i := 1) (j := 0) rfl rfl
      refine Checks.mono ⟨fun v hv => by
          obtain ⟨z, hz, e⟩ := this.wakes v (by simp only [List.mem_cons, List.not_mem_nil, or_false] at hv ⊢; exact hv.symm)
          refine ⟨z, ?_, e⟩
          simp only [List.mem_cons, List.not_mem_nil, or_false, false_or, or_comm] at hz ⊢
          exact hz,
        fun d h1 h2 => wp_mono (fun ps d' ⟨k1, k2, k3⟩ =>
          ⟨fun hf => k1 fun v hv => hf v (by simp only [List.mem_cons, List.not_mem_nil, or_false] at hv ⊢; exact hv.symm),
          fun _ e hf => k2 (by unfold Triggers.Distinct; decide) e fun v hv => hf v (by simp only [List.mem_cons, List.not_mem_nil, or_false] at hv ⊢; exact hv.symm), k3⟩) _ _ (this.checks d h1 h2)⟩ fun _ h _ => h

/-- Enumerating, in order, smallest value first. -/
def all : SearchEnv Unit Unit where
  engine := E
  abort := fun _ => false
  branch := fun _ s => branchWith (inOrder [x, y]) smallestFirst s.doms
  solution := fun _ _ => true
  trace := fun _ _ => true
  minimise := none
  learn := none

/-- Minimising `-x`, smallest domain first, splitting. -/
def best : SearchEnv Unit Unit :=
  { all with minimise := some (.view 0 true 0), branch := fun _ s => branchWith (dom [x, y]) splitSmallestFirst s.doms }

theorem root : RootOK 2 0 E s0 where
  call := call
  ids := by simp [IdsOK, s0, Watches.empty, armed]
  aligned := by constructor <;> simp [s0, Watches.empty]

theorem vars_valid : ∀ v ∈ [x, y], v.Valid 2 := by
  intro v hv
  simp only [List.mem_cons, List.not_mem_nil, or_false] at hv
  rcases hv with rfl | rfl
  · show 0 < 2; decide
  · show 1 < 2; decide

theorem branches_all : BranchesOn 2 0 all [x, y] where
  valid := vars_valid
  shape := fun _ s hs => by
    have hl : s.doms.length = 2 := hs.call.domsLen
    refine ⟨_, _, rfl, inOrder_picks hs.call.domsOK (by rw [hl]; exact vars_valid), fun v hv ho => ?_, smallestFirst_guesses⟩
    exact (smallestFirst_branches_partial hs.call.domsOK (by rw [hl]; exact vars_valid v hv) ho).mono fun _ h => h.1

theorem branches_best : BranchesOn 2 0 best [x, y] where
  valid := vars_valid
  shape := fun _ s hs => by
    have hl : s.doms.length = 2 := hs.call.domsLen
    refine ⟨_, _, rfl, (dom_chooses hs.call.domsOK (by rw [hl]; exact vars_valid)).mono fun _ h => h.picked, fun v hv ho => ?_, splitSmallestFirst_guesses⟩
    refine (splitSmallestFirst_branches_partial hs.call.domsOK (by rw [hl]; exact vars_valid v hv) ho ?_).mono fun _ h => h.1
    intro hn
    simp only [List.mem_cons, List.not_mem_nil, or_false] at hv
    rcases hv with rfl | rfl <;> cases hn

theorem about : ∀ p ∈ postings, ∀ v ∈ p.about, ∃ z ∈ [x, y], z.underlyingIndex = some v := by
  intro p hp v hv
  have : v = 0 ∨ v = 1 := by
    simp only [postings, List.mem_cons, List.not_mem_nil, or_false] at hp
    rcases hp with rfl | rfl <;> simpa using hv
  rcases this with rfl | rfl
  · exact ⟨x, by simp, rfl⟩
  · exact ⟨y, by simp, rfl⟩

theorem covered_all : Covered all postings [x, y] 2 := ⟨about, fun o ho => nomatch ho⟩

theorem covered_best : Covered best postings [x, y] 2 := by
  refine ⟨about, fun o ho => ?_⟩
  cases ho
  refine ⟨⟨by decide, by decide⟩, fun v hv => ?_⟩
  cases hv
  exact ⟨x, by simp, rfl⟩

/-- The search finds the five solutions, in this order. -/
theorem all_runs : ∃ res has s' t, search all 10 1 none s0 = .ok ((res, has, s', t), true) ∧
    t.found = [[[(0, 0)], [(1, 1)]], [[(0, 0)], [(2, 2)]], [[(1, 1)], [(2, 2)]], [[(1, 1)], [(3, 3)]], [[(2, 2)], [(3, 3)]]] ∧ t.recursions = 8 := by
  have h : (match search all 10 1 none s0 with
    | .ok ((_, _, _, t), true) =>
      decide (t.found = [[[(0, 0)], [(1, 1)]], [[(0, 0)], [(2, 2)]], [[(1, 1)], [(2, 2)]], [[(1, 1)], [(3, 3)]], [[(2, 2)], [(3, 3)]]] ∧ t.recursions = 8)
    | _ => false) = true := by decide +kernel
  split at h
  · exact ⟨_, _, _, _, by assumption, of_decide_eq_true h⟩
  · cases h

theorem best_runs : ∃ res has s' t, search best 10 1 none s0 = .ok ((res, has, s', t), true) ∧ t.found.getLast? = some [[(2, 2)], [(3, 3)]] := by
  have h : (match search best 10 1 none s0 with
    | .ok ((_, _, _, t), true) => decide (t.found.getLast? = some [[(2, 2)], [(3, 3)]])
    | _ => false) = true := by decide +kernel
  split at h
  · exact ⟨_, _, _, _, by assumption, of_decide_eq_true h⟩
  · cases h

example : ∀ a, ((∀ p ∈ postings, p.holds a) ∧ Within s0.doms a) → ∃ d ∈ [[[(0, 0)], [(1, 1)]], [[(0, 0)], [(2, 2)]], [[(1, 1)], [(2, 2)]], [[(1, 1)], [(3, 3)]], [[(2, 2)], [(3, 3)]]], Within d a := by
  obtain ⟨res, has, s', t, h, hf, _⟩ := all_runs
  have := (solve_enumerates (V := all) postings_ok branches_all covered_all (by intro i j _ h; cases h) rfl root rfl (fun _ h => h) (by decide) (by decide) rfl h).1
  intro a ha
  obtain ⟨i, d, hd, hw, _⟩ := (this a).1 ha
  rw [hf] at hd
  exact ⟨d, List.mem_of_getElem? hd, hw⟩

example : ∀ b, (∀ p ∈ postings, p.holds b) → Within s0.doms b → -2 ≤ (VarId.view 0 true 0).eval b := by
  obtain ⟨res, has, s', t, h, hf⟩ := best_runs
  rcases solve_optimises (V := best) postings_ok branches_best covered_best (by intro i j _ h; cases h) rfl root rfl (fun _ h => h) (by decide) (by decide) rfl h with ⟨h1, _⟩ | ⟨d, v, h1, ⟨a, ha⟩, h2, h3⟩
  · rw [h1] at hf; cases hf
  · rw [hf] at h1; cases h1
    have e := (h2 a ha).2.2
    have := ha 0 _ rfl
    have : a 0 = 2 := by simp [Mem] at this; omega
    have e : -(a 0) + 0 = v := e
    intro b hb hw
    have := h3 b hb hw
    omega

/-- The contract itself, so that the theorems in `Props/Search.lean` that are about more than completed runs apply too. -/
example : ∃ I, SearchContract 2 0 (· = .overflow) all (fun a => Within s0.doms a ∧ ∀ p ∈ postings, p.holds a) (fun d => ∀ v ∈ [x, y].filterMap VarId.underlyingIndex, Fixed d v) (fun _ => []) (fun _ _ => True) (fun s => True ∧ Rooted s0.doms s) I :=
  solve_contract postings_ok branches_all covered_all (by intro i j _ h; cases h) rfl

example : StartOK 2 0 all (fun _ => []) (fun s => True ∧ Rooted s0.doms s) s0 ∧ Enough all s0 10 1 none := ⟨⟨root, ⟨trivial, fun _ h => h⟩, rfl, rfl⟩, by decide, by decide, nofun⟩

end Demo
end Gcs
