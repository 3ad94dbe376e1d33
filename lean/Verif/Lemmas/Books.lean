import Verif.Lemmas.Install
import Verif.Spec.Books

/-! Degrees, adjacency and disabling. -/

namespace Gcs
open Watches (growTo)

section
variable {σ μ : Type}

theorem mem_pushNew (l : List Nat) (x y : Nat) : y ∈ Engine.pushNew l x ↔ y ∈ l ∨ y = x := by
  unfold Engine.pushNew
  split
  · exact ⟨.inl, fun h => h.elim id fun e => e ▸ ‹_›⟩
  · simp

theorem nodup_pushNew {l : List Nat} (h : l.Nodup) (x : Nat) : (Engine.pushNew l x).Nodup := by
  unfold Engine.pushNew
  split
  · exact h
  · rename_i hx
    refine List.nodup_append.2 ⟨h, by simp, ?_⟩
    intro a ha b hb e
    rw [List.mem_singleton.1 hb] at e
    exact hx (e ▸ ha)

theorem mem_pushAll (y : Nat) : ∀ xs l : List Nat, y ∈ xs.foldl Engine.pushNew l ↔ y ∈ l ∨ y ∈ xs
  | [], l => by simp
  | x :: xs, l => by
    rw [List.foldl_cons, mem_pushAll y xs, mem_pushNew, List.mem_cons, or_assoc]

theorem nodup_pushAll : ∀ (xs : List Nat) {l : List Nat}, l.Nodup → (xs.foldl Engine.pushNew l).Nodup
  | [], _, h => h
  | x :: xs, _, h => nodup_pushAll xs (nodup_pushNew h x)

/-- Setting an entry of a table that grows if needed. -/
theorem getD_growSet {α : Type} (d : α) (l : List α) (i j : Nat) (a : α) : (((growTo d (i + 1) l).set i a)[j]?).getD d = if i = j then a else l[j]?.getD d := by
  rw [List.getElem?_set, growTo_get, growTo_length]
  by_cases h : i = j
  · subst h
    rw [if_pos rfl, if_pos (by omega), if_pos rfl]; rfl
  · rw [if_neg h, if_neg h]
    by_cases h1 : j < l.length
    · rw [if_pos h1]
    · rw [if_neg h1, List.getElem?_eq_none (Nat.le_of_not_lt h1)]; split <;> rfl

theorem getD_grow {α : Type} (d : α) (l : List α) (k j : Nat) : (growTo d k l)[j]?.getD d = l[j]?.getD d := by
  rw [growTo_get]
  by_cases h1 : j < l.length
  · rw [if_pos h1]
  · rw [if_neg h1, List.getElem?_eq_none (Nat.le_of_not_lt h1)]; split <;> rfl

theorem increase_get (l : List Nat) (i j : Nat) : (Engine.increaseDegree l i)[j]?.getD 0 = l[j]?.getD 0 + if i = j then 1 else 0 := by
  unfold Engine.increaseDegree
  rw [getD_growSet]
  by_cases h : i = j
  · subst h; rw [if_pos rfl, if_pos rfl, getD_grow]
  · rw [if_neg h, if_neg h]; rfl

theorem increaseAll_get (j : Nat) : ∀ (xs : List Nat) (l : List Nat), (xs.foldl Engine.increaseDegree l)[j]?.getD 0 = l[j]?.getD 0 + xs.count j
  | [], l => by simp
  | x :: xs, l => by
    rw [List.foldl_cons, increaseAll_get j xs, increase_get, List.count_cons]
    by_cases h : x = j
    · simp [h]; omega
    · simp [h]

theorem adjacent_get (c : Nat) (l : List (List Nat)) (i j : Nat) : (Engine.addAdjacent c l i)[j]?.getD [] = if i = j then Engine.pushNew (l[j]?.getD []) c else l[j]?.getD [] := by
  unfold Engine.addAdjacent
  rw [getD_growSet, getD_grow]
  by_cases h : i = j
  · subst h; rfl
  · rw [if_neg h, if_neg h]

theorem mem_adjacentAll (c j x : Nat) : ∀ (is : List Nat) (l : List (List Nat)), x ∈ (is.foldl (Engine.addAdjacent c) l)[j]?.getD [] ↔ x ∈ l[j]?.getD [] ∨ (x = c ∧ j ∈ is)
  | [], l => by simp
  | i :: is, l => by
    rw [List.foldl_cons, mem_adjacentAll c j x is, adjacent_get]
    by_cases h : i = j
    · subst h
      rw [if_pos rfl, mem_pushNew]
      simp only [List.mem_cons, true_or, and_true]
      constructor
      · rintro ((a | a) | ⟨a, -⟩)
        · exact .inl a
        · exact .inr a
        · exact .inr a
      · rintro (a | a)
        · exact .inl (.inl a)
        · exact .inl (.inr a)
    · rw [if_neg h, List.mem_cons]
      have : ¬ j = i := fun e => h e.symm
      simp only [this, false_or]

theorem nodup_adjacentAll (c j : Nat) : ∀ (is : List Nat) (l : List (List Nat)), (l[j]?.getD []).Nodup → ((is.foldl (Engine.addAdjacent c) l)[j]?.getD []).Nodup
  | [], _, h => h
  | i :: is, l, h => by
    rw [List.foldl_cons]
    refine nodup_adjacentAll c j is _ ?_
    rw [adjacent_get]
    split
    · exact nodup_pushNew h c
    · exact h

/-- The constraint identities once `c` is among them. -/
def withId (ids : List Nat) (c : Nat) : List Nat := if c ∈ ids then ids else ids ++ [c]

theorem mem_withId (ids : List Nat) (c x : Nat) : x ∈ withId ids c ↔ x ∈ ids ∨ x = c := mem_pushNew ids c x

theorem nodup_withId {ids : List Nat} (h : ids.Nodup) (c : Nat) : (withId ids c).Nodup := nodup_pushNew h c

theorem withId_get {ids : List Nat} {c j x : Nat} (h : ids[j]? = some x) : (withId ids c)[j]? = some x := by
  unfold withId
  split
  · exact h
  · have hl := (List.getElem?_eq_some_iff.1 h).1
    rw [List.getElem?_append_left hl]; exact h

theorem withId_self (ids : List Nat) (c : Nat) : (withId ids c)[(withId ids c).idxOf c]? = some c := by
  have : c ∈ withId ids c := (mem_withId ids c c).2 (.inr rfl)
  have hl := List.idxOf_lt_length_iff.2 this
  rw [List.getElem?_eq_getElem hl, List.getElem_idxOf hl]

theorem index_unique {ids : List Nat} (h : ids.Nodup) {i j c : Nat} (hi : ids[i]? = some c) (hj : ids[j]? = some c) : i = j := by
  obtain ⟨hl, -⟩ := List.getElem?_eq_some_iff.1 hi
  exact (List.getElem?_inj hl h).1 (hi.trans hj.symm)

theorem withId_old {ids : List Nat} {c j x : Nat} (h : (withId ids c)[j]? = some x) : ids[j]? = some x ∨ x = c ∧ ids.length ≤ j := by
  unfold withId at h
  split at h
  · exact .inl h
  · rw [List.getElem?_append] at h
    split at h
    · exact .inl h
    · have := List.mem_of_getElem? h
      exact .inr ⟨List.mem_singleton.1 this, by omega⟩

theorem install_books (E : Engine σ μ) (c : Nat) (f : Prog σ μ PState) (t : Triggers) :
    (E.install c f t).constraintIds = withId E.constraintIds c ∧
    (E.install c f t).propConstraint = E.propConstraint ++ [(withId E.constraintIds c).idxOf c] ∧
    (E.install c f t).scope = E.scope ++ [t.about.foldl Engine.pushNew []] ∧
    (E.install c f t).varConstraints = (t.about.foldl Engine.pushNew []).foldl (Engine.addAdjacent ((withId E.constraintIds c).idxOf c)) E.varConstraints ∧
    (E.install c f t).constraintScope = (growTo [] ((withId E.constraintIds c).idxOf c + 1) E.constraintScope).set ((withId E.constraintIds c).idxOf c)
      ((t.about.foldl Engine.pushNew []).foldl Engine.pushNew ((growTo [] ((withId E.constraintIds c).idxOf c + 1) E.constraintScope)[(withId E.constraintIds c).idxOf c]?.getD [])) ∧
    (E.install c f t).degrees = (t.about.foldl Engine.pushNew []).foldl Engine.increaseDegree E.degrees := by
  unfold Engine.install
  simp only [Engine.triggerOnChange, Engine.triggerOnBounds, Engine.triggerOnInstantiated]
  rw [(foldl_triggers _ _ _ _).1, (foldl_triggers _ _ _ _).1, (foldl_triggers _ _ _ _).1]
  exact ⟨rfl, rfl, rfl, rfl, rfl, rfl⟩

theorem scope_of_about (t : Triggers) : (t.about.foldl Engine.pushNew []).Nodup ∧ ∀ i, i ∈ t.about.foldl Engine.pushNew [] ↔ i ∈ t.about :=
  ⟨nodup_pushAll _ .nil, fun i => by rw [mem_pushAll]; simp⟩

theorem count_scope (t : Triggers) (i : Nat) : (t.about.foldl Engine.pushNew []).count i = if i ∈ t.about then 1 else 0 := by
  obtain ⟨h1, h2⟩ := scope_of_about t
  split
  · rename_i h
    have a := List.nodup_iff_count.1 h1 i
    have b := List.count_pos_iff.2 ((h2 i).2 h)
    omega
  · rename_i h
    exact List.count_eq_zero.2 fun x => h ((h2 i).1 x)

/-- The books are right. -/
structure BooksOK (E : Engine σ μ) (acts : List (Act σ μ)) : Prop where
  progs : E.progs.length = (installed acts).length
  deg : ∀ i : Nat, E.degrees[i]?.getD 0 = (installed acts).countP fun x => decide (i ∈ x.2.about)
  idsNodup : E.constraintIds.Nodup
  ids : ∀ c, c ∈ E.constraintIds ↔ ∃ x ∈ installed acts, x.1 = c
  propLen : E.propConstraint.length = (installed acts).length
  prop : ∀ (p : Nat) (x : Nat × Triggers), (installed acts)[p]? = some x → ∃ ci, E.propConstraint[p]? = some ci ∧ E.constraintIds[ci]? = some x.1
  scopeLen : E.scope.length = (installed acts).length
  scope : ∀ (p : Nat) (x : Nat × Triggers), (installed acts)[p]? = some x → ∃ s : List Nat, E.scope[p]? = some s ∧ s.Nodup ∧ ∀ i, i ∈ s ↔ i ∈ x.2.about
  adjNodup : ∀ i : Nat, (E.varConstraints[i]?.getD []).Nodup
  adj : ∀ i ci : Nat, ci ∈ E.varConstraints[i]?.getD [] ↔ ∃ c, E.constraintIds[ci]? = some c ∧ Touches acts c i
  csLen : E.constraintScope.length = E.constraintIds.length
  csNodup : ∀ ci : Nat, (E.constraintScope[ci]?.getD []).Nodup
  cs : ∀ ci i : Nat, i ∈ E.constraintScope[ci]?.getD [] ↔ ∃ c, E.constraintIds[ci]? = some c ∧ Touches acts c i

theorem BooksOK.empty : BooksOK (Engine.empty : Engine σ μ) [] where
  progs := rfl
  deg := by simp [Engine.empty, installed]
  idsNodup := .nil
  ids := by simp [Engine.empty, installed]
  propLen := rfl
  prop := by simp [installed]
  scopeLen := rfl
  scope := by simp [installed]
  adjNodup := by simp [Engine.empty]
  adj := by simp [Engine.empty]
  csLen := rfl
  csNodup := by simp [Engine.empty]
  cs := by simp [Engine.empty]

theorem installed_snoc (acts : List (Act σ μ)) (a : Act σ μ) : installed (acts ++ [a]) = installed acts ++ a.posts.toList := by
  unfold installed
  rw [List.filterMap_append]
  cases h : a.posts <;> simp [h]

theorem touches_install {acts : List (Act σ μ)} {c : Nat} {f : Prog σ μ PState} {t : Triggers} (d i : Nat) :
    Touches (acts ++ [.install c f t]) d i ↔ Touches acts d i ∨ c = d ∧ i ∈ t.about := by
  unfold Touches
  rw [installed_snoc]
  simp only [Act.posts, Option.toList, List.mem_append, List.mem_singleton]
  constructor
  · rintro ⟨x, hx | rfl, h⟩
    · exact .inl ⟨x, hx, h⟩
    · exact .inr h
  · rintro (⟨x, hx, h⟩ | h)
    · exact ⟨x, .inl hx, h⟩
    · exact ⟨(c, t), .inr rfl, h⟩

theorem BooksOK.disable {E : Engine σ μ} {acts : List (Act σ μ)} (h : BooksOK E acts) (ids : List Nat) : BooksOK (E.disableConstraints ids) (acts ++ [.disable ids]) := by
  have e : installed (acts ++ [.disable ids]) = installed acts := by rw [installed_snoc]; simp [Act.posts]
  have e2 : Touches (acts ++ [.disable ids]) = Touches acts := by unfold Touches; rw [e]
  obtain ⟨a1, a2, a3, a4, a5, a6, a7, a8, a9, a10, a11, a12, a13⟩ := h
  exact ⟨by rw [e]; exact a1, by rw [e]; exact a2, a3, by rw [e]; exact a4, by rw [e]; exact a5, by rw [e]; exact a6, by rw [e]; exact a7, by rw [e]; exact a8, a9, by rw [e2]; exact a10, a11, a12,
    by rw [e2]; exact a13⟩

/-- A table indexed by propagators grows by one. -/
theorem snoc_get {α β : Type} {l : List α} {r : List β} {a : α} {b : β} (hl : l.length = r.length) {P : α → β → Prop} (h : ∀ (p : Nat) x, l[p]? = some x → ∃ y, r[p]? = some y ∧ P x y) (hab : P a b)
    (p : Nat) (x : α) (hx : (l ++ [a])[p]? = some x) : ∃ y, (r ++ [b])[p]? = some y ∧ P x y := by
  rw [List.getElem?_append] at hx ⊢
  split at hx
  · rename_i hp
    rw [if_pos (by omega)]
    exact h p x hx
  · rename_i hp
    have hp : p = l.length := by
      have := (List.getElem?_eq_some_iff.1 hx).1
      simp at this; omega
    subst hp
    rw [if_neg (by omega)]
    simp only [Nat.sub_self, hl] at hx ⊢
    refine ⟨b, by simp, ?_⟩
    have : a = x := by simpa using hx
    exact this ▸ hab

theorem adj_install {ids : List Nat} (hn : ids.Nodup) {c ci : Nat} {T T' : Nat → Prop} {q : Prop} (hT : ∀ d, T d → d ∈ ids) (hT' : ∀ d, T' d ↔ T d ∨ c = d ∧ q) :
    ((∃ d, ids[ci]? = some d ∧ T d) ∨ (ci = (withId ids c).idxOf c ∧ q)) ↔ ∃ d, (withId ids c)[ci]? = some d ∧ T' d := by
  constructor
  · rintro (⟨d, h1, h2⟩ | ⟨rfl, h⟩)
    · exact ⟨d, withId_get h1, (hT' d).2 (.inl h2)⟩
    · exact ⟨c, withId_self ids c, (hT' c).2 (.inr ⟨rfl, h⟩)⟩
  · rintro ⟨d, h1, h2⟩
    rcases (hT' d).1 h2 with h2 | ⟨rfl, h3⟩
    · obtain ⟨j, hj⟩ := List.mem_iff_getElem?.1 (hT d h2)
      have e := index_unique (nodup_withId hn c) (withId_get (c := c) hj) h1
      exact .inl ⟨d, e ▸ hj, h2⟩
    · exact .inr ⟨index_unique (nodup_withId hn c) h1 (withId_self ids c), h3⟩

theorem BooksOK.install {E : Engine σ μ} {acts : List (Act σ μ)} (h : BooksOK E acts) (c : Nat) (f : Prog σ μ PState) (t : Triggers) :
    BooksOK (E.install c f t) (acts ++ [.install c f t]) := by
  have e : installed (acts ++ [.install c f t]) = installed acts ++ [(c, t)] := by rw [installed_snoc]; rfl
  obtain ⟨b1, b2, b3, b4, b5, b6⟩ := install_books E c f t
  obtain ⟨s1, s2⟩ := scope_of_about t
  have hT : ∀ i d, Touches acts d i → d ∈ E.constraintIds := fun i d ⟨x, hx, e, _⟩ => (h.ids d).2 ⟨x, hx, e⟩
  refine ⟨?_, ?_, ?_, ?_, ?_, ?_, ?_, ?_, ?_, ?_, ?_, ?_, ?_⟩
  · rw [(install_fields E c f t).1, e]; simp [h.progs]
  · intro i
    rw [b6, increaseAll_get, h.deg, count_scope, e, List.countP_append]
    congr 1
    by_cases hi : i ∈ t.about <;> simp [hi]
  · rw [b1]; exact nodup_withId h.idsNodup c
  · intro d
    rw [b1, mem_withId, h.ids, e]
    simp only [List.mem_append, List.mem_singleton]
    constructor
    · rintro (⟨x, hx, h⟩ | rfl)
      · exact ⟨x, .inl hx, h⟩
      · exact ⟨_, .inr rfl, rfl⟩
    · rintro ⟨x, hx | rfl, h⟩
      · exact .inl ⟨x, hx, h⟩
      · exact .inr h.symm
  · rw [b2, e]; simp [h.propLen]
  · rw [b1, b2, e]
    refine snoc_get h.propLen.symm (P := fun x ci => (withId E.constraintIds c)[ci]? = some x.1) (fun p x hx => ?_) (withId_self _ c)
    obtain ⟨ci, h1, h2⟩ := h.prop p x hx
    exact ⟨ci, h1, withId_get h2⟩
  · rw [b3, e]; simp [h.scopeLen]
  · rw [b3, e]
    exact snoc_get h.scopeLen.symm (P := fun x s => s.Nodup ∧ ∀ i, i ∈ s ↔ i ∈ x.2.about) h.scope ⟨s1, s2⟩
  · intro i
    rw [b4]; exact nodup_adjacentAll _ i _ _ (h.adjNodup i)
  · intro i ci
    rw [b4, mem_adjacentAll, h.adj, s2, b1]
    exact adj_install h.idsNodup (hT i) fun d => touches_install d i
  · rw [b5, b1, List.length_set, growTo_length, h.csLen]
    by_cases hc : c ∈ E.constraintIds
    · have : (withId E.constraintIds c) = E.constraintIds := if_pos hc
      rw [this]
      have := List.idxOf_lt_length_iff.2 hc
      omega
    · have e : (withId E.constraintIds c) = E.constraintIds ++ [c] := if_neg hc
      have e2 : (E.constraintIds ++ [c]).idxOf c = E.constraintIds.length := by rw [List.idxOf_append, if_neg hc]; simp
      rw [e, e2]; simp
  · intro ci
    rw [b5, getD_growSet]
    split
    · rw [getD_grow]; exact nodup_pushAll _ (h.csNodup _)
    · exact h.csNodup ci
  · intro ci i
    rw [b5, getD_growSet, b1]
    rw [← adj_install h.idsNodup (hT i) fun d => touches_install d i]
    by_cases hc : (withId E.constraintIds c).idxOf c = ci
    · rw [if_pos hc, mem_pushAll, getD_grow, s2, hc, h.cs]
      simp
    · rw [if_neg hc, h.cs]
      have : ¬ ci = (withId E.constraintIds c).idxOf c := fun e => hc e.symm
      simp [this]

theorem BooksOK.apply {E : Engine σ μ} {acts : List (Act σ μ)} (h : BooksOK E acts) : ∀ a : Act σ μ, BooksOK (a.apply E) (acts ++ [a])
  | .install c f t => h.install c f t
  | .disable ids => h.disable ids

theorem BooksOK.all : ∀ (acts : List (Act σ μ)) {E : Engine σ μ} {pre : List (Act σ μ)}, BooksOK E pre → BooksOK (acts.foldl Act.apply E) (pre ++ acts)
  | [], _, _, h => by simpa using h
  | a :: acts, E, pre, h => by
    have := BooksOK.all acts (h.apply a)
    rwa [List.append_assoc] at this

theorem books_after (acts : List (Act σ μ)) : BooksOK (Engine.after acts) acts := BooksOK.all acts BooksOK.empty

/-! ## Disabling -/

theorem disabled_apply {E : Engine σ μ} {acts : List (Act σ μ)} (h : BooksOK E acts) {p c : Nat} {t : Triggers} (hp : (installed acts)[p]? = some (c, t)) {b : Bool} (hb : E.permDisabled[p]? = some b) :
    ∀ a : Act σ μ, (a.apply E).permDisabled[p]? = some (b || match a with | .disable ids => decide (c ∈ ids) | .install .. => false)
  | .install c' f t' => by
    change (E.install c' f t').permDisabled[p]? = _
    rw [(install_fields E c' f t').2.1, List.getElem?_append_left (List.getElem?_eq_some_iff.1 hb).1, hb, Bool.or_false]
  | .disable ids => by
    obtain ⟨ci, h1, h2⟩ := h.prop p _ hp
    change (E.disableConstraints ids).permDisabled[p]? = _
    have hl := (List.getElem?_eq_some_iff.1 hb).1
    unfold Engine.disableConstraints
    simp only [List.getElem?_map, List.getElem?_range hl, Option.map_some, hb, h1, h2, Option.getD_some]

theorem installed_mono {acts : List (Act σ μ)} {p : Nat} {x : Nat × Triggers} (h : (installed acts)[p]? = some x) (a : Act σ μ) : (installed (acts ++ [a]))[p]? = some x := by
  rw [installed_snoc, List.getElem?_append_left (List.getElem?_eq_some_iff.1 h).1]; exact h

theorem disabled_all {p c : Nat} {t : Triggers} : ∀ (acts : List (Act σ μ)) {E : Engine σ μ} {pre : List (Act σ μ)} {b : Bool}, BooksOK E pre → (installed pre)[p]? = some (c, t) →
    E.permDisabled[p]? = some b → ∃ b', (acts.foldl Act.apply E).permDisabled[p]? = some b' ∧ (b' = true ↔ b = true ∨ ∃ ids, Act.disable ids ∈ acts ∧ c ∈ ids)
  | [], _, _, b, _, _, hb => ⟨b, hb, by simp⟩
  | a :: acts, E, pre, b, h, hp, hb => by
    obtain ⟨b', h1, h2⟩ := disabled_all acts (h.apply a) (installed_mono hp a) (disabled_apply h hp hb a)
    refine ⟨b', h1, h2.trans ?_⟩
    cases a with
    | install c' f t' => simp
    | disable ids =>
      simp only [Bool.or_eq_true, decide_eq_true_eq, List.mem_cons, Act.disable.injEq]
      constructor
      · rintro ((x | x) | ⟨i, x, y⟩)
        · exact .inl x
        · exact .inr ⟨ids, .inl rfl, x⟩
        · exact .inr ⟨i, .inr x, y⟩
      · rintro (x | ⟨i, rfl | x, y⟩)
        · exact .inl (.inl x)
        · exact .inl (.inr y)
        · exact .inr ⟨i, x, y⟩

theorem perm_length : ∀ (acts : List (Act σ μ)) {E : Engine σ μ}, E.permDisabled.length = E.progs.length → (acts.foldl Act.apply E).permDisabled.length = (acts.foldl Act.apply E).progs.length
  | [], _, h => h
  | a :: acts, E, h => by
    refine perm_length acts (E := a.apply E) ?_
    cases a with
    | install c f t =>
      change (E.install c f t).permDisabled.length = (E.install c f t).progs.length
      rw [(install_fields E c f t).2.1, (install_fields E c f t).1]; simp [h]
    | disable ids =>
      change (E.disableConstraints ids).permDisabled.length = E.progs.length
      unfold Engine.disableConstraints; simp [h]

end
end Gcs
