import Verif.Lemmas.WeightingSchemes

/-! Local weights. -/

namespace Gcs.Weighting.Refined

section
variable {σ μ : Type} {d d0 : Doms} {acts : List (Act σ μ)}

/-- What is remembered is right. -/
def Sizes (d : Doms) (m : List (Nat × Int)) : Prop := ∀ p ∈ m, ∃ k : Nat, Count d (.simple p.1) k ∧ p.2 = (k : Int)

theorem remember_roo (hd : DomsOK d) {m : List (Nat × Int)} (hm : Sizes d m) {v : Nat} (hv : v < d.length) :
    RightOrOverflow (remember d m v) fun m' => Sizes d m' ∧ (∀ p ∈ m, p ∈ m') ∧ ∃ p ∈ m', p.1 = v := by
  unfold remember
  refine (size_count hd (v := .simple v) hv).bind fun k ⟨j, hj, e⟩ => RightOrOverflow.pure ?_
  split
  · rename_i h
    obtain ⟨p, hp, e⟩ := List.any_eq_true.1 h
    exact ⟨hm, fun _ h => h, p, hp, of_decide_eq_true e⟩
  · refine ⟨?_, fun p hp => by simp [hp], (v, k), by simp, rfl⟩
    intro p hp
    rcases List.mem_cons.1 hp with rfl | hp
    · exact ⟨j, hj, e⟩
    · exact hm p hp

theorem rememberAll_roo (hd : DomsOK d) : ∀ (vs : List Nat) {m : List (Nat × Int)}, Sizes d m → (∀ v ∈ vs, v < d.length) →
    RightOrOverflow (rememberAll d vs m) fun m' => Sizes d m' ∧ (∀ p ∈ m, p ∈ m') ∧ ∀ v ∈ vs, ∃ p ∈ m', p.1 = v
  | [], m, hm, _ => RightOrOverflow.pure ⟨hm, fun _ h => h, by simp⟩
  | v :: vs, m, hm, hv => by
    unfold rememberAll
    refine (remember_roo hd hm (hv v (by simp))).bind fun m1 ⟨h1, h2, p, hp, e⟩ => ?_
    refine (rememberAll_roo hd vs h1 fun w hw => hv w (by simp [hw])).mono fun m2 ⟨h3, h4, h5⟩ => ⟨h3, fun q hq => h4 q (h2 q hq), ?_⟩
    intro w hw
    rcases List.mem_cons.1 hw with rfl | hw
    · exact ⟨p, h4 p hp, e⟩
    · exact h5 w hw

theorem scope_at {ci c : Nat} (h : (Engine.after acts).constraintIds[ci]? = some c) :
    ∃ s, vecAt (Engine.after acts).constraintScope ci = .ok s ∧ s.Nodup ∧ ∀ i, i ∈ s ↔ Touches acts c i := by
  have hb := books_after acts
  have hl : ci < (Engine.after acts).constraintScope.length := by rw [hb.csLen]; exact (List.getElem?_eq_some_iff.1 h).1
  have e : (Engine.after acts).constraintScope[ci]?.getD [] = (Engine.after acts).constraintScope[ci] := by rw [List.getElem?_eq_getElem hl]; rfl
  refine ⟨_, by unfold vecAt; rw [List.getElem?_eq_getElem hl], e ▸ hb.csNodup ci, fun i => ?_⟩
  rw [← e, hb.cs]
  exact ⟨fun ⟨d, h1, h2⟩ => by cases h.symm.trans h1; exact h2, fun h2 => ⟨c, h, h2⟩⟩

theorem rememberScopes_roo (hd : DomsOK d) (hn : Allocated acts d.length) : ∀ (cs : List Nat) {m : List (Nat × Int)}, Sizes d m → (∀ ci ∈ cs, ci < (Engine.after acts).constraintIds.length) →
    RightOrOverflow (rememberScopes (Engine.after acts) d cs m) fun m' => Sizes d m' ∧ (∀ p ∈ m, p ∈ m') ∧
      ∀ ci ∈ cs, ∀ c, (Engine.after acts).constraintIds[ci]? = some c → ∀ x, Touches acts c x → ∃ p ∈ m', p.1 = x
  | [], m, hm, _ => RightOrOverflow.pure ⟨hm, fun _ h => h, by simp⟩
  | ci :: cs, m, hm, hc => by
    obtain ⟨s, s1, -, s3⟩ := scope_at (acts := acts) (List.getElem?_eq_getElem (hc ci (by simp)))
    unfold rememberScopes
    rw [s1]
    change RightOrOverflow (do rememberScopes (Engine.after acts) d cs (← rememberAll d s m)) _
    refine (rememberAll_roo hd s hm fun v hv => hn _ v ((s3 v).1 hv)).bind fun m1 ⟨h1, h2, h3⟩ => ?_
    refine (rememberScopes_roo hd hn cs h1 fun cj hj => hc cj (by simp [hj])).mono fun m2 ⟨h4, h5, h6⟩ => ⟨h4, fun p hp => h5 p (h2 p hp), ?_⟩
    intro cj hj c hcj x hx
    rcases List.mem_cons.1 hj with rfl | hj
    · rw [List.getElem?_eq_getElem (hc cj (by simp))] at hcj
      cases hcj
      obtain ⟨p, hp, e⟩ := h3 x ((s3 x).2 hx)
      exact ⟨p, h5 p hp, e⟩
    · exact h6 cj hj c hcj x hx

/-- The local weight. -/
def weight (h : Refined) (ci x : Nat) : Rat := ((h.locals[ci]?.getD []).get x).getD 1

/-- What is always the case; `d0` are the domains at the start. -/
structure Fits (acts : List (Act σ μ)) (d0 : Doms) (h : Refined) : Prop where
  len : h.locals.length = (Engine.after acts).constraintIds.length
  proper : ∀ m ∈ h.locals, Weights.Proper m
  initial : ∀ c x, Touches acts c x → ∃ k : Nat, Count d0 (.simple x) k ∧ h.initial.find? (fun p => decide (p.1 = x)) = some (x, (k : Int))

theorem new_roo (hd : DomsOK d) (hn : Allocated acts d.length) (v : Variant) : RightOrOverflow (new (Engine.after acts) d v) fun h => Fits acts d h ∧ h.variant = v ∧ ∀ ci x, h.weight ci x = 1 := by
  unfold new
  refine (rememberScopes_roo hd hn (List.range (Engine.after acts).constraintIds.length) (m := []) (by simp [Sizes]) (by simp)).bind fun m ⟨h1, _, h3⟩ => RightOrOverflow.pure ⟨⟨by simp, ?_, ?_⟩, rfl, ?_⟩
  · intro w hw
    have : w = [] := List.eq_of_mem_replicate hw
    subst this; exact List.nodup_nil
  · intro c x hx
    have ⟨y, hy, e, _⟩ := hx
    obtain ⟨ci, hci⟩ := List.mem_iff_getElem?.1 (((books_after acts).ids c).2 ⟨y, hy, e⟩)
    obtain ⟨p, hp, e⟩ := h3 ci (List.mem_range.2 (List.getElem?_eq_some_iff.1 hci).1) c hci x hx
    cases hf : m.find? fun p => decide (p.1 = x) with
    | none => exact absurd (decide_eq_true e) (List.find?_eq_none.1 hf p hp)
    | some q =>
      have eq : q.1 = x := of_decide_eq_true (List.find?_some (p := fun p : Nat × Int => decide (p.1 = x)) hf)
      obtain ⟨k, h5, h6⟩ := h1 q (List.mem_of_find?_eq_some hf)
      refine ⟨k, eq ▸ h5, ?_⟩
      rw [← h6, ← eq]
  · intro ci x
    unfold weight
    rw [List.getElem?_replicate]
    split <;> rfl

open Classical in
theorem futures_eq (hd : DomsOK d) : ∀ vs : List Nat, (∀ i ∈ vs, i < d.length) → futures d vs = .ok (vs.filter fun i => decide (Unfixed d i)).length
  | [], _ => rfl
  | v :: vs, h => by
    obtain ⟨b, h1, h2⟩ := single_unfixed hd (h v (by simp))
    unfold futures
    rw [h1, futures_eq hd vs fun i hi => h i (by simp [hi])]
    change Except.ok _ = _
    cases b with
    | true =>
      have hn : ¬ Unfixed d v := fun hu => by cases h2.2 hu
      rw [if_pos rfl, List.filter_cons_of_neg (by simpa using hn)]
    | false =>
      rw [if_neg (by simp), List.filter_cons_of_pos (by simpa using h2.1 rfl), List.length_cons]

theorem futures_number (hd : DomsOK d) {vs : List Nat} (hn : vs.Nodup) (h : ∀ i ∈ vs, i < d.length) {P : Nat → Prop} (hP : ∀ x, x ∈ vs ↔ P x) :
    ∃ k, futures d vs = .ok k ∧ NumberOf (fun y => P y ∧ Unfixed d y) k := by
  classical
  refine ⟨_, futures_eq hd vs h, _, hn.sublist List.filter_sublist, fun x => ?_, rfl⟩
  rw [List.mem_filter, decide_eq_true_iff, hP]

theorem addAll_roo (hd : DomsOK d) {h : Refined} {scope : List Nat} {fut : Nat} {Inc : Nat → Rat → Prop} : ∀ (xs : List Nat) {m : Weights Nat}, xs.Nodup → (∀ x ∈ xs, x < d.length) →
    (∀ x ∈ xs, Unfixed d x → RightOrOverflow (increment h d scope fut x) (Inc x)) → m.Proper →
    RightOrOverflow (addAll h d scope fut xs m) fun m' => m'.Proper ∧ (∀ x, x ∈ xs → Unfixed d x → ∃ r, Inc x r ∧ m'.get x = some ((m.get x).getD 1 + r)) ∧
      ∀ x, ¬ (x ∈ xs ∧ Unfixed d x) → m'.get x = m.get x
  | [], m, _, _, _, hm => RightOrOverflow.pure ⟨hm, by simp, fun _ _ => rfl⟩
  | x :: xs, m, hn, hl, hi, hm => by
    obtain ⟨n1, n2⟩ := List.nodup_cons.1 hn
    obtain ⟨b, h1, h2⟩ := single_unfixed hd (hl x (by simp))
    unfold addAll
    rw [h1]
    change RightOrOverflow (if b = true then _ else _) _
    cases b with
    | true =>
      have hu : ¬ Unfixed d x := fun hu => by cases h2.2 hu
      rw [if_pos rfl]
      refine (addAll_roo hd xs n2 (fun y hy => hl y (by simp [hy])) (fun y hy => hi y (by simp [hy])) hm).mono fun m' ⟨a1, a2, a3⟩ => ⟨a1, ?_, ?_⟩
      · intro y hy yu
        rcases List.mem_cons.1 hy with rfl | hy
        · exact absurd yu hu
        · exact a2 y hy yu
      · exact fun y hy => a3 y fun ⟨z, yu⟩ => hy ⟨by simp [z], yu⟩
    | false =>
      have hu := h2.1 rfl
      rw [if_neg (by simp)]
      refine (hi x (by simp) hu).bind fun r hr => ?_
      refine (addAll_roo hd xs n2 (fun y hy => hl y (by simp [hy])) (fun y hy => hi y (by simp [hy])) (hm.put x _)).mono fun m' ⟨a1, a2, a3⟩ => ⟨a1, ?_, ?_⟩
      · intro y hy yu
        rcases List.mem_cons.1 hy with rfl | hy
        · refine ⟨r, hr, ?_⟩
          rw [a3 y fun ⟨z, _⟩ => n1 z, Weights.get_put, if_pos rfl]
        · obtain ⟨r', b1, b2⟩ := a2 y hy yu
          refine ⟨r', b1, ?_⟩
          rw [b2, Weights.get_put, if_neg (fun e : x = y => n1 (e ▸ hy))]
      · intro y hy
        rw [a3 y fun ⟨z, yu⟩ => hy ⟨by simp [z], yu⟩, Weights.get_put, if_neg]
        rintro rfl
        exact hy ⟨by simp, hu⟩

theorem increment_roo (hd : DomsOK d) {h : Refined} (hf : Fits acts d0 h) {c : Nat} {scope : List Nat} {about : Nat → Prop} (hn : scope.Nodup) (hs : ∀ i, i ∈ scope ↔ about i) (ha : ∀ i, about i → Touches acts c i)
    (hl : ∀ i ∈ scope, i < d.length) {fut : Nat} (hfut : NumberOf (fun y => about y ∧ Unfixed d y) fut) {x : Nat} (hx : x ∈ scope) :
    RightOrOverflow (increment h d scope fut x) (Increment d0 d about x h.variant) := by
  unfold increment
  cases hv : h.variant with
  | initialArity => exact RightOrOverflow.pure ⟨_, ⟨scope, hn, hs, rfl⟩, rfl⟩
  | currentArity => exact RightOrOverflow.pure ⟨_, hfut, rfl⟩
  | initialDomain =>
    obtain ⟨k, h1, h2⟩ := hf.initial c x (ha x ((hs x).1 hx))
    dsimp only
    rw [h2]
    refine RightOrOverflow.pure ⟨k, h1, ?_⟩
    dsimp only
    rw [Rat.intCast_natCast]
  | currentDomain =>
    refine (size_count hd (v := .simple x) (hl x hx)).bind fun k ⟨j, hj, e⟩ => RightOrOverflow.pure ⟨j, hj, ?_⟩
    rw [e, Rat.intCast_natCast]
  | currentArityCurrentDomain =>
    refine (size_count hd (v := .simple x) (hl x hx)).bind fun k ⟨j, hj, e⟩ => RightOrOverflow.pure ⟨_, j, hfut, hj, ?_⟩
    rw [e, Rat.intCast_natCast]

theorem note_roo (hd : DomsOK d) {h : Refined} (hf : Fits acts d0 h) {ci c : Nat} (hc : (Engine.after acts).constraintIds[ci]? = some c) {scope : List Nat} {about : Nat → Prop} (hn : scope.Nodup)
    (hs : ∀ i, i ∈ scope ↔ about i) (ha : ∀ i, about i → Touches acts c i) (hl : ∀ i ∈ scope, i < d.length) :
    RightOrOverflow (note h d ci scope) fun h' => Fits acts d0 h' ∧ h'.variant = h.variant ∧
      (∀ x, about x → Unfixed d x → ∃ r, Increment d0 d about x h.variant r ∧ h'.weight ci x = h.weight ci x + r) ∧
      ∀ cj x, ¬ (cj = ci ∧ about x ∧ Unfixed d x) → h'.weight cj x = h.weight cj x := by
  obtain ⟨fut, f1, f2⟩ := futures_number hd hn hl hs
  unfold note
  rw [f1]
  change RightOrOverflow (if fut = 0 then _ else _) _
  by_cases h0 : fut = 0
  · rw [if_pos h0]
    subst h0
    obtain ⟨l, -, l2, l3⟩ := f2
    have hno : ∀ x, ¬ (about x ∧ Unfixed d x) := fun x hx => by
      have := (l2 x).2 hx
      rw [List.length_eq_zero_iff.1 l3] at this; cases this
    exact RightOrOverflow.pure ⟨hf, rfl, fun x a b => absurd ⟨a, b⟩ (hno x), fun _ _ _ => rfl⟩
  · rw [if_neg h0]
    have hlt : ci < h.locals.length := by rw [hf.len]; exact (List.getElem?_eq_some_iff.1 hc).1
    have hv : vecAt h.locals ci = .ok h.locals[ci] := by unfold vecAt; rw [List.getElem?_eq_getElem hlt]
    rw [hv]
    change RightOrOverflow (do let m' ← addAll h d scope fut scope h.locals[ci]; return { h with locals := h.locals.set ci m' }) _
    refine (addAll_roo hd scope hn hl (fun x hx _ => increment_roo hd hf hn hs ha hl f2 hx) (hf.proper _ (List.getElem_mem hlt))).bind fun m' ⟨a1, a2, a3⟩ => RightOrOverflow.pure ?_
    have own : ∀ x, weight { h with locals := h.locals.set ci m' } ci x = (m'.get x).getD 1 := fun x => by
      unfold weight; dsimp only; rw [List.getElem?_set, if_pos rfl, if_pos hlt]; rfl
    have old : ∀ x, h.weight ci x = (h.locals[ci].get x).getD 1 := fun x => by unfold weight; rw [List.getElem?_eq_getElem hlt]; rfl
    refine ⟨⟨by simpa using hf.len, ?_, hf.initial⟩, rfl, ?_, ?_⟩
    · intro m hm
      rcases List.mem_or_eq_of_mem_set hm with hm | rfl
      · exact hf.proper m hm
      · exact a1
    · intro x hx hu
      obtain ⟨r, r1, r2⟩ := a2 x ((hs x).2 hx) hu
      refine ⟨r, r1, ?_⟩
      rw [own, old, r2]; rfl
    · intro cj x hx
      by_cases e : cj = ci
      · subst e
        rw [own, old, a3 x fun ⟨y, z⟩ => hx ⟨rfl, (hs x).1 y, z⟩]
      · unfold weight
        dsimp only
        rw [List.getElem?_set, if_neg (fun z => e z.symm)]

/-- What the weights are, by constraint. -/
def Holds (acts : List (Act σ μ)) (h : Refined) (w : Nat → Nat → Rat) : Prop := ∀ ci c x : Nat, (Engine.after acts).constraintIds[ci]? = some c → h.weight ci x = w c x

theorem contribution_eq {h : Refined} (hf : Fits acts d0 h) {w : Nat → Nat → Rat} (hw : Holds acts h w) {ci c x : Nat} (hc : (Engine.after acts).constraintIds[ci]? = some c) : h.contribution ci x = .ok (w c x) := by
  have hl : ci < h.locals.length := by rw [hf.len]; exact (List.getElem?_eq_some_iff.1 hc).1
  have e : vecAt h.locals ci = .ok h.locals[ci] := by unfold vecAt; rw [List.getElem?_eq_getElem hl]
  have := hw ci c x hc
  unfold weight at this
  rw [List.getElem?_eq_getElem hl] at this
  unfold contribution
  rw [e, ← this]; rfl

theorem idxOf_at {l : List Nat} {c : Nat} (h : c ∈ l) : l[l.idxOf c]? = some c := by
  have hl := List.idxOf_lt_length_of_mem h
  rw [List.getElem?_eq_getElem hl, List.getElem_idxOf hl]

theorem noteAll_roo : ∀ (es : List (Doms × Nat)) {h : Refined} {w : Nat → Nat → Rat}, (∀ e ∈ es, DomsOK e.1 ∧ Allocated acts e.1.length ∧ e.2 < (installed acts).length) → Fits acts d0 h → Holds acts h w →
    RightOrOverflow (noteAll (Engine.after acts) es h) fun h' => ∃ w', LocalRun acts d0 h.variant es w w' ∧ Fits acts d0 h' ∧ Holds acts h' w'
  | [], h, w, _, hf, hw => RightOrOverflow.pure ⟨w, rfl, hf, hw⟩
  | (d, p) :: es, h, w, he, hf, hw => by
    obtain ⟨hd, hn, hp⟩ := he (d, p) (by simp)
    obtain ⟨ci, c, t, a1, a2, a3⟩ := owner hp
    obtain ⟨sc, s1, s2, s3⟩ := (books_after acts).scope p _ a1
    have ha : ∀ i, i ∈ t.about → Touches acts c i := fun i hi => ⟨(c, t), List.mem_of_getElem? a1, rfl, hi⟩
    have es1 : vecAt (Engine.after acts).scope p = .ok sc := by unfold vecAt; rw [s1]
    unfold noteAll
    rw [a2]
    change RightOrOverflow (do let scope ← vecAt (Engine.after acts).scope p; noteAll (Engine.after acts) es (← note h d ci scope)) _
    rw [es1]
    change RightOrOverflow (do noteAll (Engine.after acts) es (← note h d ci sc)) _
    refine (note_roo hd hf a3 s2 (about := (· ∈ t.about)) s3 ha fun i hi => hn c i (ha i ((s3 i).1 hi))).bind fun h1 ⟨b1, b2, b3, b4⟩ => ?_
    let u : Nat → Nat → Rat := fun e x => if e ∈ (Engine.after acts).constraintIds then h1.weight ((Engine.after acts).constraintIds.idxOf e) x else w e x
    have hu : Holds acts h1 u := fun cj e x hj => by
      have hm := List.mem_of_getElem? hj
      have : (Engine.after acts).constraintIds.idxOf e = cj := index_unique (books_after acts).idsNodup (idxOf_at hm) hj
      change _ = if _ then _ else _
      rw [if_pos hm, this]
    refine (noteAll_roo es (fun e h => he e (by simp [h])) b1 hu).mono fun h2 ⟨w', c1, c2⟩ => ⟨w', ⟨c, t, u, a1, fun x hx hu' => ?_, fun e x hx => ?_, b2 ▸ c1⟩, c2⟩
    · obtain ⟨r, r1, r2⟩ := b3 x hx hu'
      exact ⟨r, r1, by rw [← hu ci c x a3, r2, hw ci c x a3]⟩
    · by_cases hm : e ∈ (Engine.after acts).constraintIds
      · have hj := idxOf_at hm
        rw [← hu _ e x hj, b4 _ x, hw _ e x hj]
        rintro ⟨y, z⟩
        rw [y, a3] at hj
        exact hx ⟨(Option.some.inj hj).symm, z⟩
      · change (if _ then _ else _) = _
        rw [if_neg hm]

/-! ## Taking a snapshot and loading it -/

theorem snapshotOne_get (id : Nat) (c x : Nat) : ∀ (m : Weights Nat) (s : WeightingState), m.Proper →
    (snapshotOne id m s).localWeightOf c x = if c = id then (m.get x).or (s.localWeightOf c x) else s.localWeightOf c x
  | [], s, _ => by simp [snapshotOne, Weights.get]
  | (y, w) :: m, s, h => by
    obtain ⟨n1, n2⟩ := List.nodup_cons.1 h
    unfold snapshotOne
    rw [snapshotOne_get id c x m _ n2]
    have e : (s.setLocalWeight id y w).localWeightOf c x = if (id, y) = (c, x) then some w else s.localWeightOf c x := Weights.get_put (id, y) w (c, x) s.ofLocal
    rw [e]
    by_cases hc : c = id
    · subst hc
      rw [if_pos rfl, if_pos rfl]
      by_cases hy : y = x
      · subst hy
        rw [if_pos rfl, Weights.get_none n1]
        simp [Weights.get]
      · have : ¬ (c, y) = (c, x) := fun z => hy (Prod.mk.inj z).2
        rw [if_neg this]
        simp only [Weights.get, if_neg hy]
    · have : ¬ (id, y) = (c, x) := fun z => hc (Prod.mk.inj z).1.symm
      rw [if_neg hc, if_neg hc, if_neg this]

theorem snapshotFrom_get {L : Nat → Nat → Option Rat} : ∀ (ms : List (Weights Nat)) (k : Nat) (s : WeightingState),
    (∀ (j : Nat) m, ms[j]? = some m → ∃ c, (Engine.after acts).constraintIds[k + j]? = some c ∧ m.Proper ∧ ∀ x, m.get x = L c x) → (∀ (c j x : Nat), (Engine.after acts).constraintIds[k + j]? = some c → s.localWeightOf c x = none) →
    ∃ s', snapshotFrom (Engine.after acts) k ms s = .ok s' ∧ ∀ c x, s'.localWeightOf c x = if (∃ j, j < ms.length ∧ (Engine.after acts).constraintIds[k + j]? = some c) then L c x else s.localWeightOf c x
  | [], k, s, _, _ => ⟨s, rfl, fun c x => by rw [if_neg]; rintro ⟨j, h, -⟩; simp at h⟩
  | m :: ms, k, s, h, hs => by
    obtain ⟨c, h1, h2, h3⟩ := h 0 m rfl
    have hk : (Engine.after acts).constraintIds[k]? = some c := h1
    have ee : snapshotFrom (Engine.after acts) k (m :: ms) s = snapshotFrom (Engine.after acts) (k + 1) ms (snapshotOne c m s) := by
      conv => lhs; unfold snapshotFrom
      cases m with
      | nil => rfl
      | cons p m =>
        have : vecAt (Engine.after acts).constraintIds k = .ok c := by unfold vecAt; rw [hk]
        dsimp only
        rw [this]; rfl
    have one := fun e x => snapshotOne_get c e x m s h2
    have diff : ∀ (e j : Nat), (Engine.after acts).constraintIds[k + 1 + j]? = some e → e ≠ c := by
      rintro e j he rfl
      have := index_unique (books_after acts).idsNodup hk he
      omega
    obtain ⟨s', h4, h5⟩ := snapshotFrom_get (L := L) ms (k + 1) (snapshotOne c m s)
      (fun j m' hj => by
        have := h (j + 1) m' hj
        rwa [show k + (j + 1) = k + 1 + j by omega] at this)
      (fun e j x he => by
        rw [one, if_neg (diff e j he)]
        exact hs e (j + 1) x (by rwa [show k + (j + 1) = k + 1 + j by omega]))
    refine ⟨s', ee.trans h4, fun e x => ?_⟩
    rw [h5]
    have step : (∃ j, j < (m :: ms).length ∧ (Engine.after acts).constraintIds[k + j]? = some e) ↔ e = c ∨ ∃ j, j < ms.length ∧ (Engine.after acts).constraintIds[k + 1 + j]? = some e := by
      constructor
      · rintro ⟨j, hj, he⟩
        cases j with
        | zero => cases h1.symm.trans he; exact .inl rfl
        | succ j =>
          refine .inr ⟨j, by simpa using hj, ?_⟩
          rwa [show k + 1 + j = k + (j + 1) by omega]
      · rintro (rfl | ⟨j, hj, he⟩)
        · exact ⟨0, by simp, h1⟩
        · refine ⟨j + 1, by simpa using hj, ?_⟩
          rwa [show k + (j + 1) = k + 1 + j by omega]
    by_cases z : ∃ j, j < ms.length ∧ (Engine.after acts).constraintIds[k + 1 + j]? = some e
    · rw [if_pos z, if_pos (step.2 (.inr z))]
    · rw [if_neg z, one]
      by_cases ec : e = c
      · subst ec
        rw [if_pos rfl, if_pos (step.2 (.inl rfl)), h3, hs e 0 x h1]; simp
      · rw [if_neg ec, if_neg]
        intro y
        rcases step.1 y with y | y
        · exact ec y
        · exact z y

theorem loadOne_get (s : WeightingState) (id x : Nat) : ∀ (xs : List Nat) (m : Weights Nat), m.Proper →
    (loadOne s id xs m).Proper ∧ (loadOne s id xs m).get x = if x ∈ xs then (s.localWeightOf id x).or (m.get x) else m.get x
  | [], m, h => ⟨h, by simp [loadOne]⟩
  | y :: xs, m, h => by
    unfold loadOne
    cases hw : s.localWeightOf id y with
    | none =>
      dsimp only
      obtain ⟨h1, h2⟩ := loadOne_get s id x xs m h
      refine ⟨h1, h2.trans ?_⟩
      by_cases hx : x ∈ xs
      · rw [if_pos hx, if_pos (by simp [hx])]
      · rw [if_neg hx]
        by_cases e : x = y
        · subst e; rw [if_pos (by simp), hw]; rfl
        · rw [if_neg (by simp [hx, e])]
    | some w =>
      dsimp only
      obtain ⟨h1, h2⟩ := loadOne_get s id x xs (m.put y w) (h.put y w)
      refine ⟨h1, h2.trans ?_⟩
      rw [Weights.get_put]
      by_cases e : y = x
      · subst e
        rw [if_pos rfl, if_pos (show y ∈ y :: xs by simp), hw]
        split <;> rfl
      · rw [if_neg e]
        by_cases hx : x ∈ xs
        · rw [if_pos hx, if_pos (by simp [hx])]
        · rw [if_neg hx, if_neg fun z => (List.mem_cons.1 z).elim (fun z => e z.symm) hx]

theorem loadFrom_get (s : WeightingState) : ∀ (ms : List (Weights Nat)) (k : Nat), k + ms.length ≤ (Engine.after acts).constraintIds.length →
    ∃ ls, loadFrom (Engine.after acts) s k ms = .ok ls ∧ ls.length = ms.length ∧ (∀ m ∈ ls, Weights.Proper m) ∧
      ∀ j m, ls[j]? = some m → ∃ c, (Engine.after acts).constraintIds[k + j]? = some c ∧ ∀ x, Touches acts c x → m.get x = s.localWeightOf c x
  | [], k, _ => ⟨[], rfl, rfl, by simp, by simp⟩
  | _ :: ms, k, hk => by
    rw [List.length_cons] at hk
    have hi : (Engine.after acts).constraintIds[k]? = some (Engine.after acts).constraintIds[k] := List.getElem?_eq_getElem (by omega)
    obtain ⟨sc, s1, -, s3⟩ := scope_at hi
    obtain ⟨ls, l1, l2, l3, l4⟩ := loadFrom_get s ms (k + 1) (by omega)
    have one := fun x => loadOne_get s (Engine.after acts).constraintIds[k] x sc [] List.nodup_nil
    refine ⟨loadOne s (Engine.after acts).constraintIds[k] sc [] :: ls, ?_, by simp [l2], ?_, ?_⟩
    · have : vecAt (Engine.after acts).constraintIds k = .ok (Engine.after acts).constraintIds[k] := by unfold vecAt; rw [hi]
      unfold loadFrom
      rw [this, s1, l1]; rfl
    · intro m hm
      rcases List.mem_cons.1 hm with rfl | hm
      · exact (one 0).1
      · exact l3 m hm
    · intro j m hj
      cases j with
      | zero =>
        cases (show some _ = some m from hj)
        refine ⟨_, hi, fun x hx => ?_⟩
        rw [(one x).2, if_pos ((s3 x).2 hx)]
        simp [Weights.get]
      | succ j =>
        obtain ⟨c, a, b⟩ := l4 j m hj
        exact ⟨c, by rwa [show k + (j + 1) = k + 1 + j by omega], b⟩

theorem carried {acts' : List (Act σ μ)} {h h' : Refined} {d0' : Doms} (hf : Fits acts d0 h) (hf' : Fits acts' d0' h') {w : Nat → Nat → Rat} (hw : Holds acts h w) :
    ∃ s l, snapshot (Engine.after acts) h = .ok s ∧ load (Engine.after acts') h' s = .ok l ∧ Fits acts' d0' l ∧
      ∀ ci c x : Nat, (Engine.after acts').constraintIds[ci]? = some c → Touches acts' c x → l.contribution ci x = .ok (if c ∈ (Engine.after acts).constraintIds then w c x else 1) := by
  let L : Nat → Nat → Option Rat := fun c x => (h.locals[(Engine.after acts).constraintIds.idxOf c]?.getD []).get x
  have idx : ∀ {ci c : Nat}, (Engine.after acts).constraintIds[ci]? = some c → (Engine.after acts).constraintIds.idxOf c = ci := fun hj =>
    index_unique (books_after acts).idsNodup (idxOf_at (List.mem_of_getElem? hj)) hj
  obtain ⟨s, s1, s2⟩ := snapshotFrom_get (acts := acts) (L := L) h.locals 0 {} (fun j m hj => by
    have hl : j < (Engine.after acts).constraintIds.length := by rw [← hf.len]; exact (List.getElem?_eq_some_iff.1 hj).1
    refine ⟨_, by rw [Nat.zero_add]; exact List.getElem?_eq_getElem hl, hf.proper m (List.mem_of_getElem? hj), fun x => ?_⟩
    change _ = Weights.get (h.locals[_]?.getD []) x
    rw [idx (List.getElem?_eq_getElem hl), hj]; rfl) fun c j x _ => rfl
  obtain ⟨ls, l1, l2, l3, l4⟩ := loadFrom_get (acts := acts') s h'.locals 0 (by rw [hf'.len]; omega)
  have fit : Fits acts' d0' { h' with locals := ls } := ⟨by dsimp only; rw [l2]; exact hf'.len, l3, hf'.initial⟩
  refine ⟨s, { h' with locals := ls }, s1, by unfold load; rw [l1]; rfl, fit, fun ci c x hc hx => ?_⟩
  have hl : ci < ls.length := by rw [l2, hf'.len]; exact (List.getElem?_eq_some_iff.1 hc).1
  obtain ⟨c', e1, e2⟩ := l4 ci _ (List.getElem?_eq_getElem hl)
  rw [Nat.zero_add] at e1
  cases hc.symm.trans e1
  have ev : vecAt ls ci = .ok ls[ci] := by unfold vecAt; rw [List.getElem?_eq_getElem hl]
  unfold contribution
  dsimp only
  rw [ev]
  change Except.ok ((ls[ci].get x).getD 1) = _
  rw [e2 x hx, s2]
  by_cases hm : c ∈ (Engine.after acts).constraintIds
  · have hj := idxOf_at hm
    rw [if_pos hm, if_pos ⟨(Engine.after acts).constraintIds.idxOf c, by rw [hf.len]; exact List.idxOf_lt_length_of_mem hm, by rw [Nat.zero_add]; exact hj⟩, ← hw _ c x hj]; rfl
  · rw [if_neg hm, if_neg]
    · rfl
    · rintro ⟨j, -, hj⟩; exact hm (List.mem_of_getElem? hj)

end
end Gcs.Weighting.Refined
