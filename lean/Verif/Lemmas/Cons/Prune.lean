import Verif.Lemmas.Cons.Components

/-!
# Which edges go
-/

namespace Gcs.Gac

variable {G : Graph} {M : Match}

theorem mark_mono {u : Nat → Nat → Bool} {l r i j : Nat} (h : u i j = true) : mark G u l r i j = true := by
  simp only [mark]
  split
  · dsimp only
    split <;> simp [h]
  · exact h

theorem mark_this {u : Nat → Nat → Bool} {l r : Nat} (h : r < G.nVals) : mark G u l r l r = true := by simp [mark, h]

theorem mark_only {u : Nat → Nat → Bool} {l r i j : Nat} (h : mark G u l r i j = true) : (i = l ∧ j = r ∧ r < G.nVals) ∨ u i j = true := by
  simp only [mark] at h
  split at h
  next hr =>
    dsimp only at h
    split at h
    next e => exact .inl ⟨e.1, e.2, hr⟩
    next => exact .inr h
  next => exact .inr h

/-- What holds during the sweep, with `ts` still to be looked at of the predecessors of `v`. -/
structure Sweeping (G : Graph) (M : Match) (v : Nat) (ts : List Nat) (s : Sweep) : Prop where
  nodup : s.todo.Nodup
  inTodo : ∀ v, s.inTodo v = true ↔ v ∈ s.todo
  range : ∀ v, v ∈ s.todo ∨ s.explored v = true → v < G.nL + G.nR
  apart : ∀ v ∈ s.todo, s.explored v = false
  free : ∀ r < G.nR, free G M r = true → G.nL + r ∈ s.todo ∨ s.explored (G.nL + r) = true
  preds : ∀ x, s.explored x = true → ∀ t ∈ pred G M x, (x = v ∧ t ∈ ts) ∨ s.explored t = true ∨ t ∈ s.todo
  marks : ∀ r, s.explored (G.nL + r) = true → r < G.nVals → ∀ i < G.nL, r ∈ unmatched G M i → (G.nL + r = v ∧ i ∈ ts) ∨ s.used i r = true
  matched : ∀ i r, usedByMatching G M i r = true → s.used i r = true
  /-- only what can take a free value, or is matched, is marked -/
  reach : ∀ v, v ∈ s.todo ∨ s.explored v = true → ∃ r < G.nR, Gac.free G M r = true ∧ Reach (succ G M) v (G.nL + r)
  only : ∀ i r, s.used i r = true → i < G.nL ∧ r < G.nVals ∧ (M.m i = some r ∨ r ∈ unmatched G M i ∧ ∃ q < G.nR, Gac.free G M q = true ∧ Reach (succ G M) (G.nL + r) (G.nL + q))

theorem mem_pred_left {v t : Nat} (hv : v < G.nL) : t ∈ pred G M v ↔ ∃ r, M.m v = some r ∧ t = G.nL + r := by
  simp only [pred, hv, ↓reduceIte, List.mem_map, Option.mem_toList]
  exact ⟨fun ⟨r, h, e⟩ => ⟨r, h, e.symm⟩, fun ⟨r, h, e⟩ => ⟨r, h, e.symm⟩⟩

theorem mem_pred_right {r t : Nat} : t ∈ pred G M (G.nL + r) ↔ t < G.nL ∧ r ∈ unmatched G M t := by
  have : ¬ G.nL + r < G.nL := by omega
  simp [pred, this, Nat.add_sub_cancel_left]

theorem succ_left {v : Nat} (hv : v < G.nL) : succ G M v = (unmatched G M v).map (G.nL + ·) := by simp [succ, hv]
theorem succ_right {r : Nat} : succ G M (G.nL + r) = (M.inv r).toList := by
  have : ¬ G.nL + r < G.nL := by omega
  simp [succ, this, Nat.add_sub_cancel_left]

/-- Edges forwards are edges backwards. -/
theorem pred_succ (hw : G.WF) (hM : M.OK G) {v w : Nat} (hv : v < G.nL + G.nR) (hw' : w < G.nL + G.nR) : v ∈ pred G M w ↔ w ∈ succ G M v := by
  rcases Nat.lt_or_ge w G.nL with h | h
  · rw [mem_pred_left h]
    constructor
    · rintro ⟨r, h1, rfl⟩
      rw [succ_right, (hM.back w r).1 h1]
      simp
    · intro h1
      rcases Nat.lt_or_ge v G.nL with h2 | h2
      · rw [succ_left h2] at h1
        obtain ⟨r, _, e⟩ := List.mem_map.1 h1
        omega
      · obtain ⟨r, rfl⟩ : ∃ r, v = G.nL + r := ⟨v - G.nL, by omega⟩
        rw [succ_right, Option.mem_toList] at h1
        exact ⟨r, (hM.back w r).2 h1, rfl⟩
  · obtain ⟨r, rfl⟩ : ∃ r, w = G.nL + r := ⟨w - G.nL, by omega⟩
    rw [mem_pred_right]
    constructor
    · rintro ⟨h1, h2⟩
      rw [succ_left h1]
      exact List.mem_map.2 ⟨r, h2, rfl⟩
    · intro h1
      rcases Nat.lt_or_ge v G.nL with h2 | h2
      · rw [succ_left h2] at h1
        obtain ⟨q, hq, e⟩ := List.mem_map.1 h1
        have : q = r := by omega
        subst this
        exact ⟨h2, hq⟩
      · obtain ⟨q, rfl⟩ : ∃ q, v = G.nL + q := ⟨v - G.nL, by omega⟩
        rw [succ_right, Option.mem_toList] at h1
        have := (hM.edge _ _ ((hM.back _ _).2 h1)).1
        omega

theorem pred_range (hw : G.WF) (hM : M.OK G) {v t : Nat} (hv : v < G.nL + G.nR) (ht : t ∈ pred G M v) : t < G.nL + G.nR := by
  rcases Nat.lt_or_ge v G.nL with h | h
  · obtain ⟨r, h1, rfl⟩ := (mem_pred_left h).1 ht
    have := hw.edges v h r (hM.edge v r h1).2
    omega
  · obtain ⟨r, rfl⟩ : ∃ r, v = G.nL + r := ⟨v - G.nL, by omega⟩
    have := (mem_pred_right.1 ht).1
    omega

theorem visit_spec (hw : G.WF) (hM : M.OK G) {v : Nat} (hv : v < G.nL + G.nR) : ∀ (ts : List Nat) (s : Sweep), (∀ t ∈ ts, t ∈ pred G M v) → s.explored v = true → Sweeping G M v ts s →
    Sweeping G M v [] (Sweep.visit G v ts s) ∧ (Sweep.visit G v ts s).explored = s.explored
  | [], s, _, _, h => ⟨h, rfl⟩
  | t :: ts, s, hts, hvs, h => by
    have ht := hts t (.head _)
    have htN := pred_range hw hM hv ht
    have hts' : ∀ x ∈ ts, x ∈ pred G M v := fun x hx => hts x (.tail _ hx)
    obtain ⟨q, hq, hqf, hqr⟩ := h.reach v (.inr hvs)
    have htr : Reach (succ G M) t (G.nL + q) := .step ((pred_succ hw hM htN hv).1 ht) hqr
    simp only [Sweep.visit]
    generalize hu : (if v < G.nL then mark G s.used v (t - G.nL) else mark G s.used t (v - G.nL)) = u
    have umono : ∀ i r, s.used i r = true → u i r = true := fun i r h' => by
      subst hu
      split <;> exact mark_mono h'
    have uonly : ∀ i r, u i r = true → i < G.nL ∧ r < G.nVals ∧ (M.m i = some r ∨ r ∈ unmatched G M i ∧ ∃ q < G.nR, free G M q = true ∧ Reach (succ G M) (G.nL + r) (G.nL + q)) := fun i r h' => by
      subst hu
      split at h'
      next hl =>
        rcases mark_only h' with ⟨rfl, rfl, h2⟩ | h2
        · obtain ⟨r, h3, rfl⟩ := (mem_pred_left hl).1 ht
          rw [Nat.add_sub_cancel_left] at h2 ⊢
          exact ⟨hl, h2, .inl h3⟩
        · exact h.only i r h2
      next hl =>
        rcases mark_only h' with ⟨rfl, rfl, h2⟩ | h2
        · obtain ⟨r, rfl⟩ : ∃ r, v = G.nL + r := ⟨v - G.nL, by omega⟩
          rw [Nat.add_sub_cancel_left] at h2 ⊢
          obtain ⟨h3, h4⟩ := mem_pred_right.1 ht
          exact ⟨h3, h2, .inr ⟨h4, q, hq, hqf, hqr⟩⟩
        · exact h.only i r h2
    have umarks : ∀ r, s.explored (G.nL + r) = true → r < G.nVals → ∀ i < G.nL, r ∈ unmatched G M i → (G.nL + r = v ∧ i ∈ ts) ∨ u i r = true := fun r hr hrv i hi hm => by
      rcases h.marks r hr hrv i hi hm with ⟨e, h'⟩ | h'
      · rcases List.mem_cons.1 h' with rfl | h'
        · subst hu
          have hn : ¬ v < G.nL := by omega
          rw [if_neg hn]
          have : v - G.nL = r := by omega
          rw [this]
          exact .inr (mark_this hrv)
        · exact .inl ⟨e, h'⟩
      · exact .inr (umono i r h')
    split
    next he =>
      refine visit_spec hw hM hv ts { s with used := u } hts' hvs { h with preds := fun x hx y hy => ?_, marks := umarks, matched := fun i r hm => umono i r (h.matched i r hm), only := uonly }
      rcases h.preds x hx y hy with ⟨e, h'⟩ | h' | h'
      · rcases List.mem_cons.1 h' with rfl | h'
        · simp only [Bool.or_eq_true] at he
          exact .inr (he.imp id (h.inTodo y).1)
        · exact .inl ⟨e, h'⟩
      · exact .inr (.inl h')
      · exact .inr (.inr h')
    next he =>
      simp only [Bool.or_eq_true, not_or, Bool.not_eq_true] at he
      have hnt : t ∉ s.todo := fun hm => by
        have := (h.inTodo t).2 hm
        rw [he.2] at this
        cases this
      refine visit_spec hw hM hv ts { s with used := u, todo := t :: s.todo, inTodo := put s.inTodo t true } hts' hvs
        { nodup := List.nodup_cons.2 ⟨hnt, h.nodup⟩, inTodo := fun x => ?_, range := fun x hx => ?_, apart := fun x hx => ?_, free := fun r hr hf => (h.free r hr hf).imp (.tail _) id, preds := fun x hx y hy => ?_, marks := umarks, matched := fun i r hm => umono i r (h.matched i r hm), reach := fun x hx => ?_, only := uonly }
      · show put s.inTodo t true x = true ↔ x ∈ t :: s.todo
        by_cases e : x = t
        · simp [e, put_same]
        · rw [put_ne _ _ e, h.inTodo x, List.mem_cons]; simp [e]
      · rcases hx with hx | hx
        · rcases List.mem_cons.1 hx with rfl | hx
          · exact htN
          · exact h.range x (.inl hx)
        · exact h.range x (.inr hx)
      · rcases List.mem_cons.1 hx with rfl | hx
        · exact he.1
        · exact h.apart x hx
      · rcases h.preds x hx y hy with ⟨e, h'⟩ | h' | h'
        · rcases List.mem_cons.1 h' with rfl | h'
          · exact .inr (.inr (.head _))
          · exact .inl ⟨e, h'⟩
        · exact .inr (.inl h')
        · exact .inr (.inr (.tail _ h'))
      · rcases hx with hx | hx
        · rcases List.mem_cons.1 hx with rfl | hx
          · exact ⟨q, hq, hqf, htr⟩
          · exact h.reach x (.inl hx)
        · exact h.reach x (.inr hx)

/-- How many vertices have not been explored. -/
def unexplored (N : Nat) (e : Nat → Bool) : Nat := ((List.range N).filter fun x => !e x).length

theorem unexplored_put {N : Nat} {e : Nat → Bool} {w : Nat} (hw : e w = false) (hN : w < N) : unexplored N (put e w true) < unexplored N e := by
  have hn : (List.range N).Nodup := List.nodup_range
  have : (w :: (List.range N).filter fun x => !put e w true x).length ≤ ((List.range N).filter fun x => !e x).length := by
    refine length_le_of_subset _ _ (List.nodup_cons.2 ⟨by simp [put_same], hn.sublist List.filter_sublist⟩) fun x hx => ?_
    rcases List.mem_cons.1 hx with rfl | hx
    · exact List.mem_filter.2 ⟨List.mem_range.2 hN, by simp [hw]⟩
    · obtain ⟨g1, g2⟩ := List.mem_filter.1 hx
      refine List.mem_filter.2 ⟨g1, ?_⟩
      by_cases e' : x = w
      · simp [e', hw]
      · rw [put_ne _ _ e'] at g2; exact g2
  simp only [List.length_cons] at this
  exact this

theorem sweep_spec (hw : G.WF) (hM : M.OK G) : ∀ (fuel : Nat) (s : Sweep) (v0 : Nat), Sweeping G M v0 [] s → unexplored (G.nL + G.nR) s.explored < fuel →
    ∃ t, Sweep.run G M fuel s = .ok t ∧ Sweeping G M 0 [] t ∧ t.todo = []
  | 0, _, _, _, hf => by omega
  | fuel + 1, s, v0, h, hf => by
    have h0 : Sweeping G M 0 [] s := { h with preds := fun x hx y hy => .inr ((h.preds x hx y hy).resolve_left (by simp)), marks := fun r hr h1 i hi h2 => .inr ((h.marks r hr h1 i hi h2).resolve_left (by simp)) }
    simp only [Sweep.run]
    split
    next e => exact ⟨s, rfl, h0, e⟩
    next v vs e =>
      have hvt : v ∈ s.todo := by rw [e]; exact .head _
      have hv := h.range v (.inl hvt)
      have hve := h.apart v hvt
      have hnd := h.nodup
      rw [e, List.nodup_cons] at hnd
      have hsub : ∀ x ∈ vs, x ∈ s.todo := fun x hx => by rw [e]; exact .tail _ hx
      have hexp : ∀ x, put s.explored v true x = true ↔ x = v ∨ s.explored x = true := fun x => by
        by_cases e' : x = v
        · simp [e', put_same]
        · rw [put_ne _ _ e']; simp [e']
      have hsw : Sweeping G M v (pred G M v) { s with todo := vs, inTodo := put s.inTodo v false, explored := put s.explored v true } := by
        refine { nodup := hnd.2, inTodo := fun x => ?_, range := fun x hx => ?_, apart := fun x hx => ?_, free := fun r hr hf => ?_, preds := fun x hx y hy => ?_, marks := fun r hr hrv i hi hm => ?_, matched := h.matched, reach := fun x hx => ?_, only := h.only }
        · show put s.inTodo v false x = true ↔ x ∈ vs
          by_cases e' : x = v
          · rw [e', put_same]; simp [hnd.1]
          · rw [put_ne _ _ e', h.inTodo, e, List.mem_cons]; simp [e']
        · rcases hx with hx | hx
          · exact h.range x (.inl (hsub x hx))
          · rcases (hexp x).1 hx with rfl | hx
            · exact hv
            · exact h.range x (.inr hx)
        · show put s.explored v true x = false
          rw [put_ne _ _ (by rintro rfl; exact hnd.1 hx)]
          exact h.apart x (hsub x hx)
        · show _ ∨ put s.explored v true _ = true
          rw [hexp]
          rcases h.free r hr hf with h' | h'
          · rw [e, List.mem_cons] at h'
            rcases h' with h' | h'
            · exact .inr (.inl h')
            · exact .inl h'
          · exact .inr (.inr h')
        · show _ ∨ put s.explored v true y = true ∨ _
          rw [hexp]
          rcases (hexp x).1 hx with rfl | hx
          · exact .inl ⟨rfl, hy⟩
          · rcases h0.preds x hx y hy with h' | h' | h'
            · simp at h'
            · exact .inr (.inl (.inr h'))
            · rw [e, List.mem_cons] at h'
              rcases h' with h' | h'
              · exact .inr (.inl (.inl h'))
              · exact .inr (.inr h')
        · rcases (hexp _).1 hr with h' | h'
          · refine .inl ⟨h', ?_⟩
            rw [← h']
            exact mem_pred_right.2 ⟨hi, hm⟩
          · exact .inr ((h0.marks r h' hrv i hi hm).resolve_left (by simp))
        · rcases hx with hx | hx
          · exact h.reach x (.inl (hsub x hx))
          · rcases (hexp x).1 hx with rfl | hx
            · exact h.reach x (.inl hvt)
            · exact h.reach x (.inr hx)
      obtain ⟨h1, h2⟩ := visit_spec hw hM hv (pred G M v) _ (fun _ => id) (put_same _ _ _) hsw
      refine sweep_spec hw hM fuel _ v h1 ?_
      rw [h2]
      have := unexplored_put (N := G.nL + G.nR) hve hv
      have h' : unexplored (G.nL + G.nR) (put s.explored v true) < fuel := by omega
      exact h'

theorem free_iff {r : Nat} : free G M r = true ↔ ∀ i < G.nL, M.m i ≠ some r := by simp [free]

/-- The edges marked: those of the matching, and those of values from which one that is free can be reached. -/
theorem used_spec (hw : G.WF) (hM : M.OK G) (hc : complete G M = true) : ∃ u, used G M = .ok u ∧ (∀ i < G.nL, ∀ r < G.nVals, r ∈ G.adj i →
    (u i r = true ↔ M.m i = some r ∨ ∃ q < G.nR, free G M q = true ∧ Reach (succ G M) (G.nL + r) (G.nL + q))) := by
  rw [complete_iff] at hc
  simp only [used]
  split
  next hsq =>
    -- no value is free
    have nofree : ∀ q < G.nR, free G M q = false := by
      intro q hq
      rw [Bool.eq_false_iff]
      intro hf
      rw [free_iff] at hf
      refine pigeon (n := G.nR) (P := fun r => r ≠ q) (f := fun l => (M.m l).getD 0) (i := q) hq (by simp) (fun l hl _ => ?_) fun l hl k hk _ _ e => ?_
      · obtain ⟨r, hr⟩ := Option.isSome_iff_exists.1 (hc l (by omega))
        rw [hr, Option.getD_some]
        have := hM.edge l r hr
        exact ⟨hw.edges l this.1 r this.2, by rintro rfl; exact hf l this.1 hr⟩
      · obtain ⟨r, hr⟩ := Option.isSome_iff_exists.1 (hc l (by omega))
        obtain ⟨r', hr'⟩ := Option.isSome_iff_exists.1 (hc k (by omega))
        rw [hr, hr', Option.getD_some, Option.getD_some] at e
        subst e
        have := (hM.back _ _).1 hr
        rw [(hM.back _ _).1 hr'] at this
        exact (Option.some.inj this).symm
    refine ⟨_, rfl, fun i hi r hr _ => ?_⟩
    simp only [usedByMatching, hi, hr, true_and, decide_eq_true_eq]
    exact ⟨.inl, fun h => h.resolve_right fun ⟨q, hq, hf, _⟩ => by rw [nofree q hq] at hf; cases hf⟩
  next =>
    let todo := ((List.range G.nR).filter (free G M)).map (G.nL + ·)
    have memtodo : ∀ v, v ∈ todo ↔ ∃ r < G.nR, free G M r = true ∧ v = G.nL + r := fun v => by
      simp only [todo, List.mem_map, List.mem_filter, List.mem_range]
      exact ⟨fun ⟨r, ⟨h1, h2⟩, e⟩ => ⟨r, h1, h2, e.symm⟩, fun ⟨r, h1, h2, e⟩ => ⟨r, ⟨h1, h2⟩, e.symm⟩⟩
    have hnd : todo.Nodup := by
      have hn : (List.range G.nR).Nodup := List.nodup_range
      exact List.pairwise_map.2 ((hn.sublist List.filter_sublist).imp fun hne e => hne (by omega))
    have hlen : unexplored (G.nL + G.nR) (fun _ => false) < G.nL + G.nR + 1 := by
      have := List.length_filter_le (fun _ => !false) (List.range (G.nL + G.nR))
      rw [List.length_range] at this
      exact Nat.lt_succ_of_le this
    have hsw : Sweeping G M 0 [] ⟨todo.reverse, fun v => decide (v ∈ todo), fun _ => false, usedByMatching G M⟩ := by
      refine { nodup := List.pairwise_reverse.2 (hnd.imp Ne.symm), inTodo := fun v => by simp, range := fun v hv => ?_, apart := fun _ _ => rfl, free := fun r hr hf => .inl ?_, preds := nofun, marks := nofun, matched := fun _ _ => id, reach := fun v hv => ?_, only := fun i r hu => ?_ }
      · rcases hv with hv | hv
        · obtain ⟨r, h1, _, rfl⟩ := (memtodo v).1 (List.mem_reverse.1 hv)
          omega
        · cases hv
      · exact List.mem_reverse.2 ((memtodo _).2 ⟨r, hr, hf, rfl⟩)
      · rcases hv with hv | hv
        · obtain ⟨r, h1, h2, rfl⟩ := (memtodo v).1 (List.mem_reverse.1 hv)
          exact ⟨r, h1, h2, .refl _⟩
        · cases hv
      · simp only [usedByMatching, decide_eq_true_eq] at hu
        exact ⟨hu.1, hu.2.1, .inl hu.2.2⟩
    obtain ⟨t, t1, t2, t3⟩ := sweep_spec hw hM (G.nL + G.nR + 1) _ 0 hsw hlen
    simp only [todo] at t1
    simp only [t1, bind, Except.bind, pure, Except.pure]
    refine ⟨_, rfl, fun i hi r hr hadj => ⟨fun hu => (t2.only i r hu).2.2.imp id (·.2), fun h => ?_⟩⟩
    by_cases hm : M.m i = some r
    · exact t2.matched i r (by simp [usedByMatching, hi, hr, hm])
    · obtain ⟨q, hq, hf, hreach⟩ := h.resolve_left hm
      have hex : ∀ x, x < G.nL + G.nR → Reach (succ G M) x (G.nL + q) → t.explored x = true := by
        intro x hx hr
        generalize hy : G.nL + q = y at hr
        induction hr with
        | refl => subst hy; exact (t2.free q hq hf).resolve_left (by rw [t3]; nofun)
        | step e _ ih =>
          have hyN := succ_range hw hM _ hx _ e
          have := t2.preds _ (ih hyN hy) _ ((pred_succ hw hM hx hyN).2 e)
          rcases this with h | h | h
          · simp at h
          · exact h
          · rw [t3] at h; cases h
      have hrR := hw.edges i hi r hadj
      exact (t2.marks r (hex _ (by omega) hreach) hr i hi (mem_unmatched.2 ⟨hadj, hm⟩)).resolve_left (by simp)

/-! ## Edges in no choice -/

theorem matched_of_not_free (hM : M.OK G) {q : Nat} (h : free G M q = false) : ∃ k, M.inv q = some k := by
  have h' : ¬ free G M q = true := by rw [h]; nofun
  rw [free_iff] at h'
  refine Classical.byContradiction fun hn => h' fun i _ hm => hn ⟨i, (hM.back i q).1 hm⟩

/-- An edge from whose value neither its variable nor a free value can be reached is in no choice. -/
theorem edge_dead (hw : G.WF) (hM : M.OK G) {i r : Nat} (hi : i < G.nL) (hr : r < G.nR) (h1 : ¬ Reach (succ G M) (G.nL + r) i) (h2 : ∀ q < G.nR, free G M q = true → ¬ Reach (succ G M) (G.nL + r) (G.nL + q))
    {c : Nat → Nat} (hc : Choice G c) : c i ≠ r := by
  intro hci
  -- a value that can be reached is matched to a variable that can be reached
  have step : ∀ q < G.nR, Reach (succ G M) (G.nL + r) (G.nL + q) → ∃ k, M.inv q = some k ∧ k < G.nL ∧ Reach (succ G M) (G.nL + r) k := by
    intro q hq hre
    obtain ⟨k, hk⟩ := matched_of_not_free hM (Bool.eq_false_iff.2 fun hf => h2 q hq hf hre)
    exact ⟨k, hk, (hM.edge _ _ ((hM.back _ _).2 hk)).1, hre.trans (.one (by rw [succ_right, hk]; simp))⟩
  have go : ∀ l < G.nL, Reach (succ G M) (G.nL + r) l ∨ l = i → ∃ k, M.inv (c l) = some k ∧ k < G.nL ∧ Reach (succ G M) (G.nL + r) k := by
    intro l hl h
    by_cases e : l = i
    · rw [e, hci]; exact step r hr (.refl _)
    · have hre := h.resolve_right e
      by_cases hm : M.m l = some (c l)
      · exact ⟨l, (hM.back _ _).1 hm, hl, hre⟩
      · refine step (c l) (hw.edges l hl _ (hc.edge l hl)) (hre.trans (.one ?_))
        rw [succ_left hl]
        exact List.mem_map.2 ⟨c l, mem_unmatched.2 ⟨hc.edge l hl, hm⟩, rfl⟩
  refine pigeon (n := G.nL) (P := Reach (succ G M) (G.nL + r)) (f := fun l => (M.inv (c l)).getD 0) (i := i) hi h1 (fun l hl h => ?_) fun l hl k hk hp hq e => ?_
  · obtain ⟨k, hk, hk1, hk2⟩ := go l hl h
    simp only [hk, Option.getD_some]
    exact ⟨hk1, hk2⟩
  · obtain ⟨a, ha, _⟩ := go l hl hp
    obtain ⟨b, hb, _⟩ := go k hk hq
    simp only [ha, hb, Option.getD_some] at e
    subst e
    have h1 := (hM.back _ _).2 ha
    rw [(hM.back _ _).2 hb] at h1
    exact hc.inj l hl k hk (Option.some.inj h1).symm

/-- A complete matching in which no other variable has `r` gives a choice of it for `i`. -/
theorem choice_put (hM : M.OK G) {i r : Nat} (hr : r ∈ G.adj i) (hc : ∀ l < G.nL, l ≠ i → (M.m l).isSome) (hf : ∀ l, l ≠ i → M.m l ≠ some r) : ∃ c, Choice G c ∧ c i = r := by
  have some' : ∀ l < G.nL, l ≠ i → M.m l = some ((M.m l).getD 0) := fun l hl hne => by
    obtain ⟨q, hq⟩ := Option.isSome_iff_exists.1 (hc l hl hne)
    rw [hq]; rfl
  refine ⟨fun l => if l = i then r else (M.m l).getD 0, ⟨fun l hl => ?_, fun l hl k hk e => ?_⟩, by simp⟩
  · split
    next e => rw [e]; exact hr
    next e => exact (hM.edge _ _ (some' l hl e)).2
  · split at e
    next e1 =>
      split at e
      next e2 => rw [e1, e2]
      next e2 => exact absurd (by rw [e]; exact some' k hk e2) (hf k e2)
    next e1 =>
      split at e
      next e2 => exact absurd (by rw [← e]; exact some' l hl e1) (hf l e1)
      next e2 =>
        have h1 := (hM.back _ _).1 (some' l hl e1)
        rw [e, (hM.back _ _).1 (some' k hk e2)] at h1
        exact (Option.some.inj h1).symm

/-- The graph without a variable and a value. -/
def Graph.without (G : Graph) (i r : Nat) : Graph := { G with adj := fun l => if l = i then [] else (G.adj l).filter (· ≠ r) }

/-- An edge from whose value its variable or a free value can be reached is in some choice. -/
theorem edge_live (hM : M.OK G) (hc : complete G M = true) {i r : Nat} (hi : i < G.nL) (hr : r ∈ G.adj i)
    (h : M.m i = some r ∨ Reach (succ G M) (G.nL + r) i ∨ ∃ q, free G M q = true ∧ Reach (succ G M) (G.nL + r) (G.nL + q)) : ∃ c, Choice G c ∧ c i = r := by
  rw [complete_iff] at hc
  by_cases hm : M.m i = some r
  · refine choice_put hM hr (fun l hl _ => hc l hl) fun l hne h' => hne ?_
    have := (hM.back _ _).1 h'
    rw [(hM.back _ _).1 hm] at this
    exact (Option.some.inj this).symm
  cases hinv : M.inv r with
  | none =>
    refine choice_put hM hr (fun l hl _ => hc l hl) fun l _ h' => ?_
    rw [(hM.back _ _).1 h'] at hinv
    cases hinv
  | some k =>
    have hkr := (hM.back _ _).2 hinv
    have hki : k ≠ i := by rintro rfl; exact hm hkr
    have hk := (hM.edge _ _ hkr).1
    obtain ⟨ri, hri⟩ := Option.isSome_iff_exists.1 (hc i hi)
    have hrr : ri ≠ r := by rintro rfl; exact hm hri
    let N : Match := ⟨put (put M.m i none) k none, put (put M.inv r none) ri none⟩
    have hNm : ∀ l q, N.m l = some q ↔ l ≠ i ∧ l ≠ k ∧ M.m l = some q := fun l q => by
      show put (put M.m i none) k none l = some q ↔ _
      by_cases e : l = k
      · rw [e, put_same]; simp
      · rw [put_ne _ _ e]
        by_cases e' : l = i
        · rw [e', put_same]; simp
        · rw [put_ne _ _ e']; simp [e, e']
    have hNi : ∀ q l, N.inv q = some l ↔ q ≠ r ∧ q ≠ ri ∧ M.inv q = some l := fun q l => by
      show put (put M.inv r none) ri none q = some l ↔ _
      by_cases e : q = ri
      · rw [e, put_same]; simp
      · rw [put_ne _ _ e]
        by_cases e' : q = r
        · rw [e', put_same]; simp
        · rw [put_ne _ _ e']; simp [e, e']
    have only : ∀ l q, M.m l = some q → (l = i ↔ q = ri) ∧ (l = k ↔ q = r) := fun l q hlq => by
      have hb := (hM.back _ _).1 hlq
      refine ⟨⟨?_, ?_⟩, ⟨?_, ?_⟩⟩
      · rintro rfl; rw [hri] at hlq; exact (Option.some.inj hlq).symm
      · rintro rfl; rw [(hM.back _ _).1 hri] at hb; exact (Option.some.inj hb).symm
      · rintro rfl; rw [hkr] at hlq; exact (Option.some.inj hlq).symm
      · rintro rfl; rw [hinv] at hb; exact (Option.some.inj hb).symm
    have hN : N.OK (G.without i r) := by
      refine ⟨fun l q h' => ?_, fun l q => ?_⟩
      · obtain ⟨h1, h2, h3⟩ := (hNm l q).1 h'
        have h4 := hM.edge l q h3
        refine ⟨h4.1, ?_⟩
        show q ∈ if l = i then [] else (G.adj l).filter (· ≠ r)
        rw [if_neg h1]
        exact List.mem_filter.2 ⟨h4.2, by simpa using fun e => h2 (((only l q h3).2).2 e)⟩
      · rw [hNm, hNi]
        refine ⟨fun ⟨h1, h2, h3⟩ => ⟨fun e => h2 ((only l q h3).2.2 e), fun e => h1 ((only l q h3).1.2 e), (hM.back _ _).1 h3⟩, fun ⟨h1, h2, h3⟩ => ?_⟩
        have h3 := (hM.back _ _).2 h3
        exact ⟨fun e => h2 ((only l q h3).1.1 e), fun e => h1 ((only l q h3).2.1 e), h3⟩
    have hnk : N.m k = none := by
      cases hx : N.m k with
      | none => rfl
      | some q => exact absurd rfl ((hNm k q).1 hx).2.1
    obtain ⟨K, _, hK, hend⟩ := augment_spec hN (start := k) hk hnk
    have hKm : ∀ l q, K.m l = some q → l ≠ i ∧ q ≠ r ∧ q ∈ G.adj l := fun l q h' => by
      have := (hK.ok.edge l q h').2
      have h2 : q ∈ if l = i then [] else (G.adj l).filter (· ≠ r) := this
      split at h2
      next => cases h2
      next e =>
        obtain ⟨h3, h4⟩ := List.mem_filter.1 h2
        exact ⟨e, by simpa using h4, h3⟩
    have hKG : K.OK G := ⟨fun l q h' => ⟨(hK.ok.edge l q h').1, (hKm l q h').2.2⟩, hK.ok.back⟩
    rcases hend with hcov | ⟨rfl, L, hLk, hL⟩
    · refine choice_put hKG hr (fun l hl hne => ?_) fun l _ h' => (hKm l r h').2.1 rfl
      by_cases e : l = k
      · rw [e]; exact hcov
      · refine hK.more l ?_
        obtain ⟨q, hq⟩ := Option.isSome_iff_exists.1 (hc l hl)
        rw [(hNm l q).2 ⟨hne, e, hq⟩]; rfl
    · -- then neither could be reached
      exfalso
      have key : ∀ v w, Reach (succ G M) v w → (v = G.nL + r ∨ (v < G.nL ∧ L v ∧ v ≠ i) ∨ ∃ q, v = G.nL + q ∧ ∃ l, M.inv q = some l ∧ L l ∧ l ≠ i) →
          (w = G.nL + r ∨ (w < G.nL ∧ L w ∧ w ≠ i) ∨ ∃ q, w = G.nL + q ∧ ∃ l, M.inv q = some l ∧ L l ∧ l ≠ i) := by
        intro v w hre
        induction hre with
        | refl => exact id
        | @step x y z e _ ih =>
          intro hx
          refine ih ?_
          rcases hx with rfl | ⟨h1, h2, h3⟩ | ⟨q, rfl, l, h1, h2, h3⟩
          · rw [succ_right, hinv] at e
            have : y = k := by simpa using e
            subst this
            exact .inr (.inl ⟨hk, hLk, hki⟩)
          · rw [succ_left h1] at e
            obtain ⟨q, hq, rfl⟩ := List.mem_map.1 e
            by_cases eq : q = r
            · exact .inl (by rw [eq])
            · refine .inr (.inr ⟨q, rfl, ?_⟩)
              obtain ⟨l, h4, h5⟩ := (hL x h2).2 q (by
                show q ∈ if x = i then [] else (G.adj x).filter (· ≠ r)
                rw [if_neg h3]
                exact List.mem_filter.2 ⟨(mem_unmatched.1 hq).1, by simpa using eq⟩)
              exact ⟨l, ((hNi q l).1 h4).2.2, h5, ((hNm l q).1 ((hN.back _ _).2 h4)).1⟩
          · rw [succ_right, h1] at e
            have : y = l := by simpa using e
            subst this
            exact .inr (.inl ⟨(hM.edge _ _ ((hM.back _ _).2 h1)).1, h2, h3⟩)
      rcases h.resolve_left hm with h1 | ⟨q, hq, h1⟩
      · rcases key _ _ h1 (.inl rfl) with h2 | h2 | ⟨q, h2, _⟩
        · omega
        · exact h2.2.2 rfl
        · omega
      · rw [free_iff] at hq
        rcases key _ _ h1 (.inl rfl) with h2 | h2 | ⟨q', h2, l, h3, _⟩
        · have : q = r := by omega
          subst this
          exact hq k hk hkr
        · omega
        · have : q' = q := by omega
          subst this
          have h4 := (hM.back _ _).2 h3
          exact hq l (hM.edge _ _ h4).1 h4

/-! ## The whole -/

theorem mem_deletable {u : Nat → Nat → Bool} {comp : Nat → Nat} {i r : Nat} : (i, r) ∈ deletable G u comp ↔ i < G.nL ∧ r ∈ G.adj i ∧ r < G.nVals ∧ u i r = false ∧ comp (G.nL + r) ≠ comp i := by
  simp only [deletable, List.mem_flatMap, List.mem_range, List.mem_map, List.mem_filter, Prod.mk.injEq]
  constructor
  · rintro ⟨j, hj, q, ⟨h1, h2⟩, rfl, rfl⟩
    simp only [Bool.and_eq_true, decide_eq_true_eq, Bool.not_eq_true'] at h2
    exact ⟨hj, h1, h2.1.1, h2.1.2, h2.2⟩
  · rintro ⟨h1, h2, h3, h4, h5⟩
    exact ⟨i, h1, r, ⟨h2, by simp [h3, h4, h5]⟩, rfl, rfl⟩

theorem batches_spec {comp : Nat → Nat} {dels : List (Nat × Nat)} (hm : ∀ e ∈ dels, ∃ k, M.inv e.2 = some k) : ∀ ks : List Nat, ∃ out, batches G M comp dels ks = .ok out ∧ ∀ e, e ∈ out ↔ e ∈ dels ∧ comp (G.nL + e.2) ∈ ks
  | [] => ⟨[], rfl, by simp⟩
  | k :: ks => by
    obtain ⟨out, h1, h2⟩ := batches_spec hm ks
    simp only [batches]
    split
    next hl =>
      refine ⟨out, h1, fun e => ?_⟩
      rw [h2, List.mem_cons]
      refine and_congr_right fun he => ⟨.inr, fun h => h.resolve_left fun hk => ?_⟩
      have hn : dels.filter (fun e => comp (G.nL + e.2) = k) = [] := List.getLast?_eq_none_iff.1 hl
      have : e ∈ dels.filter (fun e => comp (G.nL + e.2) = k) := List.mem_filter.2 ⟨he, by simpa using hk⟩
      rw [hn] at this
      cases this
    next e hl =>
      have hmem := List.mem_of_getLast? hl
      obtain ⟨l, hl'⟩ := hm e (List.mem_filter.1 hmem).1
      simp only [hl', Option.isNone_some, Bool.false_eq_true, ↓reduceIte, h1, bind, Except.bind, pure, Except.pure]
      refine ⟨_, rfl, fun e => ?_⟩
      rw [List.mem_append, h2, List.mem_filter, List.mem_cons, decide_eq_true_eq]
      constructor
      · rintro (⟨a, b⟩ | ⟨a, b⟩)
        · exact ⟨a, .inl b⟩
        · exact ⟨a, .inr b⟩
      · rintro ⟨a, b | b⟩
        · exact .inl ⟨a, b⟩
        · exact .inr ⟨a, b⟩

/-- Either there is no choice, and that is what is reported; or there is one, and the edges reported are those, of real values, that are in none. -/
theorem prune_spec (hw : G.WF) {old : List (Option Nat)} (ho : Injective old) :
    (prune G old = .ok none ∧ ∀ c, ¬ Choice G c) ∨
    ∃ dels, prune G old = .ok (some dels) ∧ (∃ c, Choice G c) ∧ ∀ i r, (i, r) ∈ dels ↔ i < G.nL ∧ r ∈ G.adj i ∧ r < G.nVals ∧ ∀ c, Choice G c → c i ≠ r := by
  obtain ⟨M, hb, hM, hcov⟩ := build_spec (G := G) ho
  simp only [prune, hb, bind, Except.bind, pure, Except.pure]
  cases hc : complete G M with
  | false =>
    refine .inl ⟨?_, fun c => ?_⟩
    · simp only [Bool.false_eq_true, ↓reduceIte, explain_spec hw hcov hc]
    · obtain ⟨i, hi, hn⟩ : ∃ i < G.nL, M.m i = none := by
        refine Classical.byContradiction fun hno => ?_
        have : complete G M = true := complete_iff.2 fun i hi => by
          cases hm : M.m i with
          | none => exact absurd ⟨i, hi, hm⟩ hno
          | some => rfl
        rw [hc] at this
        cases this
      obtain ⟨L, hL, hcl⟩ := (hcov i hi).resolve_left (by rw [hn]; nofun)
      exact hcl.no_choice hM hL hn
  | true =>
    refine .inr ?_
    obtain ⟨s, h1, h2, h3, h4⟩ := components_spec hw hM
    obtain ⟨u, h5, h6⟩ := used_spec hw hM hc
    simp only [↓reduceIte, h1, h5]
    have hdel : ∀ i r, (i, r) ∈ deletable G u s.comp ↔ i < G.nL ∧ r ∈ G.adj i ∧ r < G.nVals ∧ ∀ c, Choice G c → c i ≠ r := by
      intro i r
      rw [mem_deletable]
      refine and_congr_right fun hi => and_congr_right fun hr => and_congr_right fun hv => ?_
      have hrR := hw.edges i hi r hr
      constructor
      · rintro ⟨g1, g2⟩ c hcc
        have g3 : ¬ u i r = true := by rw [g1]; nofun
        rw [h6 i hi r hv hr, not_or] at g3
        refine edge_dead hw hM hi hrR (fun hre => g2 ?_) (fun q hq hf hre => g3.2 ⟨q, hq, hf, hre⟩) hcc
        refine Nat.le_antisymm (h3 i (by omega) _ (.one ?_)) (h3 _ (by omega) _ hre)
        rw [succ_left hi]
        exact List.mem_map.2 ⟨r, mem_unmatched.2 ⟨hr, g3.1⟩, rfl⟩
      · intro hno
        refine Classical.byContradiction fun hn => ?_
        have : u i r = true ∨ s.comp (G.nL + r) = s.comp i := by
          cases hu : u i r with
          | true => exact .inl rfl
          | false => exact .inr (Classical.byContradiction fun h => hn ⟨hu, h⟩)
        obtain ⟨c, hcc, e⟩ := edge_live hM hc hi hr (by
          rcases this with h | h
          · rcases (h6 i hi r hv hr).1 h with h | ⟨q, _, hf, hre⟩
            · exact .inl h
            · exact .inr (.inr ⟨q, hf, hre⟩)
          · exact .inr (.inl (h4 _ (by omega) i (by omega) h)))
        exact hno c hcc e
    have hcount : ((deletable G u s.comp).all fun e => s.comp (G.nL + e.2) < s.count) = true := by
      rw [List.all_eq_true]
      rintro ⟨i, r⟩ he
      have := (hdel i r).1 he
      exact decide_eq_true (h2 _ (by have := hw.edges i this.1 r this.2.1; show G.nL + r < _; omega))
    rw [if_pos hcount]
    obtain ⟨out, h7, h8⟩ := batches_spec (G := G) (M := M) (comp := s.comp) (dels := deletable G u s.comp) (fun e he => by
      obtain ⟨i, r⟩ := e
      obtain ⟨g1, g2, g3, g4, _⟩ := mem_deletable.1 he
      have g5 : ¬ u i r = true := by rw [g4]; nofun
      rw [h6 i g1 r g3 g2, not_or] at g5
      exact matched_of_not_free hM (Bool.eq_false_iff.2 fun hf => g5.2 ⟨r, hw.edges i g1 r g2, hf, .refl _⟩)) (List.range s.count)
    simp only [h7]
    refine ⟨out, rfl, ?_, fun i r => ?_⟩
    · have hm : ∀ l < G.nL, M.m l = some ((M.m l).getD 0) := fun l hl => by
        obtain ⟨q, hq⟩ := Option.isSome_iff_exists.1 (complete_iff.1 hc l hl)
        rw [hq]; rfl
      refine ⟨fun l => (M.m l).getD 0, fun i hi => (hM.edge _ _ (hm i hi)).2, fun i hi j hj e => ?_⟩
      have g1 := (hM.back _ _).1 (hm i hi)
      rw [e, (hM.back _ _).1 (hm j hj)] at g1
      exact (Option.some.inj g1).symm
    · rw [h8, ← hdel]
      refine ⟨(·.1), fun h => ⟨h, List.mem_range.2 ?_⟩⟩
      have := (hdel i r).1 h
      have := hw.edges i this.1 r this.2.1
      exact h2 _ (by show G.nL + r < _; omega)

end Gcs.Gac
