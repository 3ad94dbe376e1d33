import Verif.Lemmas.Queue
import Verif.Spec.Queue

/-! # C19: the propagation queue never loses, duplicates or resurrects a propagator -/

namespace Gcs.Queue
variable {n : Nat} {q : Queue}

theorem mem_ready {q : Queue} {p : Nat} : p ∈ Ready q ↔ ∃ i : Nat, q.begin_ ≤ i ∧ i < q.end_ ∧ q.queue[i]? = some p := by
  unfold Ready
  rw [List.mem_iff_getElem?]
  constructor
  · rintro ⟨i, hi⟩
    rw [List.getElem?_drop, List.getElem?_take] at hi
    split at hi
    · exact ⟨q.begin_ + i, by omega, by omega, hi⟩
    · cases hi
  · rintro ⟨i, h1, h2, h3⟩
    refine ⟨i - q.begin_, ?_⟩
    rw [List.getElem?_drop, List.getElem?_take, if_pos (by omega), show q.begin_ + (i - q.begin_) = i by omega]
    exact h3

/-- **C19.** Under the representation invariant the four regions partition the propagators. -/
theorem Inv.partition (h : Inv n q) : Partition n q := by
  have inj := @Perm.inj n q h.toPerm
  have hbe := h.be; have hei := h.ei; have hidn := h.idn
  refine ⟨?_, ?_, ?_, ?_, ?_, ?_, ?_, ?_, ?_⟩
  · intro p hp
    obtain ⟨i, hi, _, hq⟩ := h.exists_pos hp
    rw [mem_ready]
    by_cases h1 : i < q.begin_
    · exact .inl ⟨i, h1, hq⟩
    · by_cases h2 : i < q.end_
      · exact .inr (.inl ⟨i, by omega, h2, hq⟩)
      · by_cases h3 : i < q.idle
        · exact .inr (.inr (.inl ⟨i, by omega, h3, hq⟩))
        · exact .inr (.inr (.inr ⟨i, by omega, hq⟩))
  · intro p hp
    have : ∃ i : Nat, q.queue[i]? = some p := by
      rw [mem_ready] at hp
      rcases hp with ⟨i, _, hq⟩ | ⟨i, _, _, hq⟩ | ⟨i, _, _, hq⟩ | ⟨i, _, hq⟩ <;> exact ⟨i, hq⟩
    obtain ⟨i, hq⟩ := this
    exact (h.lt_of_lookup (h.fwd _ _ hq)).1
  · show List.Pairwise _ _
    rw [List.pairwise_iff_getElem]
    intro i j hi hj hij he
    have e1 := List.getElem?_eq_getElem hi
    have e2 := List.getElem?_eq_getElem hj
    rw [he] at e1
    unfold Ready at e1 e2 hj
    rw [List.length_drop, List.length_take] at hj
    rw [List.getElem?_drop, List.getElem?_take, if_pos (by omega)] at e1 e2
    have := inj e1 e2
    omega
  all_goals
    intro p hp
    try rw [mem_ready] at hp
  · obtain ⟨⟨i, h1, h2⟩, ⟨j, h3, h4, h5⟩⟩ := hp
    have := inj h2 h5; omega
  · obtain ⟨⟨i, h1, h2⟩, ⟨j, h3, h4, h5⟩⟩ := hp
    have := inj h2 h5; omega
  · obtain ⟨⟨i, h1, h2⟩, ⟨j, h3, h5⟩⟩ := hp
    have := inj h2 h5; omega
  · obtain ⟨⟨i, h1, h1', h2⟩, ⟨j, h3, h4, h5⟩⟩ := hp
    have := inj h2 h5; omega
  · obtain ⟨⟨i, h1, h1', h2⟩, ⟨j, h3, h5⟩⟩ := hp
    have := inj h2 h5; omega
  · obtain ⟨⟨i, h1, h1', h2⟩, ⟨j, h3, h5⟩⟩ := hp
    have := inj h2 h5; omega

/-- **C18/C19.** `enqueue_if_idle` puts an idle propagator at the back of the ready list, and otherwise does nothing. It never fails. -/
theorem enqueueIfIdle_spec (h : Inv n q) {p : Nat} (hp : p < n) :
    ∃ q', q.enqueueIfIdle p = .ok q' ∧ Inv n q' ∧ q'.begin_ = q.begin_ ∧ q'.idle = q.idle ∧
      (∀ i : Nat, i < q.end_ ∨ q.idle ≤ i → q'.queue[i]? = q.queue[i]?) ∧
      (IsIdle q p → Ready q' = Ready q ++ [p] ∧ ∀ x, IsIdle q' x ↔ IsIdle q x ∧ x ≠ p) ∧
      (¬ IsIdle q p → q' = q) := by
  obtain ⟨lp, hlp, hl, hq⟩ := h.exists_pos hp
  have hbe := h.be; have hei := h.ei; have hidn := h.idn
  by_cases hc : lp ≥ q.end_ ∧ lp < q.idle
  · obtain ⟨other, _, ho, _⟩ := h.exists_at (i := q.end_) (by omega)
    obtain ⟨q', h1, h2, h3, h4, h5, h6⟩ := h.toPerm.swap hl ho
    have hIdle : IsIdle q p := ⟨lp, hc.1, hc.2, hq⟩
    have hinv : Inv n { q' with end_ := q'.end_ + 1 } :=
      ⟨⟨h5.qlen, h5.llen, h5.fwd, h5.bwd⟩, by show q'.begin_ ≤ q'.end_ + 1; omega, by show q'.end_ + 1 ≤ q'.idle; omega, by show q'.idle ≤ n; omega⟩
    refine ⟨{ q' with end_ := q'.end_ + 1 }, ?_, hinv, h2, h4, ?_, ?_, ?_⟩
    · unfold enqueueIfIdle
      rw [vecAt_ok.2 hl]
      show (if lp ≥ q.end_ ∧ lp < q.idle then _ else _) = _
      rw [if_pos hc, h1]; rfl
    · intro i hi
      show q'.queue[i]? = _
      rw [h6, if_neg (by omega), if_neg (by omega)]
    · intro _
      constructor
      · unfold Ready
        show (q'.queue.take (q'.end_ + 1)).drop q'.begin_ = _
        rw [h2, h3]
        have hlen : q.end_ < q'.queue.length := by rw [h5.qlen]; omega
        have htake : q'.queue.take (q.end_ + 1) = q.queue.take q.end_ ++ [p] := by
          apply List.ext_getElem?
          intro i
          rw [List.getElem?_take, List.getElem?_append, List.length_take, h.qlen, Nat.min_eq_left (by omega)]
          by_cases hi : i < q.end_
          · rw [if_pos (by omega), if_pos hi, h6, if_neg (by omega), if_neg (by omega), List.getElem?_take, if_pos hi]
          · rw [if_neg hi]
            by_cases hi2 : i = q.end_
            · subst hi2; rw [if_pos (by omega), h6, if_pos rfl]; simp
            · rw [if_neg (by omega)]
              symm; apply List.getElem?_eq_none; simp; omega
        rw [htake, List.drop_append_of_le_length]
        rw [List.length_take, h.qlen]; omega
      · intro x
        constructor
        · rintro ⟨i, hi1, hi2, hi3⟩
          change q'.end_ + 1 ≤ i at hi1; change i < q'.idle at hi2; change q'.queue[i]? = some x at hi3
          rw [h6, if_neg (by omega)] at hi3
          split at hi3
          · cases hi3
            refine ⟨⟨q.end_, Nat.le_refl _, by omega, ho⟩, ?_⟩
            rintro rfl
            have := h.toPerm.inj hq ho; omega
          · rename_i hne
            refine ⟨⟨i, by omega, by omega, hi3⟩, ?_⟩
            rintro rfl
            exact hne (h.toPerm.inj hi3 hq)
        · rintro ⟨⟨i, hi1, hi2, hi3⟩, hx⟩
          by_cases hie : i = q.end_
          · subst hie
            rw [ho] at hi3; cases hi3
            have : lp ≠ q.end_ := by
              rintro rfl
              rw [hq] at ho; exact hx (Option.some.inj ho).symm
            refine ⟨lp, ?_, ?_, ?_⟩
            · show q'.end_ + 1 ≤ lp; omega
            · show lp < q'.idle; omega
            · show q'.queue[lp]? = _
              rw [h6, if_neg this, if_pos rfl]
          · refine ⟨i, ?_, ?_, ?_⟩
            · show q'.end_ + 1 ≤ i; omega
            · show i < q'.idle; omega
            · show q'.queue[i]? = _
              rw [h6, if_neg hie, if_neg]
              · exact hi3
              · rintro rfl
                rw [hq] at hi3; exact hx (Option.some.inj hi3).symm
    · intro hn; exact absurd hIdle hn
  · have hn : ¬ IsIdle q p := by
      rintro ⟨i, h1, h2, h3⟩
      have := h.toPerm.inj h3 hq
      subst this
      exact hc ⟨h1, h2⟩
    refine ⟨q, ?_, h, rfl, rfl, fun _ _ => rfl, fun hi => absurd hi hn, fun _ => rfl⟩
    unfold enqueueIfIdle
    rw [vecAt_ok.2 hl]
    show (if lp ≥ q.end_ ∧ lp < q.idle then _ else _) = _
    rw [if_neg hc]; rfl

/-- **C19.** Taking from a nonempty ready list returns its oldest entry and removes just that. -/
theorem pop_spec (h : Inv n q) (hr : q.begin_ ≠ q.end_) :
    ∃ p q', q.pop = .ok (p, q') ∧ p < n ∧ Inv n q' ∧ Ready q = p :: Ready q' ∧ q'.queue = q.queue ∧ q'.lookup = q.lookup ∧
      q'.begin_ = q.begin_ + 1 ∧ q'.end_ = q.end_ ∧ q'.idle = q.idle ∧ (∀ x, IsDone q' x ↔ IsDone q x ∨ x = p) := by
  have hbe := h.be; have hei := h.ei; have hidn := h.idn
  obtain ⟨p, hp, hq, _⟩ := h.exists_at (i := q.begin_) (by omega)
  refine ⟨p, { q with begin_ := q.begin_ + 1 }, ?_, hp, ⟨⟨h.qlen, h.llen, h.fwd, h.bwd⟩, ?_, hei, hidn⟩, ?_, rfl, rfl, rfl, rfl, rfl, ?_⟩
  · unfold pop; rw [vecAt_ok.2 hq]; rfl
  · show q.begin_ + 1 ≤ q.end_; omega
  · unfold Ready
    show _ = p :: (q.queue.take q.end_).drop (q.begin_ + 1)
    have hlt : q.begin_ < (q.queue.take q.end_).length := by rw [List.length_take, h.qlen]; omega
    rw [List.drop_eq_getElem_cons hlt]
    congr 1
    rw [List.getElem_take]
    exact (List.getElem?_eq_some_iff.1 hq).2
  · intro x
    constructor
    · rintro ⟨i, h1, h2⟩
      change i < q.begin_ + 1 at h1; change q.queue[i]? = some x at h2
      by_cases hi : i = q.begin_
      · subst hi; rw [hq] at h2; exact .inr (Option.some.inj h2).symm
      · exact .inl ⟨i, by omega, h2⟩
    · rintro (⟨i, h1, h2⟩ | rfl)
      · exact ⟨i, by show i < q.begin_ + 1; omega, h2⟩
      · exact ⟨q.begin_, by show q.begin_ < q.begin_ + 1; omega, hq⟩

theorem disableOne_spec (h : Perm n q) (hidn : q.idle ≤ n) {p i : Nat} (hi : i < q.idle) (hp : q.queue[i]? = some p) :
    ∃ q', q.disableOne p = .ok q' ∧ Perm n q' ∧ q'.idle = q.idle - 1 ∧ q'.begin_ = q.begin_ ∧ q'.end_ = q.end_ ∧
      (∀ j : Nat, q.idle ≤ j → q'.queue[j]? = q.queue[j]?) ∧ q'.queue[q.idle - 1]? = some p := by
  unfold disableOne
  rw [if_neg (by omega)]
  have h' : Perm n { q with idle := q.idle - 1 } := ⟨h.qlen, h.llen, h.fwd, h.bwd⟩
  obtain ⟨other, _, ho, _⟩ := h'.exists_at (i := q.idle - 1) (by omega)
  obtain ⟨q', h1, h2, h3, h4, h5, h6⟩ := h'.swap (h'.fwd _ _ hp) ho
  refine ⟨q', h1, h5, h4, h2, h3, ?_, ?_⟩
  · intro j hj
    rw [h6, if_neg (by omega), if_neg (by omega)]
  · rw [h6, if_pos rfl]

/-- **C19.** Disabling distinct, not yet disabled propagators disables exactly those. -/
theorem disableAll_spec : ∀ (ps : List Nat) {q : Queue}, Perm n q → q.idle ≤ n → ps.Nodup →
    (∀ p, p ∈ ps → ∃ i : Nat, i < q.idle ∧ q.queue[i]? = some p) →
    ∃ q', q.disableAll ps = .ok q' ∧ Perm n q' ∧ q'.idle ≤ q.idle ∧ q'.begin_ = q.begin_ ∧ q'.end_ = q.end_ ∧
      (∀ j : Nat, q.idle ≤ j → q'.queue[j]? = q.queue[j]?) ∧ (∀ x, IsDisabled q' x ↔ IsDisabled q x ∨ x ∈ ps)
  | [], q, h, hidn, _, _ => ⟨q, rfl, h, Nat.le_refl _, rfl, rfl, fun _ _ => rfl, by simp⟩
  | p :: ps, q, h, hidn, hnd, hps => by
    obtain ⟨i, hi, hip⟩ := hps p (by simp)
    obtain ⟨q1, e1, p1, i1, b1, n1, k1, t1⟩ := disableOne_spec h hidn hi hip
    have hnd' := List.nodup_cons.1 hnd
    obtain ⟨q2, e2, p2, i2, b2, n2, k2, t2⟩ := disableAll_spec ps (q := q1) p1 (by omega) hnd'.2 (by
      intro x hx
      obtain ⟨j, hj, hjx⟩ := hps x (by simp [hx])
      obtain ⟨j', hj', _, hjx'⟩ := p1.exists_pos ((h.lt_of_lookup (h.fwd _ _ hjx)).1)
      refine ⟨j', ?_, hjx'⟩
      by_cases hge : q.idle ≤ j'
      · rw [k1 _ hge] at hjx'
        have := h.inj hjx hjx'; omega
      · by_cases heq : j' = q.idle - 1
        · subst heq
          rw [t1] at hjx'
          cases hjx'
          exact absurd hx hnd'.1
        · omega)
    refine ⟨q2, ?_, p2, by omega, by omega, by omega, ?_, ?_⟩
    · unfold disableAll; rw [e1]; exact e2
    · intro j hj
      rw [k2 j (by omega), k1 j hj]
    · intro x
      rw [t2, List.mem_cons]
      have : IsDisabled q1 x ↔ IsDisabled q x ∨ x = p := by
        constructor
        · rintro ⟨j, h1, h2⟩
          by_cases hj : q.idle ≤ j
          · rw [k1 _ hj] at h2; exact .inl ⟨j, hj, h2⟩
          · have : j = q.idle - 1 := by omega
            subst this; rw [t1] at h2; exact .inr (Option.some.inj h2).symm
        · rintro (⟨j, h1, h2⟩ | rfl)
          · exact ⟨j, by omega, by rw [k1 _ h1]; exact h2⟩
          · exact ⟨q.idle - 1, by omega, t1⟩
      rw [this]
      constructor
      · rintro ((h | h) | h) <;> simp [h]
      · rintro (h | h | h) <;> simp [h]

/-- **C19.** The end of a round (gcs/innards/propagators.cc:795-821): distinct propagators that ran in the round are disabled, all others that are not
disabled become idle. -/
theorem endRound_spec (h : Inv n q) {ps : List Nat} (hnd : ps.Nodup) (hps : ∀ p, p ∈ ps → IsDone q p) :
    ∃ q', q.disableAll ps = .ok q' ∧ Inv n q'.restart ∧ Ready q'.restart = [] ∧ q'.restart.idle ≤ q.idle ∧
      (∀ j : Nat, q.idle ≤ j → q'.restart.queue[j]? = q.queue[j]?) ∧
      (∀ x, IsDisabled q'.restart x ↔ IsDisabled q x ∨ x ∈ ps) ∧
      (∀ x, x < n → (IsIdle q'.restart x ↔ ¬ IsDisabled q x ∧ x ∉ ps)) := by
  have hbe := h.be; have hei := h.ei; have hidn := h.idn
  obtain ⟨q', e, p', i', b', n', k', t'⟩ := disableAll_spec ps h.toPerm h.idn hnd (by
    intro p hp
    obtain ⟨i, hi, hip⟩ := hps p hp
    exact ⟨i, by omega, hip⟩)
  have hinv : Inv n q'.restart := ⟨⟨p'.qlen, p'.llen, p'.fwd, p'.bwd⟩, Nat.le_refl _, Nat.zero_le _, by show q'.idle ≤ n; omega⟩
  refine ⟨q', e, hinv, rfl, i', k', t', ?_⟩
  intro x hx
  have hpart := hinv.partition
  have t'' : IsDisabled q'.restart x ↔ IsDisabled q x ∨ x ∈ ps := t' x
  constructor
  · intro hI
    constructor
    · intro hd; exact hpart.idleDisabled x ⟨hI, t''.2 (.inl hd)⟩
    · intro hm; exact hpart.idleDisabled x ⟨hI, t''.2 (.inr hm)⟩
  · rintro ⟨h1, h2⟩
    rcases hpart.cover x hx with hd | hr | hi | hd
    · obtain ⟨i, hi, _⟩ := hd
      exact absurd hi (Nat.not_lt_zero _)
    · cases hr
    · exact hi
    · rcases t''.1 hd with hd | hd
      · exact absurd hd h1
      · exact absurd hd h2


/-- Filling consecutive positions. -/
theorem fill_spec : ∀ (ids : List Nat) (q : Queue) (at_ : Nat), ids.Nodup → at_ + ids.length ≤ q.queue.length → (∀ p ∈ ids, p < q.lookup.length) →
    ∃ q', q.fill at_ ids = .ok q' ∧ q'.queue.length = q.queue.length ∧ q'.lookup.length = q.lookup.length ∧
      (∀ i : Nat, q'.queue[i]? = if at_ ≤ i ∧ i < at_ + ids.length then ids[i - at_]? else q.queue[i]?) ∧
      (∀ p : Nat, p ∉ ids → q'.lookup[p]? = q.lookup[p]?) ∧
      (∀ k p : Nat, ids[k]? = some p → q'.lookup[p]? = some (at_ + k))
  | [], q, at_, _, _, _ => ⟨q, rfl, rfl, rfl, by intro i; rw [if_neg (by simp)], by simp, by simp⟩
  | p :: ps, q, at_, hnd, hlen, hlt => by
    have hnd' := List.nodup_cons.1 hnd
    rw [List.length_cons] at hlen
    have hp : p < q.lookup.length := hlt p (by simp)
    obtain ⟨q', e, l1, l2, hq, hl, hk⟩ := fill_spec ps { q with queue := q.queue.set at_ p, lookup := q.lookup.set p at_ } (at_ + 1) hnd'.2
      (by simp; omega) (by intro x hx; simp; exact hlt x (by simp [hx]))
    simp only [List.length_set] at l1 l2
    refine ⟨q', ?_, l1, l2, ?_, ?_, ?_⟩
    · unfold fill; rw [if_pos ⟨by omega, hp⟩]; exact e
    · intro i
      rw [hq, List.length_cons]
      by_cases h1 : at_ = i
      · subst h1
        rw [if_neg (by omega), if_pos (by omega), List.getElem?_set_self (by omega)]
        simp
      · by_cases h2 : at_ + 1 ≤ i ∧ i < at_ + 1 + ps.length
        · rw [if_pos h2, if_pos (by omega), show i - at_ = (i - (at_ + 1)) + 1 by omega, List.getElem?_cons_succ]
        · rw [if_neg h2, if_neg (by omega), List.getElem?_set_ne h1]
    · intro x hx
      rw [List.mem_cons, not_or] at hx
      rw [hl x hx.2, List.getElem?_set_ne (Ne.symm hx.1)]
    · intro k x hx
      cases k with
      | zero =>
        simp only [List.getElem?_cons_zero, Option.some.injEq] at hx
        subst hx
        rw [hl p hnd'.1, List.getElem?_set_self hp]
        rfl
      | succ k =>
        rw [List.getElem?_cons_succ] at hx
        rw [hk k x hx]; congr 1; omega

/-- **C19.** The rebuild at the root: whatever the queue was, afterwards every propagator that is not permanently disabled is ready, in registration order,
and the others are disabled. -/
theorem rebuild_spec (q : Queue) (disabled : List Bool) :
    ∃ q', q.rebuild disabled = .ok q' ∧ Inv disabled.length q' ∧
      Ready q' = (List.range disabled.length).filter (fun i => !(disabled[i]?.getD false)) ∧
      (∀ x, ¬ IsIdle q' x) ∧ (∀ x, ¬ IsDone q' x) ∧ (∀ x, IsDisabled q' x ↔ disabled[x]? = some true) := by
  have hr : ∀ l : List Nat, (resizeVec disabled.length l).length = disabled.length := by
    intro l; unfold resizeVec; simp; omega
  unfold rebuild
  generalize hE : (List.range disabled.length).filter (fun i => !(disabled[i]?.getD false)) = E
  generalize hD : (List.range disabled.length).filter (fun i => disabled[i]?.getD false) = D
  have hmE : ∀ x, x ∈ E ↔ x < disabled.length ∧ disabled[x]? = some false := by
    intro x; subst hE; simp only [List.mem_filter, List.mem_range]
    constructor
    · rintro ⟨h1, h2⟩; refine ⟨h1, ?_⟩; rw [List.getElem?_eq_getElem h1] at *; simpa using h2
    · rintro ⟨h1, h2⟩; exact ⟨h1, by simp [h2]⟩
  have hmD : ∀ x, x ∈ D ↔ x < disabled.length ∧ disabled[x]? = some true := by
    intro x; subst hD; simp only [List.mem_filter, List.mem_range]
    constructor
    · rintro ⟨h1, h2⟩; refine ⟨h1, ?_⟩; rw [List.getElem?_eq_getElem h1] at *; simpa using h2
    · rintro ⟨h1, h2⟩; exact ⟨h1, by simp [h2]⟩
  have hndE : E.Nodup := by subst hE; exact List.Pairwise.filter _ List.nodup_range
  have hndD : D.Nodup := by subst hD; exact List.Pairwise.filter _ List.nodup_range
  have hlen : E.length + D.length = disabled.length := by
    have hsum : ∀ (l : List Nat) (f : Nat → Bool), (l.filter (fun i => !f i)).length + (l.filter f).length = l.length := by
      intro l f
      induction l with
      | nil => rfl
      | cons a l ih => simp only [List.filter_cons]; cases f a <;> simp <;> omega
    have := hsum (List.range disabled.length) (fun i => disabled[i]?.getD false)
    rw [hD, List.length_range] at this
    rw [← this, ← hE]
  obtain ⟨q1, e1, a1, b1, c1, d1, f1⟩ := fill_spec E { q with queue := resizeVec disabled.length q.queue, lookup := resizeVec disabled.length q.lookup } 0
    hndE (by simp only [hr]; omega) (by intro p hp; simp only [hr]; exact ((hmE p).1 hp).1)
  simp only [hr] at a1 b1
  obtain ⟨q2, e2, a2, b2, c2, d2, f2⟩ := fill_spec D q1 E.length hndD (by omega) (by intro p hp; rw [b1]; exact ((hmD p).1 hp).1)
  have hq : ∀ i : Nat, q2.queue[i]? = (E ++ D)[i]? := by
    intro i
    rw [c2, List.getElem?_append]
    by_cases h1 : i < E.length
    · rw [if_neg (by omega), if_pos h1, c1, if_pos (by omega)]; rfl
    · rw [if_neg h1]
      by_cases h2 : i < E.length + D.length
      · rw [if_pos (by omega)]
      · rw [if_neg (by omega), List.getElem?_eq_none (by omega), List.getElem?_eq_none (by omega)]
  have hqe : q2.queue = E ++ D := List.ext_getElem? hq
  have hperm : Perm disabled.length q2 := by
    refine ⟨by omega, by omega, ?_, ?_⟩
    · intro i p hp
      rw [hq, List.getElem?_append] at hp
      split at hp
      · rename_i hi
        have hpE : p ∈ E := List.mem_of_getElem? hp
        rw [d2 p (by intro hpD; have := ((hmE p).1 hpE).2; rw [((hmD p).1 hpD).2] at this; cases this), f1 _ _ hp]
        congr 1; omega
      · rw [f2 _ _ hp]; congr 1; omega
    · intro p i hp
      have hpn : p < disabled.length := by have := (List.getElem?_eq_some_iff.1 hp).1; omega
      have : p ∈ E ++ D := by
        rw [List.mem_append, hmE, hmD]
        cases hb : disabled[p]? with
        | none => rw [List.getElem?_eq_none_iff] at hb; omega
        | some b => cases b <;> simp [hpn]
      obtain ⟨j, hj⟩ := List.mem_iff_getElem?.1 this
      rw [hq]
      suffices hs : q2.lookup[p]? = some j by
        rw [hp] at hs; cases hs; exact hj
      rw [List.getElem?_append] at hj
      split at hj
      · have hpE : p ∈ E := List.mem_of_getElem? hj
        rw [d2 p (by intro hpD; have := ((hmE p).1 hpE).2; rw [((hmD p).1 hpD).2] at this; cases this), f1 _ _ hj]
        congr 1; omega
      · rw [f2 _ _ hj]; congr 1; omega
  refine ⟨{ q2 with begin_ := 0, end_ := E.length, idle := E.length }, ?_, ⟨⟨hperm.qlen, hperm.llen, hperm.fwd, hperm.bwd⟩, ?_, ?_, ?_⟩, ?_, ?_, ?_, ?_⟩
  · show (Except.bind _ _ : Chk Queue) = _
    rw [hE, hD, e1]
    show ((q1.fill E.length D).bind _ : Chk Queue) = _
    rw [e2]; rfl
  · exact Nat.zero_le _
  · exact Nat.le_refl _
  · show E.length ≤ _; omega
  · unfold Ready
    show (q2.queue.take E.length).drop 0 = E
    rw [hqe]; simp
  · rintro x ⟨i, h1, h2, _⟩; exact absurd h2 (Nat.not_lt.2 h1)
  · rintro x ⟨i, h1, _⟩; exact absurd h1 (Nat.not_lt_zero _)
  · intro x
    constructor
    · rintro ⟨i, h1, h2⟩
      change E.length ≤ i at h1; change q2.queue[i]? = some x at h2
      rw [hq, List.getElem?_append, if_neg (by omega)] at h2
      exact ((hmD x).1 (List.mem_of_getElem? h2)).2
    · intro hx
      have hxD : x ∈ D := (hmD x).2 ⟨by have := (List.getElem?_eq_some_iff.1 hx).1; omega, hx⟩
      obtain ⟨j, hj⟩ := List.mem_iff_getElem?.1 hxD
      refine ⟨E.length + j, Nat.le_add_right _ _, ?_⟩
      show q2.queue[E.length + j]? = some x
      rw [hq, List.getElem?_append, if_neg (by omega), show E.length + j - E.length = j by omega]; exact hj

/-- What can happen to the queue below a point where `idle_end` was saved as `I`: enqueueing, taking, ends of rounds, and restoring a boundary saved later
(hence at most `I`). -/
inductive Below (n I : Nat) : Queue → Queue → Prop
  | refl (q : Queue) : Below n I q q
  | enqueue {q q1 q2 : Queue} (p : Nat) (hp : p < n) (h : Below n I q q1) (e : q1.enqueueIfIdle p = .ok q2) : Below n I q q2
  | seed {q q1 : Queue} (h : Below n I q q1) : Below n I q q1.restart
  | pop {q q1 q2 : Queue} (p : Nat) (h : Below n I q q1) (hne : q1.begin_ ≠ q1.end_) (e : q1.pop = .ok (p, q2)) : Below n I q q2
  | endRound {q q1 q2 : Queue} (ps : List Nat) (h : Below n I q q1) (hnd : ps.Nodup) (hps : ∀ p, p ∈ ps → IsDone q1 p)
      (e : q1.disableAll ps = .ok q2) : Below n I q q2.restart
  | back {q q1 : Queue} (j : Nat) (h : Below n I q q1) (h1 : q1.idle ≤ j) (h2 : j ≤ I) : Below n I q (q1.restoreIdle j)

/-- **C19.** Whatever happens below a save point keeps the partition, never queues or runs a propagator disabled at the save point, and restoring the
boundary makes exactly the propagators disabled at the save point disabled again. -/
theorem backtrack_reenables {q q' : Queue} (h : Inv n q) (hb : Below n q.idle q q') :
    Inv n q' ∧ q'.idle ≤ q.idle ∧ (∀ p, IsDisabled q p → IsDisabled q' p) ∧
      Inv n (q'.restoreIdle q.idle) ∧ ∀ p, IsDisabled (q'.restoreIdle q.idle) p ↔ IsDisabled q p := by
  have key : Inv n q' ∧ q'.idle ≤ q.idle ∧ ∀ j : Nat, q.idle ≤ j → q'.queue[j]? = q.queue[j]? := by
    generalize hI : q.idle = I at hb
    induction hb with
    | refl => exact ⟨h, by omega, fun _ _ => rfl⟩
    | enqueue p hp _ e ih =>
      obtain ⟨h1, h2, h3⟩ := ih
      obtain ⟨q2, e', i2, _, d2, k2, _⟩ := enqueueIfIdle_spec h1 hp
      rw [e] at e'; cases e'
      exact ⟨i2, by omega, fun j hj => by rw [k2 j (.inr (by omega)), h3 j hj]⟩
    | seed _ ih =>
      obtain ⟨h1, h2, h3⟩ := ih
      exact ⟨⟨⟨h1.qlen, h1.llen, h1.fwd, h1.bwd⟩, Nat.le_refl _, Nat.zero_le _, h1.idn⟩, h2, h3⟩
    | pop p _ hne e ih =>
      obtain ⟨h1, h2, h3⟩ := ih
      obtain ⟨p', q2, e', _, i2, _, k2, _, _, _, d2, _⟩ := pop_spec h1 hne
      rw [e] at e'; cases e'
      exact ⟨i2, by omega, fun j hj => by rw [k2, h3 j hj]⟩
    | endRound ps _ hnd hps e ih =>
      obtain ⟨h1, h2, h3⟩ := ih
      obtain ⟨q2, e', i2, _, d2, k2, _⟩ := endRound_spec h1 hnd hps
      rw [e] at e'; cases e'
      exact ⟨i2, by omega, fun j hj => by rw [k2 j (by omega), h3 j hj]⟩
    | back j _ h1' h2' ih =>
      obtain ⟨h1, h2, h3⟩ := ih
      have := h.idn; have := h1.ei
      exact ⟨⟨⟨h1.qlen, h1.llen, h1.fwd, h1.bwd⟩, h1.be, by show _ ≤ j; exact Nat.le_trans h1.ei h1', by show j ≤ n; omega⟩, h2', h3⟩
  obtain ⟨h1, h2, h3⟩ := key
  have := h.idn; have := h1.ei
  refine ⟨h1, h2, ?_, ⟨⟨h1.qlen, h1.llen, h1.fwd, h1.bwd⟩, h1.be, by show q'.end_ ≤ q.idle; omega, by show q.idle ≤ n; omega⟩, ?_⟩
  · rintro p ⟨i, a, b⟩; exact ⟨i, by omega, by rw [h3 i a]; exact b⟩
  · intro p
    constructor
    · rintro ⟨i, a, b⟩
      change q.idle ≤ i at a; change q'.queue[i]? = some p at b
      exact ⟨i, a, by rw [h3 i a] at b; exact b⟩
    · rintro ⟨i, a, b⟩
      exact ⟨i, a, by show q'.queue[i]? = some p; rw [h3 i a]; exact b⟩

/-- Non-vacuity: three propagators, the middle one permanently disabled; run 0, disable it, wake 2, then backtrack. -/
example : ∃ q0 q1 q2 q3 q4, initial.rebuild [false, true, false] = .ok q0 ∧ q0.pop = .ok (0, q1) ∧ q1.pop = .ok (2, q2) ∧
    q2.disableAll [0] = .ok q3 ∧ q3.restart.enqueueIfIdle 2 = .ok q4 ∧ Ready q4 = [2] ∧ q4.restart.enqueueIfIdle 0 = .ok q4.restart ∧
    IsDisabled q4 0 ∧ IsDisabled (q4.restoreIdle 2) 1 ∧ IsIdle (q4.restart.restoreIdle 2) 0 := by
  refine ⟨⟨[0, 2, 1], [0, 2, 1], 0, 2, 2⟩, ⟨[0, 2, 1], [0, 2, 1], 1, 2, 2⟩, ⟨[0, 2, 1], [0, 2, 1], 2, 2, 2⟩, ⟨[2, 0, 1], [1, 2, 0], 2, 2, 1⟩,
    ⟨[2, 0, 1], [1, 2, 0], 0, 1, 1⟩, ?_⟩
  refine ⟨by decide, by decide, by decide, by decide, by decide, by decide, by decide, ⟨1, by decide⟩, ⟨2, by decide⟩, ⟨1, by decide⟩⟩

end Gcs.Queue
