import Verif.Model.Queue

/-! Helper lemmas about the propagation queue. -/

namespace Gcs

theorem vecAt_ok {α : Type} {l : List α} {i : Nat} {a : α} : vecAt l i = .ok a ↔ l[i]? = some a := by
  unfold vecAt
  cases h : l[i]? with
  | none => simp
  | some b => simp

namespace Queue

/-- The queue holds each of the `n` propagators once and `lookup` is the inverse of `queue`. -/
structure Perm (n : Nat) (q : Queue) : Prop where
  qlen : q.queue.length = n
  llen : q.lookup.length = n
  fwd : ∀ (i p : Nat), q.queue[i]? = some p → q.lookup[p]? = some i
  bwd : ∀ (p i : Nat), q.lookup[p]? = some i → q.queue[i]? = some p

/-- Also the three boundaries are in order. -/
structure Inv (n : Nat) (q : Queue) : Prop extends Perm n q where
  be : q.begin_ ≤ q.end_
  ei : q.end_ ≤ q.idle
  idn : q.idle ≤ n

namespace Perm
variable {n : Nat} {q : Queue}

theorem exists_pos (h : Perm n q) {p : Nat} (hp : p < n) : ∃ i, i < n ∧ q.lookup[p]? = some i ∧ q.queue[i]? = some p := by
  have : p < q.lookup.length := by rw [h.llen]; exact hp
  refine ⟨q.lookup[p], ?_, List.getElem?_eq_getElem this, h.bwd _ _ (List.getElem?_eq_getElem this)⟩
  have := h.bwd p _ (List.getElem?_eq_getElem this)
  have := (List.getElem?_eq_some_iff.1 this).1
  rw [h.qlen] at this; exact this

theorem exists_at (h : Perm n q) {i : Nat} (hi : i < n) : ∃ p, p < n ∧ q.queue[i]? = some p ∧ q.lookup[p]? = some i := by
  have : i < q.queue.length := by rw [h.qlen]; exact hi
  refine ⟨q.queue[i], ?_, List.getElem?_eq_getElem this, h.fwd _ _ (List.getElem?_eq_getElem this)⟩
  have := h.fwd i _ (List.getElem?_eq_getElem this)
  have := (List.getElem?_eq_some_iff.1 this).1
  rw [h.llen] at this; exact this

theorem lt_of_lookup (h : Perm n q) {p i : Nat} (hp : q.lookup[p]? = some i) : p < n ∧ i < n := by
  have h1 := (List.getElem?_eq_some_iff.1 hp).1
  have h2 := (List.getElem?_eq_some_iff.1 (h.bwd _ _ hp)).1
  rw [h.llen] at h1; rw [h.qlen] at h2; exact ⟨h1, h2⟩

/-- Effect of the swap on positions. -/
theorem swapInto (h : Perm n q) {p pos lp other : Nat} (hp : q.lookup[p]? = some lp) (hpos : q.queue[pos]? = some other) :
    ∃ q', q.swapInto p pos = .ok q' ∧ q'.begin_ = q.begin_ ∧ q'.end_ = q.end_ ∧ q'.idle = q.idle ∧
      q'.queue.length = n ∧ q'.lookup.length = n ∧
      (∀ i : Nat, q'.queue[i]? = if i = pos then some p else if i = lp then some other else q.queue[i]?) ∧
      (∀ x : Nat, q'.lookup[x]? = if x = p then some pos else if x = other then some lp else q.lookup[x]?) := by
  have hq := h.bwd _ _ hp
  have ho := h.fwd _ _ hpos
  have hlp := h.lt_of_lookup hp
  have hlo := h.lt_of_lookup ho
  refine ⟨{ q with queue := (q.queue.set lp other).set pos p, lookup := (q.lookup.set p pos).set other lp }, ?_, rfl, rfl, rfl, ?_, ?_, ?_, ?_⟩
  · unfold Queue.swapInto
    rw [vecAt_ok.2 hpos, vecAt_ok.2 hp]
    show (vecAt q.queue lp).bind _ = _
    rw [vecAt_ok.2 hq]
    show (vecAt q.lookup other).bind _ = _
    rw [vecAt_ok.2 ho]
    rfl
  · simp [h.qlen]
  · simp [h.llen]
  · intro i
    simp only [List.getElem?_set, List.length_set, h.qlen]
    by_cases h1 : i = pos
    · subst h1; simp [hlo.2]
    · by_cases h2 : i = lp
      · subst h2
        simp only [if_neg (Ne.symm h1), if_true, hlp.2, if_neg h1]
      · simp only [if_neg (Ne.symm h1), if_neg (Ne.symm h2), if_neg h1, if_neg h2]
  · intro x
    simp only [List.getElem?_set, List.length_set, h.llen]
    by_cases h1 : x = p
    · subst h1
      by_cases h2 : other = x
      · subst h2
        have : lp = pos := by rw [hp] at ho; exact Option.some.inj ho
        simp [hlp.1, this]
      · simp [h2, hlp.1]
    · by_cases h2 : x = other
      · subst h2; simp [h1, hlo.1]
      · simp [Ne.symm h1, Ne.symm h2, h1, h2]

/-- The swap keeps the queue a permutation. -/
theorem perm_swapInto (h : Perm n q) {p pos lp other : Nat} (hp : q.lookup[p]? = some lp) (hpos : q.queue[pos]? = some other)
    {q' : Queue}
    (hq : ∀ i : Nat, q'.queue[i]? = if i = pos then some p else if i = lp then some other else q.queue[i]?)
    (hl : ∀ x : Nat, q'.lookup[x]? = if x = p then some pos else if x = other then some lp else q.lookup[x]?) :
    (∀ (i x : Nat), q'.queue[i]? = some x → q'.lookup[x]? = some i) ∧ (∀ (x i : Nat), q'.lookup[x]? = some i → q'.queue[i]? = some x) := by
  have hq0 := h.bwd _ _ hp
  have ho := h.fwd _ _ hpos
  constructor
  · intro i x hx
    rw [hq] at hx
    rw [hl]
    split at hx
    · cases hx; simp_all
    · rename_i hi
      split at hx
      · cases hx
        subst i
        by_cases hop : other = p
        · subst hop
          rw [hp] at ho; exact absurd (Option.some.inj ho) hi
        · simp [hop]
      · rename_i hi2
        have := h.fwd _ _ hx
        by_cases h1 : x = p
        · subst h1; rw [hp] at this; exact absurd (Option.some.inj this).symm hi2
        · by_cases h2 : x = other
          · subst h2; rw [ho] at this; exact absurd (Option.some.inj this).symm hi
          · simp [h1, h2, this]
  · intro x i hx
    rw [hl] at hx
    rw [hq]
    split at hx
    · cases hx; simp_all
    · rename_i h1
      split at hx
      · cases hx
        subst x
        by_cases h3 : lp = pos
        · subst h3
          have := h.bwd _ _ hp
          rw [hpos] at this; exact absurd (Option.some.inj this) h1
        · simp [h3]
      · rename_i h2
        have hb := h.bwd _ _ hx
        by_cases h3 : i = pos
        · subst h3; rw [hpos] at hb; exact absurd (Option.some.inj hb).symm h2
        · by_cases h4 : i = lp
          · subst h4; rw [hq0] at hb; exact absurd (Option.some.inj hb).symm h1
          · simp [h3, h4, hb]

/-- The swap, with its effect. -/
theorem swap (h : Perm n q) {p pos lp other : Nat} (hp : q.lookup[p]? = some lp) (hpos : q.queue[pos]? = some other) :
    ∃ q', q.swapInto p pos = .ok q' ∧ q'.begin_ = q.begin_ ∧ q'.end_ = q.end_ ∧ q'.idle = q.idle ∧ Perm n q' ∧
      (∀ i : Nat, q'.queue[i]? = if i = pos then some p else if i = lp then some other else q.queue[i]?) := by
  obtain ⟨q', h1, h2, h3, h4, h5, h6, h7, h8⟩ := h.swapInto hp hpos
  obtain ⟨hf, hb⟩ := h.perm_swapInto hp hpos h7 h8
  exact ⟨q', h1, h2, h3, h4, ⟨h5, h6, hf, hb⟩, h7⟩

theorem inj (h : Perm n q) {i j p : Nat} (hi : q.queue[i]? = some p) (hj : q.queue[j]? = some p) : i = j := by
  have := h.fwd _ _ hi
  rw [h.fwd _ _ hj] at this
  exact (Option.some.inj this).symm

end Perm
end Queue
end Gcs
