import Verif.Model.IntervalSet
import Verif.Props.Integer

namespace Gcs
namespace IntervalSet

/-- Specification: `x` is one of the values the set holds. -/
def Mem (x : Int) (s : IntervalSet) : Prop := ∃ p ∈ s, p.1 ≤ x ∧ x ≤ p.2

/-- Specification: the class invariant stated in the documentation (gcs/interval_set.hh:21-31): intervals are non-empty, sorted, and no two touch or
overlap. -/
def WF (s : IntervalSet) : Prop := (∀ p ∈ s, p.1 ≤ p.2) ∧ List.Pairwise (fun p q : Int × Int => p.2 + 1 < q.1) s

/-- All stored endpoints fit in 64 bits. -/
def InRange (s : IntervalSet) : Prop := ∀ p ∈ s, InI64 p.1 ∧ InI64 p.2

instance (s : IntervalSet) : Decidable (WF s) := by unfold WF; infer_instance
instance (s : IntervalSet) : Decidable (InRange s) := by unfold InRange; infer_instance
instance (x : Int) (s : IntervalSet) : Decidable (Mem x s) := by unfold Mem; infer_instance

@[simp] theorem mem_nil (x : Int) : ¬ Mem x [] := by simp [Mem]
@[simp] theorem mem_cons (x l u : Int) (r : IntervalSet) : Mem x ((l, u) :: r) ↔ (l ≤ x ∧ x ≤ u) ∨ Mem x r := by
  simp [Mem]
@[simp] theorem mem_append (x : Int) (s t : IntervalSet) : Mem x (s ++ t) ↔ Mem x s ∨ Mem x t := by
  simp [Mem, or_and_right, exists_or]

@[simp] theorem wf_nil : WF [] := by simp [WF]

/-- Every interval of `r` starts above `u + 1`. -/
def Above (u : Int) (r : IntervalSet) : Prop := ∀ q ∈ r, u + 1 < q.1

theorem wf_cons {l u : Int} {r : IntervalSet} : WF ((l, u) :: r) ↔ l ≤ u ∧ Above u r ∧ WF r := by
  simp only [WF, List.mem_cons, forall_eq_or_imp, List.pairwise_cons, Above]
  exact ⟨fun ⟨⟨a, b⟩, c, d⟩ => ⟨a, c, b, d⟩, fun ⟨a, c, b, d⟩ => ⟨⟨a, b⟩, c, d⟩⟩

@[simp] theorem above_nil (u : Int) : Above u [] := by simp [Above]
@[simp] theorem above_cons (v l u : Int) (r : IntervalSet) : Above v ((l, u) :: r) ↔ v + 1 < l ∧ Above v r := by
  simp [Above]
theorem above_append (v : Int) (s t : IntervalSet) : Above v (s ++ t) ↔ Above v s ∧ Above v t := by
  simp only [Above, List.mem_append]
  exact ⟨fun h => ⟨fun q hq => h q (.inl hq), fun q hq => h q (.inr hq)⟩, fun h q hq => hq.elim (h.1 q) (h.2 q)⟩
theorem Above.mono {u v : Int} {s : IntervalSet} (h : Above v s) (huv : u ≤ v) : Above u s :=
  fun q hq => by have := h q hq; omega

theorem Above.mem {u x : Int} {s : IntervalSet} (h : Above u s) (hx : Mem x s) : u + 1 < x := by
  obtain ⟨p, hp, h1, _⟩ := hx
  have := h p hp; omega

@[simp] theorem inRange_nil : InRange [] := by simp [InRange]
@[simp] theorem inRange_cons (l u : Int) (r : IntervalSet) : InRange ((l, u) :: r) ↔ (InI64 l ∧ InI64 u) ∧ InRange r := by
  simp [InRange]

/-- In a canonical list the intervals above a bound are those whose members are above it. -/
theorem above_iff_mem {u : Int} {s : IntervalSet} (h : WF s) : Above u s ↔ ∀ x, Mem x s → u + 1 < x := by
  refine ⟨fun ha x hx => ha.mem hx, fun hm q hq => ?_⟩
  have := h.1 q hq
  exact hm q.1 ⟨q, hq, by omega, this⟩

theorem not_mem_of_above {u x : Int} {s : IntervalSet} (h : Above u s) (hx : x ≤ u + 1) : ¬ Mem x s :=
  fun hm => by have := h.mem hm; omega

/-- A canonical set is empty as a list iff it has no members. -/
theorem nil_iff_no_mem {s : IntervalSet} (h : WF s) : s = [] ↔ ∀ x, ¬ Mem x s := by
  cases s with
  | nil => simp
  | cons p r =>
    obtain ⟨l, u⟩ := p
    have := (wf_cons.1 h).1
    simp only [reduceCtorEq, mem_cons, not_or, false_iff, Classical.not_forall]
    exact ⟨l, by omega⟩

/-- Canonical form is unique: two canonical lists with the same members are equal. -/
theorem ext {s t : IntervalSet} (hs : WF s) (ht : WF t) (h : ∀ x, Mem x s ↔ Mem x t) : s = t := by
  induction s generalizing t with
  | nil => exact ((nil_iff_no_mem ht).2 (fun x hx => mem_nil x ((h x).2 hx))).symm
  | cons p r ih =>
    obtain ⟨l, u⟩ := p
    obtain ⟨hlu, hab, hr⟩ := wf_cons.1 hs
    cases t with
    | nil => exact absurd ((h l).1 (by simp; omega)) (mem_nil l)
    | cons q r' =>
      obtain ⟨l', u'⟩ := q
      obtain ⟨hlu', hab', hr'⟩ := wf_cons.1 ht
      have hl : l = l' := by
        have h1 := (h l).1 (by simp; omega)
        have h2 := (h l').2 (by simp; omega)
        simp only [mem_cons] at h1 h2
        have h3 : l' ≤ l := by rcases h1 with h1 | h1; omega; have := hab'.mem h1; omega
        have h4 : l ≤ l' := by rcases h2 with h1 | h1; omega; have := hab.mem h1; omega
        omega
      subst hl
      have hu : u = u' := by
        rcases Int.lt_trichotomy u u' with hlt | heq | hgt
        · have h1 := (h (u + 1)).2 (by simp; omega)
          simp only [mem_cons] at h1
          rcases h1 with h1 | h1
          · omega
          · have := hab.mem h1; omega
        · exact heq
        · have h1 := (h (u' + 1)).1 (by simp; omega)
          simp only [mem_cons] at h1
          rcases h1 with h1 | h1
          · omega
          · have := hab'.mem h1; omega
      subst hu
      congr 1
      refine ih hr hr' (fun x => ?_)
      have hx := h x
      simp only [mem_cons] at hx
      by_cases hc : x ≤ u
      · exact ⟨fun hm => absurd hm (not_mem_of_above hab (by omega)), fun hm => absurd hm (not_mem_of_above hab' (by omega))⟩
      · have : ¬ (l ≤ x ∧ x ≤ u) := by omega
        simpa [this] using hx

/-! ### getLast / upper -/

theorem wf_append {s t : IntervalSet} : WF (s ++ t) ↔ WF s ∧ WF t ∧ ∀ p ∈ s, ∀ q ∈ t, p.2 + 1 < q.1 := by
  simp only [WF, List.mem_append, List.pairwise_append]
  constructor
  · rintro ⟨h1, h2, h3, h4⟩
    exact ⟨⟨fun p hp => h1 p (.inl hp), h2⟩, ⟨fun p hp => h1 p (.inr hp), h3⟩, h4⟩
  · rintro ⟨⟨h1, h2⟩, ⟨h3, h4⟩, h5⟩
    exact ⟨fun p hp => hp.elim (h1 p) (h3 p), h2, h4, h5⟩

theorem exists_snoc {s : IntervalSet} (h : s ≠ []) : ∃ (t : IntervalSet) (l u : Int), s = t ++ [(l, u)] :=
  ⟨s.dropLast, (s.getLast h).1, (s.getLast h).2, (List.dropLast_concat_getLast h).symm⟩

/-- All members are at most the last endpoint. -/
theorem le_last {t : IntervalSet} {l u x : Int} (h : WF (t ++ [(l, u)])) (hx : Mem x (t ++ [(l, u)])) : x ≤ u := by
  rw [wf_append] at h
  obtain ⟨_, h2, h3⟩ := h
  obtain ⟨hlu, -⟩ := wf_cons.1 h2
  rw [mem_append] at hx
  rcases hx with ⟨p, hp, h4, h5⟩ | hx
  · have := h3 p hp (l, u) (by simp); simp only at this; omega
  · simp at hx; omega

theorem upper_snoc (t : IntervalSet) (l u : Int) : upper (t ++ [(l, u)]) = .ok u := by simp [upper]

end IntervalSet
end Gcs
