import Verif.Spec.Search

/-! Counting assignments, to bound the size of search trees. -/

namespace Gcs
open IntervalSet

/-- All ways of choosing one value from each domain. -/
def Doms.tuples : Doms → List (List Int)
  | [] => [[]]
  | s :: r => (vals s).flatMap fun x => (Doms.tuples r).map (x :: ·)

/-- The assignment that gives variable `i` the `i`th value. -/
def asgOf (v : List Int) : Asg := fun i => v[i]?.getD 0

theorem within_cons {s : IntervalSet} {d : Doms} {a : Asg} : Within (s :: d) a ↔ Mem (a 0) s ∧ Within d (fun i => a (i + 1)) := by
  constructor
  · intro h; exact ⟨h 0 s rfl, fun i x hx => h (i + 1) x hx⟩
  · rintro ⟨h1, h2⟩ i x hx
    cases i with
    | zero => cases hx; exact h1
    | succ i => exact h2 i x hx

theorem mem_tuples : ∀ (d : Doms) (v : List Int), v ∈ d.tuples ↔ v.length = d.length ∧ Within d (asgOf v)
  | [], v => by
    simp only [Doms.tuples, List.mem_singleton, List.length_nil, List.length_eq_zero_iff]
    exact ⟨fun h => ⟨h, fun i s hs => by simp at hs⟩, fun h => h.1⟩
  | s :: r, v => by
    simp only [Doms.tuples, List.mem_flatMap, List.mem_map]
    constructor
    · rintro ⟨x, hx, w, hw, rfl⟩
      have := (mem_tuples r w).1 hw
      exact ⟨by simp [this.1], within_cons.2 ⟨(mem_vals x s).1 hx, this.2⟩⟩
    · rintro ⟨h1, h2⟩
      cases v with
      | nil => simp at h1
      | cons x w =>
        have h3 := within_cons.1 h2
        exact ⟨x, (mem_vals x s).2 h3.1, w, (mem_tuples r w).2 ⟨by simpa using h1, h3.2⟩, rfl⟩

theorem tuples_nodup : ∀ d : Doms, DomsOK d → d.tuples.Nodup
  | [], _ => by simp [Doms.tuples]
  | s :: r, h => by
    have ih := tuples_nodup r (fun x hx => h x (by simp [hx]))
    have hv := vals_nodup s (h s (by simp)).wf
    rw [Doms.tuples]
    unfold List.Nodup
    rw [List.pairwise_flatMap]
    refine ⟨fun x _ => ?_, ?_⟩
    · rw [List.pairwise_map]; exact ih.imp (fun hne he => hne (List.cons.inj he).2)
    · refine hv.imp (fun {x y} hxy u hu w hw he => ?_)
      obtain ⟨u', _, rfl⟩ := List.mem_map.1 hu
      obtain ⟨w', _, rfl⟩ := List.mem_map.1 hw
      exact hxy (List.cons.inj he).1

/-- Number of assignments within the domains. -/
def Doms.size (d : Doms) : Nat := d.tuples.length

/-- Number of those for which the test holds. -/
def Doms.count (d : Doms) (p : Asg → Bool) : Nat := d.tuples.countP (fun v => p (asgOf v))

theorem count_le_size (d : Doms) (p : Asg → Bool) : d.count p ≤ d.size := List.countP_le_length

theorem size_pos {d : Doms} (h : DomsOK d) : 1 ≤ d.size := by
  obtain ⟨a, ha⟩ := exists_within h
  have : (List.range d.length).map a ∈ d.tuples := by
    rw [mem_tuples]
    refine ⟨by simp, fun i s hs => ?_⟩
    have hi := (List.getElem?_eq_some_iff.1 hs).1
    have : asgOf ((List.range d.length).map a) i = a i := by simp [asgOf, hi]
    rw [this]; exact ha i s hs
  exact List.length_pos_of_mem this

/-- Domains inside a part of `d` have no more assignments than that part. -/
theorem size_le_count {d d' : Doms} (h : DomsOK d') (hl : d'.length = d.length) {p : Asg → Bool} (hs : ∀ a, Within d' a → Within d a ∧ p a = true) : d'.size ≤ d.count p := by
  unfold Doms.size Doms.count
  rw [List.countP_eq_length_filter]
  refine length_le_of_subset _ _ (tuples_nodup d' h) fun v hv => ?_
  rw [mem_tuples] at hv
  have := hs _ hv.2
  rw [List.mem_filter, mem_tuples]
  exact ⟨⟨hv.1.trans hl, this.1⟩, this.2⟩

theorem size_le {d d' : Doms} (h : DomsOK d') (hl : d'.length = d.length) (hs : ∀ a, Within d' a → Within d a) : d'.size ≤ d.size :=
  Nat.le_trans (size_le_count h hl (p := fun _ => true) fun a ha => ⟨hs a ha, rfl⟩) (count_le_size _ _)

theorem countP_or {α : Type} (l : List α) (p q : α → Bool) (h : ∀ x ∈ l, ¬ (p x = true ∧ q x = true)) : l.countP (fun x => p x || q x) = l.countP p + l.countP q := by
  induction l with
  | nil => rfl
  | cons x r ih =>
    have ih := ih (fun y hy => h y (by simp [hy]))
    have hx := h x (by simp)
    simp only [List.countP_cons, ih]
    cases hp : p x <;> cases hq : q x <;> simp [hp, hq] at hx ⊢ <;> omega

theorem count_or (d : Doms) (p q : Asg → Bool) (h : ∀ a, Within d a → ¬ (p a = true ∧ q a = true)) : d.count (fun a => p a || q a) = d.count p + d.count q :=
  countP_or _ _ _ fun v hv => h _ ((mem_tuples d v).1 hv).2

end Gcs
