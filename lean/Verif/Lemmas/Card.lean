import Verif.Lemmas.Loop

/-! Counting values, for termination. -/

namespace Gcs
open IntervalSet

theorem length_le_of_subset {α : Type} [DecidableEq α] : ∀ (a b : List α), a.Nodup → (∀ x ∈ a, x ∈ b) → a.length ≤ b.length
  | [], b, _, _ => Nat.zero_le _
  | x :: xs, b, hn, hs => by
    rw [List.nodup_cons] at hn
    have hx := hs x (by simp)
    have := length_le_of_subset xs (b.erase x) hn.2 (fun y hy => by
      have hne : y ≠ x := fun e => hn.1 (e ▸ hy)
      rw [List.mem_erase_of_ne hne]; exact hs y (by simp [hy]))
    rw [List.length_erase_of_mem hx] at this
    have := List.length_pos_of_mem hx
    simp only [List.length_cons]; omega

namespace IntervalSet

/-- The values, one by one. -/
def vals : IntervalSet → List Int
  | [] => []
  | (l, u) :: r => (List.range (u - l + 1).toNat).map (fun (i : Nat) => l + (i : Int)) ++ vals r

theorem mem_vals (x : Int) : ∀ s : IntervalSet, x ∈ vals s ↔ Mem x s
  | [] => by simp [vals, Mem]
  | (l, u) :: r => by
    rw [vals, List.mem_append, mem_vals x r, mem_cons, List.mem_map]
    refine or_congr_left ?_
    constructor
    · rintro ⟨i, hi, rfl⟩; rw [List.mem_range] at hi; omega
    · intro h; exact ⟨(x - l).toNat, by rw [List.mem_range]; omega, by omega⟩

theorem length_vals : ∀ s : IntervalSet, (vals s).length = card s
  | [] => rfl
  | (l, u) :: r => by
    have := length_vals r
    simp only [card] at this
    simp [vals, card, this]

theorem vals_nodup : ∀ s : IntervalSet, WF s → (vals s).Nodup
  | [], _ => List.nodup_nil
  | (l, u) :: r, h => by
    obtain ⟨hlu, hA, hr⟩ := wf_cons.1 h
    rw [vals, List.nodup_append]
    refine ⟨?_, vals_nodup r hr, ?_⟩
    · show List.Pairwise _ _
      rw [List.pairwise_map]
      exact List.Pairwise.imp (fun {a b} (hab : a ≠ b) => by omega) List.nodup_range
    · intro a ha b hb hab
      subst hab
      rw [mem_vals] at hb
      have := hA.mem hb
      obtain ⟨i, hi, rfl⟩ := List.mem_map.1 ha
      rw [List.mem_range] at hi
      omega

theorem card_lt {s s' : IntervalSet} (h' : WF s') (hsub : ∀ x, Mem x s' → Mem x s) {y : Int} (hy : Mem y s) (hy' : ¬ Mem y s') : card s' < card s := by
  have := length_le_of_subset (y :: vals s') (vals s) (List.nodup_cons.2 ⟨fun h => hy' ((mem_vals _ _).1 h), vals_nodup s' h'⟩) (by
    intro x hx
    rw [mem_vals]
    rcases List.mem_cons.1 hx with rfl | hx
    · exact hy
    · exact hsub x ((mem_vals _ _).1 hx))
  rw [List.length_cons, length_vals, length_vals] at this
  omega

end IntervalSet

/-- Total number of values in all domains. -/
def Doms.card (d : Doms) : Nat := (d.map IntervalSet.card).sum

theorem sum_set_lt {l : List Nat} {i x y : Nat} (h : l[i]? = some y) (hxy : x < y) : (l.set i x).sum + 1 ≤ l.sum := by
  induction l generalizing i with
  | nil => simp at h
  | cons a r ih =>
    cases i with
    | zero => simp at h; subst h; simp only [List.set_cons_zero, List.sum_cons]; omega
    | succ i => simp at h; have := ih h; simp only [List.set_cons_succ, List.sum_cons]; omega

theorem Step.card {v : Nat} {inf : Inference} {d d' : Doms} (h : Step v inf d d') : d'.card + 1 ≤ d.card := by
  obtain ⟨s, s', h1, h2, h3, h4⟩ := h.own
  have hch : Changed s s' := by
    have := h.effective
    cases inf
    · exact absurd rfl this.1
    all_goals first
      | exact absurd rfl this.2
      | exact h4.1
  have hwf : WF s' := (h.domsOK s' (List.mem_of_getElem? h2)).wf
  obtain ⟨y, hy, hy'⟩ : ∃ y, Mem y s ∧ ¬ Mem y s' := by
    apply Classical.byContradiction
    intro hn
    apply hch
    intro x
    refine ⟨h3 x, fun hx => ?_⟩
    apply Classical.byContradiction
    intro hx'
    exact hn ⟨x, hx, hx'⟩
  have hlt := card_lt hwf h3 hy hy'
  have hd : d' = d.set v s' := by
    apply List.ext_getElem?
    intro i
    rw [List.getElem?_set]
    by_cases hi : v = i
    · subst hi; rw [if_pos rfl, if_pos (List.getElem?_eq_some_iff.1 h1).1, h2]
    · rw [if_neg hi]; exact h.others i (fun e => hi e.symm)
  unfold Doms.card
  rw [hd, List.map_set]
  exact sum_set_lt (by rw [List.getElem?_map, h1]; rfl) hlt

theorem Evolve.card {d d' : Doms} {cs} (h : Evolve d cs d') : d'.card + cs.length ≤ d.card := by
  induction h with
  | refl => simp
  | snoc _ s ih => have := s.card; rw [List.length_append]; simp only [List.length_cons, List.length_nil]; omega

end Gcs
