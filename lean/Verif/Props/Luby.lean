import Verif.Model.Search

/-!
# C32: the Luby sequence and restart cut-offs

`lubySeq k` is the first `2^k - 1` terms of the sequence, built as the literature defines it: the block for `k + 1` is the block for `k` twice, followed by `2^k`.
-/

namespace Gcs

/-- Specification: 1; 1,1,2; 1,1,2,1,1,2,4; … -/
def lubySeq : Nat → List Nat
  | 0 => []
  | k + 1 => lubySeq k ++ lubySeq k ++ [2 ^ k]

theorem lubyFrom_skip {i k : Nat} (hk : 1 ≤ k) (h : 2 ^ k - 1 < i) : lubyFrom i k = lubyFrom i (k + 1) := by
  rw [lubyFrom, if_neg (by omega), if_neg (by omega), if_neg (by omega)]

theorem luby_from (i k : Nat) (h : 2 ^ k ≤ i) : luby i = lubyFrom i (k + 1) := by
  induction k with
  | zero => rfl
  | succ k ih =>
    have h2 : 2 ^ (k + 1) = 2 * 2 ^ k := by rw [Nat.pow_succ]; omega
    have h1 : 1 ≤ 2 ^ k := Nat.one_le_two_pow
    rw [ih (by omega)]
    exact lubyFrom_skip (by omega) (by omega)

/-- The last term of a block. -/
theorem luby_block (k : Nat) : luby (2 ^ (k + 1) - 1) = 2 ^ k := by
  have h1 : 1 ≤ 2 ^ k := Nat.one_le_two_pow
  have h2 : 2 ^ (k + 1) = 2 * 2 ^ k := by rw [Nat.pow_succ]; omega
  rw [luby_from _ k (by omega), lubyFrom, if_neg (by omega), if_pos rfl]; rfl

/-- Inside a block the sequence starts again. -/
theorem luby_again (k i : Nat) (h1 : 2 ^ k ≤ i) (h2 : i < 2 ^ (k + 1) - 1) : luby i = luby (i - (2 ^ k - 1)) := by
  have h3 : 1 ≤ 2 ^ k := Nat.one_le_two_pow
  have h4 : 2 ^ (k + 1) = 2 * 2 ^ k := by rw [Nat.pow_succ]; omega
  have h5 : 2 ^ k ≠ 1 := by
    intro h
    cases k with
    | zero => simp at h2; omega
    | succ k => have : 1 ≤ 2 ^ k := Nat.one_le_two_pow; have : 2 ^ (k + 1) = 2 * 2 ^ k := by rw [Nat.pow_succ]; omega
                omega
  rw [luby_from i k h1, lubyFrom, if_neg (by omega), if_neg (by omega), if_pos (by omega), if_neg (by omega)]
  show (if 2 ^ k - 1 = 0 then 0 else lubyFrom (i - (2 ^ k - 1)) 1) = _
  rw [if_neg (by omega)]; rfl

theorem luby_block_seq (k : Nat) : (List.range (2 ^ k - 1)).map (fun i => luby (i + 1)) = lubySeq k := by
  induction k with
  | zero => rfl
  | succ k ih =>
    have h1 : 1 ≤ 2 ^ k := Nat.one_le_two_pow
    have h2 : 2 ^ (k + 1) = 2 * 2 ^ k := by rw [Nat.pow_succ]; omega
    have h3 : 2 ^ (k + 1) - 1 = (2 ^ k - 1) + (2 ^ k - 1) + 1 := by omega
    rw [h3, List.range_succ, List.range_add, List.map_append, List.map_append, ih, lubySeq, List.map_map]
    congr 1
    · congr 1
      rw [← ih]
      apply List.map_congr_left
      intro i hi
      have hi := List.mem_range.1 hi
      show luby (2 ^ k - 1 + i + 1) = _
      rw [luby_again k _ (by omega) (by omega)]
      congr 1; omega
    · show [luby ((2 ^ k - 1) + (2 ^ k - 1) + 1)] = _
      rw [← h3, luby_block]

theorem lubySeq_length (k : Nat) : (lubySeq k).length = 2 ^ k - 1 := by rw [← luby_block_seq]; simp

/-- C32: term `i` (counting from 1) is the one in the sequence of the literature, whichever block one looks it up in. -/
theorem luby_is_luby (i k : Nat) (h1 : 1 ≤ i) (h2 : i < 2 ^ k) : (lubySeq k)[i - 1]? = some (luby i) := by
  rw [← luby_block_seq, List.getElem?_map, List.getElem?_range (by omega)]
  simp only [Option.map_some]
  congr 2; omega

/-- C32: never less than one, always a power of two. -/
theorem luby_power (i : Nat) (h : 1 ≤ i) : ∃ j, luby i = 2 ^ j := by
  have key : ∀ k x, x ∈ lubySeq k → ∃ j, x = 2 ^ j := by
    intro k
    induction k with
    | zero => intro x hx; cases hx
    | succ k ih =>
      intro x hx
      simp only [lubySeq, List.mem_append, List.mem_singleton] at hx
      rcases hx with (hx | hx) | hx
      · exact ih x hx
      · exact ih x hx
      · exact ⟨k, hx⟩
  exact key i _ (List.mem_of_getElem? (luby_is_luby i i h Nat.lt_two_pow_self))

/-- C32: no term is more than half the index. -/
theorem luby_le (i : Nat) (h : 1 ≤ i) : 2 * luby i ≤ i + 1 := by
  induction i using Nat.strongRecOn with
  | _ i ih =>
    -- find the block
    have hk : ∃ k, 2 ^ k ≤ i ∧ i ≤ 2 ^ (k + 1) - 1 := by
      clear ih
      induction i with
      | zero => omega
      | succ i ihi =>
        by_cases h0 : i = 0
        · exact ⟨0, by subst h0; decide, by subst h0; decide⟩
        · obtain ⟨k, h1, h2⟩ := ihi (by omega)
          by_cases h3 : i + 1 ≤ 2 ^ (k + 1) - 1
          · exact ⟨k, by omega, h3⟩
          · have : 2 ^ (k + 1 + 1) = 2 * 2 ^ (k + 1) := by rw [Nat.pow_succ]; omega
            exact ⟨k + 1, by omega, by omega⟩
    obtain ⟨k, h1, h2⟩ := hk
    have h3 : 1 ≤ 2 ^ k := Nat.one_le_two_pow
    have h4 : 2 ^ (k + 1) = 2 * 2 ^ k := by rw [Nat.pow_succ]; omega
    by_cases h5 : i = 2 ^ (k + 1) - 1
    · rw [h5, luby_block]; omega
    · rw [luby_again k i h1 (by omega)]
      by_cases h6 : 2 ^ k = 1
      · omega
      · have := ih (i - (2 ^ k - 1)) (by omega) (by omega)
        omega

/-- C32: as long as the product fits into 64 bits, the cut-off is the scale times the term, and at least the scale. The index of a real run is far below `2^63`; `luby_le` bounds the term by it. -/
theorem cutoff_is_luby (r : Restarts) (h : 1 ≤ r.index) (hf : luby r.index * r.scale < 2 ^ 64) : r.cutoff = luby r.index * r.scale ∧ r.scale ≤ r.cutoff := by
  have : r.cutoff = luby r.index * r.scale := Nat.mod_eq_of_lt hf
  refine ⟨this, ?_⟩
  obtain ⟨j, hj⟩ := luby_power r.index h
  rw [this, hj]
  exact Nat.le_mul_of_pos_left _ (Nat.two_pow_pos j)

/-- C32: for every number of conflicts below `2^63` some restart in the schedule has a greater cut-off. -/
theorem cutoff_unbounded (scale W : Nat) (h1 : 0 < scale) (h2 : scale < 2 ^ 64) (h3 : W < 2 ^ 63) :
    ∃ j, W < 2 ^ j * scale ∧ 2 ^ j * scale < 2 ^ 64 ∧ (⟨scale, 2 ^ (j + 1) - 1⟩ : Restarts).cutoff = 2 ^ j * scale := by
  have key : ∀ x, x < 2 ^ 63 → ∃ j, x < 2 ^ j * scale ∧ 2 ^ j * scale < 2 ^ 64 := by
    intro x
    induction x with
    | zero => exact fun _ => ⟨0, by simpa using h1, by simpa using h2⟩
    | succ x ih =>
      intro hx
      obtain ⟨j, h4, h5⟩ := ih (by omega)
      by_cases h6 : x + 1 < 2 ^ j * scale
      · exact ⟨j, h6, h5⟩
      · refine ⟨j + 1, ?_, ?_⟩ <;> rw [Nat.pow_succ, Nat.mul_right_comm] <;> omega
  obtain ⟨j, h4, h5⟩ := key W h3
  refine ⟨j, h4, h5, ?_⟩
  have := (cutoff_is_luby ⟨scale, 2 ^ (j + 1) - 1⟩ (by have : 1 ≤ 2 ^ j := Nat.one_le_two_pow; show 1 ≤ 2 ^ (j + 1) - 1; rw [Nat.pow_succ]; omega)
    (by show luby (2 ^ (j + 1) - 1) * scale < _; rw [luby_block]; exact h5)).1
  rw [this]; show luby (2 ^ (j + 1) - 1) * scale = _; rw [luby_block]

/-- `advance` goes to the next term. -/
theorem advance_index (r : Restarts) (i : Nat) : (i.repeat Restarts.advance r).index = r.index + i ∧ (i.repeat Restarts.advance r).scale = r.scale := by
  induction i with
  | zero => exact ⟨rfl, rfl⟩
  | succ i ih => exact ⟨by show (i.repeat Restarts.advance r).index + 1 = _; rw [ih.1]; omega, ih.2⟩

/-- The disagreement: a scale of zero is accepted, and then every cut-off is zero, so that every pass is abandoned at its root. -/
theorem cutoff_zero_scale (i : Nat) : (⟨0, i⟩ : Restarts).cutoff = 0 := by simp [Restarts.cutoff]

-- non-vacuity
example : lubySeq 4 = [1, 1, 2, 1, 1, 2, 4, 1, 1, 2, 1, 1, 2, 4, 8] := by decide
example : (lubySeq 3)[5]? = some (luby 6) := luby_is_luby 6 3 (by decide) (by decide)
example : ∃ j, 1000 < 2 ^ j * 100 ∧ 2 ^ j * 100 < 2 ^ 64 ∧ (⟨100, 2 ^ (j + 1) - 1⟩ : Restarts).cutoff = 2 ^ j * 100 := cutoff_unbounded 100 1000 (by decide) (by decide) (by decide)
example : (⟨100, 7⟩ : Restarts).cutoff = luby 7 * 100 ∧ 100 ≤ (⟨100, 7⟩ : Restarts).cutoff := cutoff_is_luby ⟨100, 7⟩ (by decide) (by
  have h : luby 7 = 4 := luby_block 2
  simp only [h]; decide)

end Gcs
