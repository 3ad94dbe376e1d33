import Verif.Model.Integer

namespace Gcs

theorem rawOut_ok {max x : Int} (h : InW max x) : rawOut max x = .ok x := by simp [rawOut, h]

theorem tdiv_of_nonneg_gt {m a b : Int} (hm : 0 ≤ m) (hb : 0 < b) : a > Int.tdiv m b ↔ a * b > m := by
  rw [Int.tdiv_eq_ediv_of_nonneg hm]
  have := Int.ediv_lt_iff_lt_mul (a := m) (b := a) hb
  omega

/-- `b < (-m) / a` for `a > 0` under truncating division. -/
theorem lt_neg_tdiv {m a b : Int} (hm : 0 ≤ m) (ha : 0 < a) : b < Int.tdiv (-m) a ↔ b * a < -m := by
  rw [Int.neg_tdiv, Int.tdiv_eq_ediv_of_nonneg hm]
  have := Int.ediv_lt_iff_lt_mul (a := m) (b := -b) ha
  rw [Int.neg_mul] at this
  omega

theorem lt_tdiv_neg {m a b : Int} (hm : 0 ≤ m) (ha : a < 0) : b < Int.tdiv m a ↔ b * a > m := by
  have h1 : Int.tdiv m a = -(Int.tdiv m (-a)) := by rw [Int.tdiv_neg, Int.neg_neg]
  rw [h1, Int.tdiv_eq_ediv_of_nonneg hm]
  have := Int.ediv_lt_iff_lt_mul (a := m) (b := -b) (c := -a) (by omega)
  have h2 : -b * -a = b * a := by rw [Int.neg_mul_neg]
  rw [h2] at this
  omega

theorem natAbs_tdiv_le (a b : Int) : (Int.tdiv a b).natAbs ≤ a.natAbs := by
  rw [Int.natAbs_tdiv]; exact Nat.div_le_self _ _

theorem mul_nonpos_bounds {a b : Int} (ha : 0 ≤ a) (hb : b ≤ 0) : a * b ≤ 0 := by
  have := Int.mul_nonneg ha (show 0 ≤ -b by omega)
  rw [Int.mul_neg] at this; omega

theorem powLoop_zero (r b : Int) : powLoop r b 0 = .ok (some r) := by unfold powLoop; simp

end Gcs
