import Verif.Lemmas.Integer

/-!
# C01, C02, C03: checked integers

The specification is exact arithmetic on `Int`.
-/

namespace Gcs

/-! ## C02: the portable overflow tests -/

theorem addOverflows_exact (max a b : Int) (hm : 0 < max) (ha : InW max a) (hb : InW max b) :
    addOverflows max a b = .ok (if InW max (a + b) then some (a + b) else none) := by
  unfold InW at *
  have h1 : b ≥ 0 → rawSub max max b = .ok (max - b) := fun h => rawOut_ok (by unfold InW; omega)
  have h2 : ¬ b ≥ 0 → rawSub max (-max - 1) b = .ok (-max - 1 - b) := fun h => rawOut_ok (by unfold InW; omega)
  have h3 : InW max (a + b) → rawAdd max a b = .ok (a + b) := fun h => rawOut_ok h
  unfold InW at h3
  unfold addOverflows
  by_cases hb0 : b ≥ 0
  · simp only [hb0, h1, if_true, bind, Except.bind, pure, Except.pure]
    by_cases hc : a > max - b
    · rw [if_pos hc, if_neg (by omega)]
    · rw [if_neg hc, if_pos (by omega), h3 (by omega)]
  · simp only [hb0, h2 hb0, if_false, bind, Except.bind, pure, Except.pure]
    by_cases hc : a < -max - 1 - b
    · rw [if_pos hc, if_neg (by omega)]
    · rw [if_neg hc, if_pos (by omega), h3 (by omega)]

theorem subOverflows_exact (max a b : Int) (hm : 0 < max) (ha : InW max a) (hb : InW max b) :
    subOverflows max a b = .ok (if InW max (a - b) then some (a - b) else none) := by
  unfold InW at *
  have h1 : b ≥ 0 → rawAdd max (-max - 1) b = .ok (-max - 1 + b) := fun h => rawOut_ok (by unfold InW; omega)
  have h2 : ¬ b ≥ 0 → rawAdd max max b = .ok (max + b) := fun h => rawOut_ok (by unfold InW; omega)
  have h3 : InW max (a - b) → rawSub max a b = .ok (a - b) := fun h => rawOut_ok h
  unfold InW at h3
  unfold subOverflows
  by_cases hb0 : b ≥ 0
  · simp only [hb0, h1, if_true, bind, Except.bind, pure, Except.pure]
    by_cases hc : a < -max - 1 + b
    · rw [if_pos hc, if_neg (by omega)]
    · rw [if_neg hc, if_pos (by omega), h3 (by omega)]
  · simp only [hb0, h2 hb0, if_false, bind, Except.bind, pure, Except.pure]
    by_cases hc : a > max + b
    · rw [if_pos hc, if_neg (by omega)]
    · rw [if_neg hc, if_pos (by omega), h3 (by omega)]

theorem mulOverflows_exact (max a b : Int) (hm : 0 < max) (ha : InW max a) (hb : InW max b) :
    mulOverflows max a b = .ok (if InW max (a * b) then some (a * b) else none) := by
  have h3 : InW max (a * b) → rawMul max a b = .ok (a * b) := fun h => rawOut_ok h
  have hmin : (-max - 1 : Int) = -(max + 1) := by omega
  unfold InW at *
  unfold mulOverflows
  by_cases ha0 : a > 0
  · by_cases hb0 : b > 0
    · have hd : rawDiv max max b = .ok (Int.tdiv max b) := by
        unfold rawDiv; rw [if_neg (by omega)]
        have := natAbs_tdiv_le max b
        exact rawOut_ok (by unfold InW; omega)
      have hp := Int.mul_nonneg (show 0 ≤ a by omega) (show 0 ≤ b by omega)
      have hk := tdiv_of_nonneg_gt (m := max) (a := a) (b := b) (by omega) hb0
      simp only [ha0, hb0, hd, if_true, bind, Except.bind, pure, Except.pure]
      by_cases hc : a > Int.tdiv max b
      · rw [if_pos hc, if_neg (by omega)]
      · rw [if_neg hc, if_pos (by omega), h3 (by omega)]
    · have hd : rawDiv max (-max - 1) a = .ok (Int.tdiv (-max - 1) a) := by
        unfold rawDiv; rw [if_neg (by omega)]
        have h1 := natAbs_tdiv_le (-max - 1) a
        have h2 : Int.tdiv (-max - 1) a ≤ 0 := by
          rw [hmin, Int.neg_tdiv]
          have := Int.tdiv_nonneg (a := max + 1) (b := a) (by omega) (by omega)
          omega
        exact rawOut_ok (by unfold InW; omega)
      have hp := mul_nonpos_bounds (show 0 ≤ a by omega) (show b ≤ 0 by omega)
      have hk := lt_neg_tdiv (m := max + 1) (a := a) (b := b) (by omega) ha0
      rw [← hmin, Int.mul_comm b a] at hk
      simp only [ha0, hb0, hd, if_true, if_false, bind, Except.bind, pure, Except.pure]
      by_cases hc : b < Int.tdiv (-max - 1) a
      · rw [if_pos hc, if_neg (by omega)]
      · rw [if_neg hc, if_pos (by omega), h3 (by omega)]
  · by_cases hb0 : b > 0
    · have hd : rawDiv max (-max - 1) b = .ok (Int.tdiv (-max - 1) b) := by
        unfold rawDiv; rw [if_neg (by omega)]
        have h1 := natAbs_tdiv_le (-max - 1) b
        have h2 : Int.tdiv (-max - 1) b ≤ 0 := by
          rw [hmin, Int.neg_tdiv]
          have := Int.tdiv_nonneg (a := max + 1) (b := b) (by omega) (by omega)
          omega
        exact rawOut_ok (by unfold InW; omega)
      have hp := mul_nonpos_bounds (show 0 ≤ b by omega) (show a ≤ 0 by omega)
      rw [Int.mul_comm b a] at hp
      have hk := lt_neg_tdiv (m := max + 1) (a := b) (b := a) (by omega) hb0
      rw [← hmin] at hk
      simp only [ha0, hb0, hd, if_true, if_false, bind, Except.bind, pure, Except.pure]
      by_cases hc : a < Int.tdiv (-max - 1) b
      · rw [if_pos hc, if_neg (by omega)]
      · rw [if_neg hc, if_pos (by omega), h3 (by omega)]
    · by_cases hz : a = 0
      · subst hz
        simp only [hb0, if_false, bind, Except.bind, pure, Except.pure, Int.zero_mul, ne_eq, not_true,
          show ¬ (0 : Int) > 0 by omega] at h3 ⊢
        rw [h3 (by omega), if_pos (by omega)]
      · have hd : rawDiv max max a = .ok (Int.tdiv max a) := by
          unfold rawDiv; rw [if_neg hz]
          have h1 := natAbs_tdiv_le max a
          exact rawOut_ok (by unfold InW; omega)
        have hp := Int.mul_nonneg_of_nonpos_of_nonpos (show a ≤ 0 by omega) (show b ≤ 0 by omega)
        have hk := lt_tdiv_neg (m := max) (a := a) (b := b) (by omega) (by omega)
        rw [Int.mul_comm b a] at hk
        simp only [ha0, hb0, hd, hz, if_true, if_false, bind, Except.bind, pure, Except.pure, ne_eq, not_false_eq_true]
        by_cases hc : b < Int.tdiv max a
        · rw [if_pos hc, if_neg (by omega)]
        · rw [if_neg hc, if_pos (by omega), h3 (by omega)]

example : (0 : Int) < 127 ∧ InW 127 (-128) ∧ InW 127 (-1) ∧ mulOverflows 127 (-128) (-1) = .ok none ∧
    mulOverflows 127 (-64) 2 = .ok (some (-128)) := by decide

/-! ## C01: `Integer` operators are exact or throw -/

/-- Specification: the exact value when representable, else the overflow exception. -/
def exactOrThrow (v : Int) : Chk Int := if InI64 v then .ok v else .error .overflow

theorem inI64_inW (x : Int) : InI64 x ↔ InW i64Max x := by unfold InI64 InW i64Max i64Min; omega

theorem iAdd_exact (a b : Int) (ha : InI64 a) (hb : InI64 b) : iAdd a b = exactOrThrow (a + b) := by
  rw [inI64_inW] at ha hb
  unfold iAdd exactOrThrow throwIf
  rw [addOverflows_exact _ _ _ (by decide) ha hb]
  simp only [inI64_inW, bind, Except.bind]
  by_cases h : InW i64Max (a + b)
  · rw [if_pos h, if_pos h]
  · rw [if_neg h, if_neg h]

theorem iSub_exact (a b : Int) (ha : InI64 a) (hb : InI64 b) : iSub a b = exactOrThrow (a - b) := by
  rw [inI64_inW] at ha hb
  unfold iSub exactOrThrow throwIf
  rw [subOverflows_exact _ _ _ (by decide) ha hb]
  simp only [inI64_inW, bind, Except.bind]
  by_cases h : InW i64Max (a - b)
  · rw [if_pos h, if_pos h]
  · rw [if_neg h, if_neg h]

theorem iMul_exact (a b : Int) (ha : InI64 a) (hb : InI64 b) : iMul a b = exactOrThrow (a * b) := by
  rw [inI64_inW] at ha hb
  unfold iMul exactOrThrow throwIf
  rw [mulOverflows_exact _ _ _ (by decide) ha hb]
  simp only [inI64_inW, bind, Except.bind]
  by_cases h : InW i64Max (a * b)
  · rw [if_pos h, if_pos h]
  · rw [if_neg h, if_neg h]

/-- `a / b` for `b ≠ 0`: the quotient is the truncated one when it fits (it does unless `MIN / -1`); with `b = 0`
it throws. -/
theorem iDiv_exact (a b : Int) (ha : InI64 a) (hb : InI64 b) :
    iDiv a b = if b = 0 then .error .overflow else exactOrThrow (Int.tdiv a b) := by
  unfold iDiv exactOrThrow
  by_cases h0 : b = 0
  · simp [h0]
  · by_cases h1 : a = i64Min ∧ b = -1
    · rcases h1 with ⟨rfl, rfl⟩; decide
    · have hle := natAbs_tdiv_le a b
      have hq : InI64 (Int.tdiv a b) := by
        by_cases hmin : a = i64Min
        · have hb1 : b ≠ -1 := fun h => h1 ⟨hmin, h⟩
          by_cases hp : 0 < b
          · have : Int.tdiv a b ≤ 0 := by
              have h2 := Int.tdiv_nonneg (a := -a) (b := b) (by rw [hmin]; decide) (by omega)
              rw [Int.neg_tdiv] at h2; omega
            unfold InI64 i64Min i64Max at *; omega
          · have h2 : (Int.tdiv a b).natAbs = a.natAbs / b.natAbs := Int.natAbs_tdiv a b
            have h3 : a.natAbs / b.natAbs ≤ a.natAbs / 2 := Nat.div_le_div_left (by omega) (by omega)
            unfold InI64 i64Min i64Max at *; omega
        · unfold InI64 i64Min i64Max at *; omega
      simp only [h0, h1, if_false]
      rw [if_pos hq]
      unfold rawDiv; rw [if_neg h0]
      exact rawOut_ok ((inI64_inW _).1 hq)

/-- `a % b`: the remainder of truncated division, throwing for `b = 0` and for `MIN % -1`. -/
theorem iMod_exact (a b : Int) (ha : InI64 a) (hb : InI64 b) :
    iMod a b = if b = 0 ∨ (a = i64Min ∧ b = -1) then .error .overflow else .ok (Int.tmod a b) := by
  have hd := iDiv_exact a b ha hb
  unfold iDiv at hd
  unfold iMod
  by_cases h0 : b = 0
  · simp [h0]
  · by_cases h1 : a = i64Min ∧ b = -1
    · simp [h1]
    · simp only [h0, h1, if_false, false_or] at hd ⊢
      have hq : InI64 (Int.tdiv a b) := by
        unfold exactOrThrow at hd
        by_cases hi : InI64 (Int.tdiv a b)
        · exact hi
        · rw [if_neg hi] at hd
          unfold rawDiv rawOut at hd
          rw [if_neg h0] at hd
          split at hd <;> simp at hd
      unfold exactOrThrow at hd
      rw [if_pos hq] at hd
      rw [hd]
      simp only [bind, Except.bind]
      apply rawOut_ok
      rw [← inI64_inW]
      have : (Int.tmod a b).natAbs < b.natAbs := by
        rw [Int.natAbs_tmod]; exact Nat.mod_lt _ (by omega)
      unfold InI64 i64Min i64Max at *; omega

/-- Quotient and remainder fit together whenever both are returned. -/
theorem iDiv_iMod (a b q r : Int) (ha : InI64 a) (hb : InI64 b) (hq : iDiv a b = .ok q) (hr : iMod a b = .ok r) :
    a = q * b + r ∧ r.natAbs < b.natAbs ∧ (0 ≤ a → 0 ≤ r) ∧ (a ≤ 0 → r ≤ 0) := by
  rw [iDiv_exact a b ha hb] at hq
  rw [iMod_exact a b ha hb] at hr
  by_cases h0 : b = 0
  · simp [h0] at hq
  · by_cases h1 : a = i64Min ∧ b = -1
    · simp [h1] at hr
    · simp only [h0, h1, if_false, false_or] at hq hr
      unfold exactOrThrow at hq
      split at hq
      · cases hq; cases hr
        refine ⟨?_, ?_, ?_, ?_⟩
        · have := Int.mul_tdiv_add_tmod a b
          rw [Int.mul_comm] at this; exact this.symm
        · rw [Int.natAbs_tmod]; exact Nat.mod_lt _ (by omega)
        · intro h; exact Int.tmod_nonneg b h
        · intro h
          have := Int.tmod_nonneg b (a := -a) (by omega)
          rw [Int.neg_tmod] at this; omega
      · cases hq

theorem iNeg_exact (a : Int) (ha : InI64 a) : iNeg a = exactOrThrow (-a) := by
  unfold iNeg exactOrThrow
  by_cases h : a = i64Min
  · subst h; decide
  · have : InI64 (-a) := by unfold InI64 i64Min i64Max at *; omega
    rw [if_neg h, if_pos this]; exact rawOut_ok ((inI64_inW _).1 this)

theorem iAbs_exact (a : Int) (ha : InI64 a) : iAbs a = exactOrThrow (if a < 0 then -a else a) := by
  have hab : (a.natAbs : Int) = if a < 0 then -a else a := by split <;> omega
  unfold iAbs exactOrThrow
  rw [hab]
  by_cases h : a = i64Min
  · subst h; decide
  · have : InI64 (if a < 0 then -a else a) := by unfold InI64 i64Min i64Max at *; split <;> omega
    rw [if_neg h, if_pos this]; exact rawOut_ok ((inI64_inW _).1 this)

theorem iInc_exact (a : Int) (ha : InI64 a) : iInc a = exactOrThrow (a + 1) := by
  unfold iInc exactOrThrow
  by_cases h : a = i64Max
  · subst h; decide
  · have : InI64 (a + 1) := by unfold InI64 i64Min i64Max at *; omega
    rw [if_neg h, if_pos this]; exact rawOut_ok ((inI64_inW _).1 this)

theorem iDec_exact (a : Int) (ha : InI64 a) : iDec a = exactOrThrow (a - 1) := by
  unfold iDec exactOrThrow
  by_cases h : a = i64Min
  · subst h; decide
  · have : InI64 (a - 1) := by unfold InI64 i64Min i64Max at *; omega
    rw [if_neg h, if_pos this]; exact rawOut_ok ((inI64_inW _).1 this)

/-- C01, all operators together: every operator of `Integer` is exact or throws, on all 64-bit operands. -/
theorem integer_operators_exact_or_throw (a b : Int) (ha : InI64 a) (hb : InI64 b) :
    iAdd a b = exactOrThrow (a + b) ∧ iSub a b = exactOrThrow (a - b) ∧ iMul a b = exactOrThrow (a * b) ∧
    (iDiv a b = if b = 0 then .error .overflow else exactOrThrow (Int.tdiv a b)) ∧
    (iMod a b = if b = 0 ∨ (a = i64Min ∧ b = -1) then .error .overflow else .ok (Int.tmod a b)) ∧
    iNeg a = exactOrThrow (-a) ∧ iAbs a = exactOrThrow (if a < 0 then -a else a) ∧
    iInc a = exactOrThrow (a + 1) ∧ iDec a = exactOrThrow (a - 1) :=
  ⟨iAdd_exact a b ha hb, iSub_exact a b ha hb, iMul_exact a b ha hb, iDiv_exact a b ha hb, iMod_exact a b ha hb,
    iNeg_exact a ha, iAbs_exact a ha, iInc_exact a ha, iDec_exact a ha⟩

example : InI64 i64Min ∧ InI64 (-1) ∧ iDiv i64Min (-1) = .error .overflow ∧ iDiv (-7) 2 = .ok (-3) ∧ iMod (-7) 2 = .ok (-1) ∧
    iMul 4294967296 2147483648 = .error .overflow ∧ iMul 4294967296 2147483647 = .ok 9223372032559808512 := by decide

/-! ## C03: power -/

/-- Loop invariant: the loop returns `result * b^e` when that fits, and otherwise `nullopt`. -/
theorem powLoop_exact (e : Nat) : ∀ (result b : Int), InI64 result → InI64 b → 2 ≤ b.natAbs → result ≠ 0 →
    powLoop result b e = .ok (if InI64 (result * b ^ e) then some (result * b ^ e) else none) := by
  have grow : ∀ (x y : Int) (n : Nat), 2 ≤ y.natAbs → x ≠ 0 → x.natAbs ≤ (x * y ^ n).natAbs := by
    intro x y n hy hx
    rw [Int.natAbs_mul, Int.natAbs_pow]
    exact Nat.le_mul_of_pos_right _ (Nat.pow_pos (by omega))
  have outsq : ∀ (b : Int), 2 ≤ b.natAbs → ¬ InI64 (b * b) → ∀ (r : Int) (n : Nat), r ≠ 0 → 0 < n →
      ¬ InI64 (r * (b * b) ^ n) := by
    intro b hb hbb r n hr hn hin
    -- `b*b` is nonnegative and too large, so is anything of at least its magnitude, unless it is exactly MIN
    have hnn : 0 ≤ b * b := by
      rcases Int.le_total 0 b with h | h
      · exact Int.mul_nonneg h h
      · exact Int.mul_nonneg_of_nonpos_of_nonpos h h
    have hbig : i64Max < b * b := by unfold InI64 i64Min i64Max at *; omega
    have hmag : (b * b).natAbs ≤ (r * (b * b) ^ n).natAbs := by
      obtain ⟨m, rfl⟩ : ∃ m, n = m + 1 := ⟨n - 1, by omega⟩
      rw [Int.natAbs_mul r, Int.natAbs_pow, Nat.pow_succ, ← Nat.mul_assoc]
      refine Nat.le_mul_of_pos_left _ (Nat.mul_pos (by omega) (Nat.pow_pos ?_))
      unfold i64Max at hbig; omega
    -- only possibility is |b*b| = 2^63, but 2^63 is not a square
    have hsq : (b * b).natAbs = 9223372036854775808 := by
      unfold InI64 i64Min i64Max at *; omega
    rw [Int.natAbs_mul] at hsq
    have hlt : b.natAbs < 3037000500 := by
      apply Decidable.byContradiction; intro h
      have := Nat.mul_le_mul (show 3037000500 ≤ b.natAbs by omega) (show 3037000500 ≤ b.natAbs by omega)
      omega
    have := Nat.mul_le_mul (show b.natAbs ≤ 3037000499 by omega) (show b.natAbs ≤ 3037000499 by omega)
    omega
  induction e using Nat.strongRecOn with
  | ind e ih =>
    intro result b hr hb hb2 hr0
    by_cases he : e = 0
    · subst he; rw [powLoop_zero]; simp [hr]
    · unfold powLoop
      rw [dif_neg he]
      have hmul := mulOverflows_exact i64Max result b (by decide) ((inI64_inW _).1 hr) ((inI64_inW _).1 hb)
      have hsq := mulOverflows_exact i64Max b b (by decide) ((inI64_inW _).1 hb) ((inI64_inW _).1 hb)
      simp only [← inI64_inW] at hmul hsq
      have hpow : ∀ k, b ^ (2 * k) = (b * b) ^ k := by
        intro k; rw [Int.pow_mul]; congr 1; rw [Int.pow_succ, Int.pow_succ, Int.pow_zero, Int.one_mul]
      -- the second half of the body, for the updated result
      have tail : ∀ r', InI64 r' → r' ≠ 0 →
          (if e / 2 > 0 then (do
              match ← mulOverflows i64Max b b with
              | none => return none
              | some b' => powLoop r' b' (e / 2))
            else powLoop r' b (e / 2) : Chk (Option Int)) =
          .ok (if InI64 (r' * (b * b) ^ (e / 2)) then some (r' * (b * b) ^ (e / 2)) else none) := by
        intro r' hr' hr0'
        by_cases h2 : e / 2 > 0
        · rw [if_pos h2, hsq]
          by_cases hbb : InI64 (b * b)
          · simp only [if_pos hbb, bind, Except.bind]
            rw [ih (e / 2) (by omega) r' (b * b) hr' hbb ?_ hr0']
            rw [Int.natAbs_mul]
            have := Nat.mul_le_mul hb2 hb2
            omega
          · simp only [hbb, if_false, bind, Except.bind, pure, Except.pure]
            rw [if_neg (outsq b hb2 hbb r' _ hr0' h2)]
        · rw [if_neg h2]
          have : e / 2 = 0 := by omega
          rw [this, powLoop_zero]; simp [hr']
      by_cases hodd : e % 2 = 1
      · have hdecomp : result * b ^ e = result * b * (b * b) ^ (e / 2) := by
          rw [← hpow, Int.mul_assoc]; congr 1
          have : e = 2 * (e / 2) + 1 := by omega
          conv => lhs; rw [this]
          rw [Int.pow_succ, Int.mul_comm]
        simp only [hodd, if_true, hmul]
        by_cases hin : InI64 (result * b)
        · simp only [if_pos hin, bind, Except.bind, pure, Except.pure] at tail ⊢
          rw [hdecomp]
          exact tail _ hin (Int.mul_ne_zero hr0 (by omega))
        · simp only [hin, if_false, bind, Except.bind, pure, Except.pure]
          rw [if_neg]
          rw [hdecomp]
          -- magnitude only grows; the equality case with MIN needs `e = 1`
          intro hfin
          by_cases h2 : e / 2 = 0
          · rw [h2] at hfin; simp at hfin; exact hin hfin
          · have h4 : (result * b).natAbs * 4 ≤ (result * b * (b * b) ^ (e / 2)).natAbs := by
              rw [Int.natAbs_mul _ ((b * b) ^ (e / 2)), Int.natAbs_pow, Int.natAbs_mul b b]
              apply Nat.mul_le_mul_left
              obtain ⟨m, hm⟩ : ∃ m, e / 2 = m + 1 := ⟨e / 2 - 1, by omega⟩
              rw [hm, Nat.pow_succ]
              have h5 := Nat.mul_le_mul hb2 hb2
              have h6 : 0 < (b.natAbs * b.natAbs) ^ m := Nat.pow_pos (by omega)
              have := Nat.mul_le_mul (show 1 ≤ (b.natAbs * b.natAbs) ^ m from h6) h5
              omega
            generalize result * b * (b * b) ^ (e / 2) = z at hfin h4
            generalize result * b = y at hin h4
            unfold InI64 i64Min i64Max at *; omega
      · have hdecomp : result * b ^ e = result * (b * b) ^ (e / 2) := by
          rw [← hpow]; congr 2; omega
        simp only [hodd, if_false, bind, Except.bind, pure, Except.pure] at tail ⊢
        rw [hdecomp]
        exact tail _ hr hr0

/-- Specification of the integer power: MiniZinc's rule for negative exponents. -/
def powSpec (base exp : Int) : Option Int :=
  if 0 ≤ exp then some (base ^ exp.toNat)
  else if base = 0 then none
  else some (Int.tdiv 1 (base ^ (-exp).toNat))

theorem neg_one_pow (n : Nat) : (-1 : Int) ^ n = if n % 2 = 0 then 1 else -1 := by
  induction n with
  | zero => rfl
  | succ n ih => rw [Int.pow_succ, ih]; split <;> split <;> omega

/-- C03: `checked_integer_power` is the exact power when defined and representable, else `nullopt`; it never hits
undefined behaviour and never throws. -/
theorem checkedIntegerPower_exact (base exp : Int) (hb : InI64 base) :
    checkedIntegerPower base exp =
      .ok (match powSpec base exp with
        | none => none
        | some v => if InI64 v then some v else none) := by
  unfold checkedIntegerPower powSpec
  by_cases h0 : exp = 0
  · subst h0; simp [InI64, i64Min, i64Max]
  · simp only [h0, if_false]
    by_cases h1 : base = 1
    · subst h1
      by_cases hp : 0 ≤ exp
      · simp [hp, Int.one_pow]; decide
      · simp [hp, Int.one_pow]; decide
    · simp only [h1, if_false]
      by_cases h2 : base = -1
      · subst h2
        by_cases hp : 0 ≤ exp
        · simp only [hp, if_true, neg_one_pow]
          by_cases he : exp % 2 = 0
          · have : exp.toNat % 2 = 0 := by omega
            simp [he, this]; decide
          · have : ¬ exp.toNat % 2 = 0 := by omega
            simp [he, this]; decide
        · simp only [hp, if_false, neg_one_pow]
          by_cases he : exp % 2 = 0
          · have : (-exp).toNat % 2 = 0 := by omega
            simp [he, this]; decide
          · have : ¬ (-exp).toNat % 2 = 0 := by omega
            simp [he, this]; decide
      · simp only [h2, if_false]
        by_cases hneg : exp < 0
        · have hp : ¬ 0 ≤ exp := by omega
          simp only [hneg, if_true, hp, if_false]
          by_cases hz : base = 0
          · simp [hz]
          · simp only [hz, if_false]
            have hlt : Int.tdiv 1 (base ^ (-exp).toNat) = 0 := by
              have hm : 1 < (base ^ (-exp).toNat).natAbs := by
                rw [Int.natAbs_pow]
                exact Nat.one_lt_pow (by omega) (by omega)
              have := Int.natAbs_tdiv 1 (base ^ (-exp).toNat)
              have h9 : Nat.div 1 (base ^ (-exp).toNat).natAbs = 0 := Nat.div_eq_of_lt hm
              rw [show Int.natAbs 1 = 1 from rfl, h9] at this
              omega
            rw [hlt]; decide
        · have hp : 0 ≤ exp := by omega
          simp only [hneg, if_false, hp, if_true]
          by_cases hz : base = 0
          · subst hz
            have : (0 : Int) ^ exp.toNat = 0 := Int.zero_pow (by omega)
            rw [this]; simp [InI64, i64Min, i64Max]
          · simp only [hz, if_false]
            rw [powLoop_exact exp.toNat 1 base (by decide) hb (by omega) (by decide), Int.one_mul]

theorem power2_exact (i : Int) :
    power2 i = if 0 ≤ i ∧ InI64 (2 ^ i.toNat) then .ok (2 ^ i.toNat) else .error .unimplemented := by
  unfold power2
  by_cases h : i < 0 ∨ i ≥ 63
  · rw [if_pos h, if_neg]
    rintro ⟨h1, h2⟩
    have h3 : (2 : Int) ^ 63 ≤ 2 ^ i.toNat := by
      have h4 := Nat.pow_le_pow_right (show 2 > 0 by omega) (show 63 ≤ i.toNat by omega)
      exact_mod_cast h4
    unfold InI64 i64Min i64Max at h2
    generalize (2 : Int) ^ i.toNat = z at h2 h3
    omega
  · rw [if_neg h, if_pos]
    refine ⟨by omega, ?_⟩
    have h3 : (2 : Int) ^ i.toNat ≤ 2 ^ 62 := by
      have h4 := Nat.pow_le_pow_right (show 2 > 0 by omega) (show i.toNat ≤ 62 by omega)
      exact_mod_cast h4
    have h5 : (0 : Int) < 2 ^ i.toNat := Int.pow_pos (by decide)
    generalize (2 : Int) ^ i.toNat = z at h3 h5 ⊢
    unfold InI64 i64Min i64Max
    omega

example : checkedIntegerPower (-2) 63 = .ok (some i64Min) ∧ checkedIntegerPower 2 63 = .ok none ∧
    checkedIntegerPower 10 18 = .ok (some 1000000000000000000) ∧ checkedIntegerPower 0 (-1) = .ok none := by decide +kernel

end Gcs

#print axioms Gcs.addOverflows_exact
#print axioms Gcs.subOverflows_exact
#print axioms Gcs.mulOverflows_exact
#print axioms Gcs.integer_operators_exact_or_throw
#print axioms Gcs.iDiv_iMod
#print axioms Gcs.checkedIntegerPower_exact
#print axioms Gcs.power2_exact
