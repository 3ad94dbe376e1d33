import Verif.Model.Integer

/-!
Division rounding towards zero, in terms of magnitudes.
-/

namespace Gcs.DivMod

theorem nonneg_of_mul {A B : Int} (hB : 0 < B) (h : 0 ≤ A * B) : 0 ≤ A := by
  by_cases hA : 0 ≤ A
  · exact hA
  · have := Int.mul_neg_of_neg_of_pos (by omega : A < 0) hB
    omega

theorem nonpos_of_mul {A B : Int} (hB : 0 < B) (h : A * B ≤ 0) : A ≤ 0 := by
  by_cases hA : A ≤ 0
  · exact hA
  · have := Int.mul_pos (by omega : 0 < A) hB
    omega

/-- A quotient is known by the two inequalities. -/
theorem quotient_unique {A Q B X : Int} (hB : 0 < B) (h1 : A * B ≤ X) (h2 : X < A * B + B) (h3 : Q * B ≤ X) (h4 : X < Q * B + B) : A = Q := by
  have e1 : (A - Q - 1) * B = A * B - Q * B - B := by grind
  have e2 : (Q - A - 1) * B = Q * B - A * B - B := by grind
  by_cases hlt : A - Q - 1 < 0
  · by_cases hlt' : Q - A - 1 < 0
    · omega
    · have := Int.mul_nonneg (by omega : 0 ≤ Q - A - 1) (by omega : 0 ≤ B)
      omega
  · have := Int.mul_nonneg (by omega : 0 ≤ A - Q - 1) (by omega : 0 ≤ B)
    omega

/-- The quotient of magnitudes. -/
theorem exists_quotient {X B : Int} (hX : 0 ≤ X) (hB : 0 < B) : ∃ Q, Q = X / B ∧ 0 ≤ Q ∧ Q * B ≤ X ∧ X < Q * B + B :=
  ⟨X / B, rfl, Int.ediv_nonneg hX (by omega), Int.ediv_mul_le _ (by omega), by have := Int.lt_ediv_add_one_mul_self X hB; rw [Int.add_mul, Int.one_mul] at this; exact this⟩

/-- Signs of dividend and divisor are the same. -/
abbrev Same (x y : Int) : Prop := 0 ≤ x ∧ 0 < y ∨ x ≤ 0 ∧ y < 0

abbrev Opposite (x y : Int) : Prop := 0 ≤ x ∧ y < 0 ∨ x ≤ 0 ∧ 0 < y

theorem same_or (x : Int) {y : Int} (h : y ≠ 0) : Same x y ∨ Opposite x y := by omega

theorem tdiv_form (x : Int) {y : Int} (h : y ≠ 0) : ∃ Q : Int, 0 ≤ Q ∧ Q * y.natAbs ≤ x.natAbs ∧ (x.natAbs : Int) < Q * y.natAbs + y.natAbs ∧ (Same x y → x.tdiv y = Q) ∧ (Opposite x y → x.tdiv y = -Q) := by
  obtain ⟨Q, hQ, h0, h1, h2⟩ := exists_quotient (X := x.natAbs) (B := y.natAbs) (by omega) (by omega)
  refine ⟨Q, h0, h1, h2, ?_, ?_⟩
  · rintro (⟨k1, k2⟩ | ⟨k1, k2⟩)
    · rw [Int.tdiv_eq_ediv_of_nonneg k1, hQ]; congr 1 <;> omega
    · rw [← Int.neg_neg x, ← Int.neg_neg y, Int.neg_tdiv, Int.tdiv_neg, Int.neg_neg, Int.tdiv_eq_ediv_of_nonneg (by omega), hQ]; congr 1 <;> omega
  · rintro (⟨k1, k2⟩ | ⟨k1, k2⟩)
    · rw [← Int.neg_neg y, Int.tdiv_neg, Int.tdiv_eq_ediv_of_nonneg (by omega), hQ]; congr 2 <;> omega
    · rw [← Int.neg_neg x, Int.neg_tdiv, Int.tdiv_eq_ediv_of_nonneg (by omega), hQ]; congr 2 <;> omega

/-- What is known of quotient and remainder, in terms of magnitudes. -/
theorem tmod_form (x : Int) {y : Int} (h : y ≠ 0) : ∃ Q : Int, 0 ≤ Q ∧ Q * y.natAbs ≤ x.natAbs ∧ (x.natAbs : Int) < Q * y.natAbs + y.natAbs ∧ ((x.tdiv y).natAbs : Int) = Q ∧
    (0 ≤ x → x.tmod y = x - Q * y.natAbs) ∧ (x ≤ 0 → x.tmod y = x + Q * y.natAbs) := by
  obtain ⟨Q, h0, h1, h2, h3, h4⟩ := tdiv_form x h
  refine ⟨Q, h0, h1, h2, ?_, fun hx => ?_, fun hx => ?_⟩
  · rcases same_or x h with hs | hs
    · rw [h3 hs]; omega
    · rw [h4 hs]; omega
  · rw [Int.tmod_def]
    by_cases hy : 0 < y
    · rw [h3 (.inl ⟨hx, hy⟩), show (y.natAbs : Int) = y by omega]; grind
    · rw [h4 (.inl ⟨hx, by omega⟩), show (y.natAbs : Int) = -y by omega]; grind
  · rw [Int.tmod_def]
    by_cases hy : 0 < y
    · rw [h4 (.inr ⟨hx, hy⟩), show (y.natAbs : Int) = y by omega]; grind
    · rw [h3 (.inr ⟨hx, by omega⟩), show (y.natAbs : Int) = -y by omega]; grind

/-- The rows of `Divide`: `p` is the product of the magnitudes. -/
abbrev DivideRows (x B p : Int) : Prop := (0 ≤ x → p ≤ x ∧ x < p + B) ∧ (x ≤ 0 → p ≤ -x ∧ -x < p + B)

/-- The rows of `Modulus`. -/
abbrev ModulusRows (x r p : Int) : Prop := (0 ≤ x → r = x - p) ∧ (x ≤ 0 → r = x + p)

/-- The sign of a quotient. -/
abbrev SignOK (x y q : Int) : Prop := (1 ≤ x → 1 ≤ y → 0 ≤ q) ∧ (1 ≤ x → y < 0 → q < 1) ∧ (x < 0 → y < 0 → 0 ≤ q) ∧ (x < 0 → 1 ≤ y → q < 1)

theorem divide_iff {x y q A B : Int} (hA : A = q.natAbs) (hB : B = y.natAbs) (hy : y ≠ 0) : x.tdiv y = q ↔ DivideRows x B (A * B) ∧ SignOK x y q := by
  obtain ⟨Q, h0, h1, h2, h3, h4⟩ := tdiv_form x hy
  rw [← hB] at h1 h2
  have hB0 : 0 < B := by omega
  constructor
  · intro e
    have hAQ : A = Q := by
      rcases same_or x hy with hs | hs
      · have := h3 hs; omega
      · have := h4 hs; omega
    subst hAQ
    generalize A * B = p at *
    refine ⟨⟨by omega, by omega⟩, ?_, ?_, ?_, ?_⟩
    · intro k1 k2; have := h3 (.inl ⟨by omega, by omega⟩); omega
    · intro k1 k2; have := h4 (.inl ⟨by omega, by omega⟩); omega
    · intro k1 k2; have := h3 (.inr ⟨by omega, by omega⟩); omega
    · intro k1 k2; have := h4 (.inr ⟨by omega, by omega⟩); omega
  · rintro ⟨hr, hs⟩
    have hAQ : A = Q := quotient_unique (X := x.natAbs) hB0 (by omega) (by omega) h1 h2
    by_cases hQ : Q = 0
    · rcases same_or x hy with hs' | hs'
      · rw [h3 hs']; omega
      · rw [h4 hs']; omega
    · have hp := Int.mul_pos (by omega : 0 < Q) hB0
      have hx0 : x ≠ 0 := by omega
      rcases same_or x hy with hs' | hs'
      · rw [h3 hs']; omega
      · rw [h4 hs']; omega

theorem modulus_rows {x y r A B : Int} (hB : B = y.natAbs) (hy : y ≠ 0) (h : x.tmod y = r) (hA : A = (x.tdiv y).natAbs) : ModulusRows x r (A * B) ∧ r < B ∧ -r < B ∧ (0 ≤ x → 0 ≤ r) ∧ (x < 1 → r ≤ 0) := by
  obtain ⟨Q, h0, h1, h2, h3, h4, h5⟩ := tmod_form x hy
  rw [← hB] at h1 h2 h4 h5
  subst h
  have hAQ : A = Q := by omega
  subst hAQ
  generalize A * B = p at *
  refine ⟨⟨h4, fun h => h5 h⟩, ?_⟩
  by_cases hx : 0 ≤ x
  · rw [h4 hx]; omega
  · rw [h5 (by omega)]; omega

theorem modulus_of_rows {x y r A B : Int} (hB : B = y.natAbs) (hy : y ≠ 0) (hp : 0 ≤ x → r = x - A * B) (hn : x < 0 → r = x + A * B) (k1 : r < B) (k2 : -r < B) (k3 : 0 ≤ x → 0 ≤ r) (k4 : x < 1 → r ≤ 0) :
    x.tmod y = r ∧ A = (x.tdiv y).natAbs := by
  obtain ⟨Q, h0, h1, h2, h3, h4, h5⟩ := tmod_form x hy
  rw [← hB] at h1 h2 h4 h5
  have hB0 : 0 < B := by omega
  have hAQ : A = Q := by
    by_cases hx : 0 ≤ x
    · have := hp hx; have := k3 hx
      exact quotient_unique (X := x.natAbs) hB0 (by omega) (by omega) h1 h2
    · have := hn (by omega); have := k4 (by omega)
      exact quotient_unique (X := x.natAbs) hB0 (by omega) (by omega) h1 h2
  refine ⟨?_, by omega⟩
  subst hAQ
  by_cases hx : 0 ≤ x
  · rw [h4 hx, hp hx]
  · rw [h5 (by omega), hn (by omega)]

end Gcs.DivMod
