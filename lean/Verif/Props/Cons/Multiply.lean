import Verif.Lemmas.Cons.Multiply
import Verif.Props.Cons.Run

/-!
# C40: multiplication

`Multiply(x, y, z)` at bounds consistency is right: for constants, for different views of the same variable, and for squares.
-/

namespace Gcs
open IntervalSet

section
variable {σ μ : Type} {n m : Nat} {R : Err → Prop} {root : Doms} {x y z : VarId}

/-- C40 for `Multiply(x, y, z)`, in part: `x * y = z`. Missing: the table that is built when there are few combinations of values. Posting may find that the product of two constants does not fit. -/
theorem multiply_right_partial (ho : R .overflow) (hd : DomsOK root) (hl : root.length = n) (hx : x.Valid n) (hy : y.Valid n) (hz : z.Valid n) :
    (Posted.mk (Multiply.install (σ := σ) (μ := μ) x y z) (fun a => x.eval a * y.eval a = z.eval a) (([x, y, z].filterMap VarId.underlyingIndex).map .simple)).Right n m R root (· = .overflow) :=
  right_of_roo (c := Posted.mk _ _ _) (Multiply.install_roo ho hd hl hx hy hz)

end

/-- C40: the integer square root that the propagator uses is the square root rounded down, and the other is the square root rounded up; they may overflow, but are not wrong. -/
theorem squareRoot_right {v r : Int} (hv : InI64 v) (h0 : 0 ≤ v) (h : isqrt v = .ok r) : 0 ≤ r ∧ r * r ≤ v ∧ v < (r + 1) * (r + 1) := ((isqrt_roo hv h0).value h).2

theorem squareRootUp_right {v r : Int} (hv : InI64 v) (h0 : 0 < v) (h : ceilIsqrt v = .ok r) : 0 < r ∧ v ≤ r * r ∧ (r - 1) * (r - 1) < v := ((ceilIsqrt_roo hv h0).value h).2

example : isqrt 9223372036854775806 = .ok 3037000499 := by decide +kernel

/-- The largest integer is the one whose square root cannot be found: computing where to start overflows. -/
example : isqrt 9223372036854775807 = .error .overflow := by decide +kernel
example : ceilIsqrt 10 = .ok 4 := by decide +kernel

/-! Concrete cases of the hypotheses, and all solutions of small problems. -/

example : Run.run [[(-2, 3)], [(2, 3)], [(4, 9)]] [Multiply.install (.simple 0) (.simple 1) (.simple 2)] =
    some ([[[(2, 2)], [(2, 2)], [(4, 4)]], [[(2, 2)], [(3, 3)], [(6, 6)]], [[(3, 3)], [(2, 2)], [(6, 6)]], [[(3, 3)], [(3, 3)], [(9, 9)]]], true) := by decide +kernel
example : Run.run [[(-5, 5)], [(3, 12)]] [Multiply.install (.simple 0) (.simple 0) (.simple 1)] =
    some ([[[(-3, -3)], [(9, 9)]], [[(-2, -2)], [(4, 4)]], [[(2, 2)], [(4, 4)]], [[(3, 3)], [(9, 9)]]], true) := by decide +kernel
example : Run.run [[(-5, 5)], [(7, 12)]] [Multiply.install (.simple 0) (.const (-2)) (.simple 1)] =
    some ([[[(-5, -5)], [(10, 10)]], [[(-4, -4)], [(8, 8)]]], true) := by decide +kernel
example : Run.run [[(-5, 5)], [(6, 12)]] [Multiply.install (.simple 0) (.view 0 false 1) (.simple 1)] =
    some ([[[(-3, -3)], [(6, 6)]], [[(2, 2)], [(6, 6)]], [[(-4, -4)], [(12, 12)]], [[(3, 3)], [(12, 12)]]], true) := by decide +kernel

end Gcs
