import Verif.Lemmas.Cons.PlusMinus
import Verif.Lemmas.Cons.Abs
import Verif.Lemmas.Cons.MinMax
import Verif.Props.Cons.Run

/-!
# C40: arithmetic

`Plus`, `Minus` and `Abs` are right. `ArrayMin` and `ArrayMax` are right if none of the variables is a different view of the variable of the result; if one is, a problem that has solutions may end in an
`UnexpectedException`.
-/

namespace Gcs
open IntervalSet

section
variable {σ μ : Type} {n m : Nat} {R : Err → Prop} {root : Doms} {vars : List VarId} {x y z : VarId}

/-- C40 for `Plus(x, y, z)`, in part: `x + y = z`. Missing: the table that is built when there are few combinations of values. -/
theorem plus_right_partial (ho : R .overflow) (hx : x.Valid n) (hy : y.Valid n) (hz : z.Valid n) :
    (Posted.mk (Plus.install (σ := σ) (μ := μ) x y z) (fun a => x.eval a + y.eval a = z.eval a) [x, y, z]).Right n m R root (fun _ => False) :=
  Plus.install_right ho hx hy hz

/-- C40 for `Minus(x, y, z)`, in part: `x - y = z`. Missing: the table that is built when there are few combinations of values. -/
theorem minus_right_partial (ho : R .overflow) (hx : x.Valid n) (hy : y.Valid n) (hz : z.Valid n) :
    (Posted.mk (Minus.install (σ := σ) (μ := μ) x y z) (fun a => x.eval a - y.eval a = z.eval a) [x, y, z]).Right n m R root (fun _ => False) :=
  Minus.install_right ho hx hy hz

/-- C40: `Abs(x, y)`: `y` is the absolute value of `x`. -/
theorem abs_right (ho : R .overflow) (hx : x.Valid n) (hy : y.Valid n) :
    (Posted.mk (Abs.install (σ := σ) (μ := μ) x y) (fun a => y.eval a = if x.eval a < 0 then - x.eval a else x.eval a) [x, y]).Right n m R root (fun _ => False) := by
  have : (fun a => y.eval a = if x.eval a < 0 then - x.eval a else x.eval a) = fun a => y.eval a = (x.eval a).natAbs := by
    funext a
    have : ((x.eval a).natAbs : Int) = if x.eval a < 0 then - x.eval a else x.eval a := by split <;> omega
    rw [this]
  rw [this]
  exact Abs.install_right ho hx hy

/-- C40: `ArrayMin(vars, z)`: `z` is the smallest of the variables, provided each of them is either `z` itself or not about the same variable as `z`. Posting throws if there are none. -/
theorem arrayMin_right_partial (ho : R .overflow) (hz : z.Valid n) (hv : ∀ v ∈ vars, v.Valid n) (ha : ∀ v ∈ vars, v = z ∨ ∀ i, v.underlyingIndex = some i → z.underlyingIndex ≠ some i) :
    (Posted.mk (MinMax.install (σ := σ) (μ := μ) true vars z) (fun a => (∃ v ∈ vars, v.eval a = z.eval a) ∧ ∀ v ∈ vars, z.eval a ≤ v.eval a) (z :: vars)).Right n m R root
      (fun e => e = .invalidProblem ∧ vars = []) := by
  have e : (fun a => (∃ v ∈ vars, v.eval a = z.eval a) ∧ ∀ v ∈ vars, z.eval a ≤ v.eval a) = MinMax.Extreme true vars z := by funext a; simp [MinMax.Extreme, MinMax.Side]
  rw [e]
  exact MinMax.install_right ho hz hv (.inr ha)

/-- C40: `ArrayMax(vars, z)`: `z` is the largest of the variables, provided each of them is either `z` itself or not about the same variable as `z`. Posting throws if there are none. -/
theorem arrayMax_right_partial (ho : R .overflow) (hz : z.Valid n) (hv : ∀ v ∈ vars, v.Valid n) (ha : ∀ v ∈ vars, v = z ∨ ∀ i, v.underlyingIndex = some i → z.underlyingIndex ≠ some i) :
    (Posted.mk (MinMax.install (σ := σ) (μ := μ) false vars z) (fun a => (∃ v ∈ vars, v.eval a = z.eval a) ∧ ∀ v ∈ vars, v.eval a ≤ z.eval a) (z :: vars)).Right n m R root
      (fun e => e = .invalidProblem ∧ vars = []) := by
  have e : (fun a => (∃ v ∈ vars, v.eval a = z.eval a) ∧ ∀ v ∈ vars, v.eval a ≤ z.eval a) = MinMax.Extreme false vars z := by funext a; simp [MinMax.Extreme, MinMax.Side]
  rw [e]
  exact MinMax.install_right ho hz hv (.inr ha)

/-- C40 for `ArrayMin` and `ArrayMax`, in part: whatever the variables are about, what is reported is right unless an `UnexpectedException` is thrown. -/
theorem minMax_right_partial (ho : R .overflow) (hu : R .unexpected) (hz : z.Valid n) (hv : ∀ v ∈ vars, v.Valid n) (mn : Bool) :
    (Posted.mk (MinMax.install (σ := σ) (μ := μ) mn vars z) (fun a => (∃ v ∈ vars, v.eval a = z.eval a) ∧ ∀ v ∈ vars, if mn then z.eval a ≤ v.eval a else v.eval a ≤ z.eval a) (z :: vars)).Right n m R root
      (fun e => e = .invalidProblem ∧ vars = []) :=
  MinMax.install_right ho hz hv (.inl hu)

end

/-- C40 fails: `ArrayMax({y, x - 1}, x)` with `x` 0 or 1 and `y` -5 or 1 has the solution `x = 1`, `y = 1`; an `UnexpectedException` is thrown. -/
theorem arrayMax_throws : Run.thrown [[(-5, -5), (1, 1)], [(0, 1)]] [MinMax.install false [.simple 0, .view 1 false (-1)] (.simple 1)] = some .unexpected := by decide +kernel

theorem arrayMax_throws_solution : (∃ v ∈ [VarId.simple 0, .view 1 false (-1)], v.eval (fun _ => 1) = (VarId.simple 1).eval (fun _ => 1)) ∧
    (∀ v ∈ [VarId.simple 0, .view 1 false (-1)], v.eval (fun _ => 1) ≤ (VarId.simple 1).eval (fun _ => 1)) ∧ Within [[(-5, -5), (1, 1)], [(0, 1)]] (fun _ => 1) := by
  refine ⟨by decide, by decide, fun i s hs => ?_⟩
  match i, hs with
  | 0, hs => cases hs; decide
  | 1, hs => cases hs; decide

/-- C40 fails: `ArrayMin({x - 1}, x)` has no solution, but with `x` one of 0, 2, 3 and 5 an `UnexpectedException` is thrown instead of saying so. -/
theorem arrayMin_throws : Run.thrown [[(0, 0), (2, 3), (5, 5)]] [MinMax.install true [.view 0 false (-1)] (.simple 0)] = some .unexpected := by decide +kernel

/-! Concrete cases of the hypotheses, and all solutions of small problems. -/

example : VarId.Valid 3 (.simple 0) ∧ VarId.Valid 3 (.view 1 true 3) ∧ VarId.Valid 3 (.const 5) := by decide
example : ∀ v ∈ [VarId.simple 0, .view 1 true 2, .simple 2], v = .simple 2 ∨ ∀ i, v.underlyingIndex = some i → (VarId.simple 2).underlyingIndex ≠ some i := by simp [VarId.underlyingIndex]
example : Run.run [[(0, 2)], [(1, 2)], [(3, 9)]] [Plus.install (.simple 0) (.simple 1) (.simple 2)] =
    some ([[[(1, 1)], [(2, 2)], [(3, 3)]], [[(2, 2)], [(1, 1)], [(3, 3)]], [[(2, 2)], [(2, 2)], [(4, 4)]]], true) := by decide +kernel
example : Run.run [[(0, 2)], [(1, 2)], [(1, 9)]] [Minus.install (.simple 0) (.simple 1) (.simple 2)] = some ([[[(2, 2)], [(1, 1)], [(1, 1)]]], true) := by decide +kernel
example : Run.run [[(-3, 2)], [(1, 1), (3, 4)]] [Abs.install (.simple 0) (.simple 1)] =
    some ([[[(-1, -1)], [(1, 1)]], [[(1, 1)], [(1, 1)]], [[(-3, -3)], [(3, 3)]]], true) := by decide +kernel
example : Run.run [[(0, 2)], [(1, 3)], [(2, 2)]] [MinMax.install false [.simple 0, .simple 1] (.simple 2), MinMax.install true [.simple 0, .simple 1] (.const 1)] =
    some ([[[(1, 1)], [(2, 2)], [(2, 2)]], [[(2, 2)], [(1, 1)], [(2, 2)]]], true) := by decide +kernel

end Gcs
