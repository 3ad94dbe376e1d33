import Verif.Lemmas.Cons.Comparison
import Verif.Lemmas.Decide

/-!
# C36, C47: comparison constraints, reified or not

For the constraints of `gcs/constraints/comparison.hh`: whatever is installed loses no solution and enforces the constraint (`Posted.Right`, `Spec/Posts.lean`), and posting throws only if the arithmetic
overflows or the operands of a strict comparison are the same variable. `Props/Problem.lean` turns this into statements about the solutions that are reported.
-/

namespace Gcs
open IntervalSet

section
variable {σ μ : Type} {n m : Nat} {R : Err → Prop} {root : Doms} {v1 v2 : VarId}

/-- C47, C36: `v1 < v2` or `v1 ≤ v2`, reified by any of the five conditions. -/
theorem compare_right (ho : R .overflow) (hd : DomsOK root) (hl : root.length = n) (h1 : v1.Valid n) (h2 : v2.Valid n) {r : Reif} (hr : r.Valid n) (orEqual : Bool) :
    (Posted.mk (Comparison.install (σ := σ) (μ := μ) v1 v2 r orEqual)
      (fun a => r.holds (fun a => if orEqual = true then v1.eval a ≤ v2.eval a else v1.eval a < v2.eval a) a) ([v1, v2] ++ r.vars)).Right n m R root (· = .overflow) :=
  Comparison.install_right ho hd hl h1 h2 hr

/-- C36: `LessThan`. -/
theorem lessThan_right (ho : R .overflow) (hd : DomsOK root) (hl : root.length = n) (h1 : v1.Valid n) (h2 : v2.Valid n) :
    (Posted.mk (Comparison.lessThan (σ := σ) (μ := μ) v1 v2) (fun a => v1.eval a < v2.eval a) [v1, v2]).Right n m R root
      (fun e => e = .overflow ∨ e = .invalidProblem ∧ v1 = v2 ∧ v1.isConst = false) :=
  right_guard (fun _ => rfl) (compare_right ho hd hl h1 h2 (r := .mustHold) trivial false)

/-- C36: `GreaterThan`. -/
theorem greaterThan_right (ho : R .overflow) (hd : DomsOK root) (hl : root.length = n) (h1 : v1.Valid n) (h2 : v2.Valid n) :
    (Posted.mk (Comparison.greaterThan (σ := σ) (μ := μ) v1 v2) (fun a => v1.eval a > v2.eval a) [v2, v1]).Right n m R root
      (fun e => e = .overflow ∨ e = .invalidProblem ∧ v1 = v2 ∧ v1.isConst = false) :=
  right_guard (fun _ => rfl) (compare_right ho hd hl h2 h1 (r := .mustHold) trivial false)

/-- C36: a strict comparison of a variable with itself is refused. -/
theorem lessThan_self (hv : v1.isConst = false) : Comparison.lessThan (σ := σ) (μ := μ) v1 v1 root = .error .invalidProblem := by simp [Comparison.lessThan, hv]

/-! Concrete cases: two variables `0..3` and a third `0..1` for the condition. -/

def Comparison.doms : Doms := [[(0, 3)], [(0, 3)], [(0, 1)]]

example : DomsOK Comparison.doms := by decide +kernel
example : (Reif.iffCond (Cond.eq (.simple 2) 1)).Valid 3 := by decide

/-- The reified constraint installs one propagator, which also wakes for the condition's variable. -/
example : ∃ f, Comparison.install (σ := Unit) (μ := Unit) (.simple 0) (.simple 1) (.iffCond (Cond.eq (.simple 2) 1)) true Comparison.doms =
    .ok [.prop f { onBounds := [.simple 0, .simple 1], onChange := [.simple 2] }] := ⟨_, rfl⟩

/-- With both operands fixed only an initialiser is left. -/
example : ∃ f, Comparison.install (σ := Unit) (μ := Unit) (.const 4) (.const 3) (.iffCond (Cond.eq (.simple 2) 1)) true Comparison.doms = .ok [.init .simpleDefinition f] := ⟨_, rfl⟩

end
end Gcs
