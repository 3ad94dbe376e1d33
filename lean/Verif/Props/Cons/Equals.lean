import Verif.Lemmas.Cons.Equals
import Verif.Lemmas.Decide

/-!
# C37: equality and disequality

For the constraints of `gcs/constraints/equals.hh`, including the propagators that work value by value or interval by interval on domains with holes.
-/

namespace Gcs
open IntervalSet

section
variable {σ μ : Type} {n m : Nat} {R : Err → Prop} {root : Doms} {v1 v2 : VarId}

/-- C37, C47: `v1 = v2`, reified by any of the five conditions (`Equals`, `EqualsIf`, `EqualsIff`, and so on). -/
theorem equals_right (ho : R .overflow) (hd : DomsOK root) (hl : root.length = n) (h1 : v1.Valid n) (h2 : v2.Valid n) {r : Reif} (hr : r.Valid n) :
    (Posted.mk (Equals.install (σ := σ) (μ := μ) v1 v2 r) (fun a => r.holds (fun a => v1.eval a = v2.eval a) a) ([v1, v2] ++ r.vars)).Right n m R root (· = .overflow) :=
  Equals.install_right ho hd hl h1 h2 hr

/-- C37: `NotEquals`. -/
theorem notEquals_right (ho : R .overflow) (hd : DomsOK root) (hl : root.length = n) (h1 : v1.Valid n) (h2 : v2.Valid n) :
    (Posted.mk (Equals.notEquals (σ := σ) (μ := μ) v1 v2) (fun a => v1.eval a ≠ v2.eval a) [v1, v2]).Right n m R root
      (fun e => e = .overflow ∨ e = .invalidProblem ∧ v1 = v2 ∧ v1.isConst = false) :=
  right_guard (fun _ => rfl) (equals_right ho hd hl h1 h2 (r := .mustNotHold) trivial)

/-- C37: `NotEqualsIff`: the condition holds exactly if the values differ. -/
theorem notEqualsIff_right (ho : R .overflow) (hd : DomsOK root) (hl : root.length = n) (h1 : v1.Valid n) (h2 : v2.Valid n) {c : Cond} (hc : (Lit.cond c).Valid n) (hr : (Lit.cond c).RangeOK) :
    (Posted.mk (Equals.notEqualsIff (σ := σ) (μ := μ) v1 v2 c) (fun a => c.holds a ↔ v1.eval a ≠ v2.eval a) [v1, v2, c.not.var]).Right n m R root (· = .overflow) := by
  have e : (fun a : Asg => c.holds a ↔ v1.eval a ≠ v2.eval a) = fun a => Reif.holds (fun a => v1.eval a = v2.eval a) a (.iffCond c.not) := by
    funext a
    show _ = (c.not.holds a ↔ v1.eval a = v2.eval a)
    rw [Cond.not_holds]
    by_cases h1 : c.holds a <;> by_cases h2 : v1.eval a = v2.eval a <;> simp [h1, h2]
  rw [e]
  exact equals_right (r := .iffCond c.not) ho hd hl h1 h2 ⟨Lit.Valid.not (l := .cond c) hc, Lit.RangeOK.not (l := .cond c) hr⟩

/-! Concrete cases. The first variable is one of `0, 2, 3`, the second one of `1, 2, 5`. -/

def Equals.doms : Doms := [[(0, 0), (2, 3)], [(1, 2), (5, 5)], [(0, 1)]]

example : DomsOK Equals.doms := by decide +kernel
example : (Reif.notIf (Cond.lt (.simple 2) 1)).Valid 3 := by decide
example : ∃ f, Equals.notEqualsIff (σ := Unit) (μ := Unit) (.simple 0) (.view 1 true 2) (Cond.eq (.simple 2) 1) Equals.doms =
    .ok [.prop f { onChange := [.simple 0, .view 1 true 2, .simple 2] }] := ⟨_, rfl⟩

end
end Gcs
