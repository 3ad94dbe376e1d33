import Verif.Lemmas.Cons.Counting
import Verif.Lemmas.Cons.NValue
import Verif.Lemmas.Cons.In
import Verif.Lemmas.Cons.Among
import Verif.Props.Cons.Run

/-!
# C41: counting and membership

`AtMostOne`, `In`, `Count` and `NValue` are right. `Among` is not: it works out which variables have one of the values, may count, may not, and then removes values from one variable after the other,
looking at each only when it gets to it. By then earlier removals may have decided it, if it is about the same variable as an earlier one or as the count. It is then passed over, and the propagator is switched off.
-/

namespace Gcs
open IntervalSet

section
variable {σ μ : Type} {n m : Nat} {R : Err → Prop} {root d : Doms} {vars : List VarId} {vals : List Int} {var val many : VarId}

/-- C41: `AtMostOne(vars, val)`: at most one of the variables has the value of `val`. Posting never throws. -/
theorem atMostOne_right (ho : R .overflow) (hv : ∀ v ∈ vars, v.Valid n) (hval : val.Valid n) :
    (Posted.mk (AtMostOne.install (σ := σ) (μ := μ) vars val) (fun a => vars.countP (fun x => x.eval a = val.eval a) ≤ 1) (vars ++ [val])).Right n m R root (fun _ => False) :=
  AtMostOne.install_right ho hv hval

/-- C41: `In(var, vars, vals)`: the value of `var` is one of `vals` or the value of one of `vars`. If there are none, the problem is unsatisfiable. -/
theorem in_right (ho : R .overflow) (hvar : var.Valid n) (hv : ∀ v ∈ vars, v.Valid n) (hvals : ∀ x ∈ vals, InI64 x) :
    (Posted.mk (InSet.install (σ := σ) (μ := μ) var vars vals) (fun a => var.eval a ∈ vals ∨ ∃ x ∈ vars, x.eval a = var.eval a) (var :: vars)).Right n m R root (fun _ => False) :=
  InSet.install_right ho hvar hv hvals

/-- C41: `Count(vars, val, many)`: `many` of the variables have the value of `val`. -/
theorem count_right (ho : R .overflow) (hv : ∀ v ∈ vars, v.Valid n) (hval : val.Valid n) (hm : many.Valid n) :
    (Posted.mk (Count.install (σ := σ) (μ := μ) vars val many) (fun a => many.eval a = vars.countP (fun x => x.eval a = val.eval a)) (vars ++ [val, many])).Right n m R root (fun _ => False) :=
  Count.install_right ho hv hval hm

/-- C41: `NValue(many, vars)`: the variables have `many` different values. Posting throws if a value is not a 64-bit integer. -/
theorem nValue_right (ho : R .overflow) (hd : DomsOK root) (hv : ∀ v ∈ vars, v.Valid root.length) (hm : many.Valid root.length) :
    (Posted.mk (NValue.install (σ := σ) (μ := μ) many vars) (fun a => many.eval a = distinct (vars.map (·.eval a))) (many :: vars)).Right root.length m R root (· = .overflow) :=
  NValue.install_right ho hd hv hm

/-- C41 for `Among(vars, vals, many)`, in part: `many` of the variables have one of the values. Missing: members about one variable, and members about the variable of the count, for which it is false
(`among_reports_too_many`, `among_reports_too_few`, `among_counts_itself`). -/
theorem among_right_partial (ho : R .overflow) (hv : ∀ v ∈ vars, v.Valid n) (hm : many.Valid n) (hvals : ∀ y ∈ vals, InI64 y)
    (h1 : ∀ v ∈ vars, ∀ w ∈ vars, ∀ i, v.underlyingIndex = some i → w.underlyingIndex = some i → v = w) (h2 : ∀ v ∈ vars, ∀ i, many.underlyingIndex = some i → v.underlyingIndex ≠ some i) :
    (Posted.mk (Among.install (σ := σ) (μ := μ) vars vals many) (fun a => many.eval a = vars.countP (fun x => x.eval a ∈ vals)) (vars ++ [many])).Right n m R root (fun _ => False) :=
  Among.install_right ho hv hm hvals ⟨h1, h2⟩

/-- C41 for `Among`, in part: whatever the members are about, no solution is lost, nothing but overflow is thrown (in particular not the `UnexpectedException`s), and the count is right if all variables
were fixed when the propagator ran. -/
theorem among_sound_partial (ho : R .overflow) (hv : ∀ v ∈ vars, v.Valid n) (hm : many.Valid n) (hvals : ∀ y ∈ vals, InI64 y) (hd : DomsOK d) (hl : d.length = n) :
    (Among.prop (σ := σ) (μ := μ) vars vals many).Ver { n, m, R, C := fun a => Within root a ∧ many.eval a = vars.countP (fun x => x.eval a ∈ vals) } (fun _ => True)
      (fun ps d' => ((∀ x ∈ vars ++ [many], Known d x) → ∀ a, Within d' a → many.eval a = vars.countP (fun x => x.eval a ∈ vals)) ∧ ps ≠ .enableButIdempotent) d :=
  ver_mono (fun _ _ hq => ⟨hq.1, hq.2.1⟩) _ _ (Among.prop_partial ho hv hm hvals hd hl)

end

/-- C41 fails: with `x` 0 or 1, `Among({x, x - 1}, {0}, 0)` has no solution, as one of the two is 0; `x = 1` is reported. -/
theorem among_reports_too_many : Run.run [[(0, 1)]] [Among.install [.simple 0, .view 0 false (-1)] [0] (.const 0)] = some ([[[(1, 1)]]], true) := by decide +kernel

/-- C41 fails: with `x` 0 or 1, `Among({x, x - 1}, {0}, 2)` has no solution, as the two cannot both be 0; `x = 0` is reported. -/
theorem among_reports_too_few : Run.run [[(0, 1)]] [Among.install [.simple 0, .view 0 false (-1)] [0] (.const 2)] = some ([[[(0, 0)]]], true) := by decide +kernel

/-- C41 fails, without views: with `x` 0 or 1, `Among({x, 1}, {1}, x)` has no solution, as `x = 1` makes two; `x = 1` is reported. -/
theorem among_counts_itself : Run.run [[(0, 1)]] [Among.install [.simple 0, .const 1] [1] (.simple 0)] = some ([[[(1, 1)]]], true) := by decide +kernel

/-! Concrete cases of the hypotheses, each with an assignment that satisfies the constraint and one that does not. -/

example : (∀ v ∈ [VarId.simple 0, .view 1 true 3, .simple 2, .const 4], v.Valid 4) ∧ VarId.Valid 4 (.simple 3) := by decide
example : [VarId.simple 0, .view 1 true 3, .simple 2].countP (fun x => x.eval (fun i => [5, 1, 2, 2].getD i 0) = (VarId.simple 3).eval (fun i => [5, 1, 2, 2].getD i 0)) = 2 := by decide
example : [VarId.simple 0, .view 1 true 3, .simple 2].countP (fun x => x.eval (fun i => [5, 1, 3, 2].getD i 0) = (VarId.simple 3).eval (fun i => [5, 1, 3, 2].getD i 0)) = 1 := by decide
example : distinct ([VarId.simple 0, .view 1 true 3, .simple 2, .const 4].map (·.eval fun i => [5, 1, 2, 2].getD i 0)) = 3 := by decide
example : DomsOK [[(0, 4)], [(2, 6)], [(3, 9)]] ∧ (∀ v ∈ [VarId.simple 0, .view 1 false 1], v.Valid 3) ∧ VarId.Valid 3 (.simple 2) := by decide +kernel
example : (∀ v ∈ [VarId.simple 0, .view 1 false 1], ∀ w ∈ [VarId.simple 0, .view 1 false 1], ∀ i, v.underlyingIndex = some i → w.underlyingIndex = some i → v = w) ∧
    ∀ v ∈ [VarId.simple 0, .view 1 false 1], ∀ i, (VarId.simple 2).underlyingIndex = some i → v.underlyingIndex ≠ some i := by
  simp [VarId.underlyingIndex]
/-- The propagators do enforce something: these are all the solutions. -/
example : Run.run [[(0, 2)], [(1, 2)], [(0, 3)]] [Among.install [.simple 0, .simple 1] [1] (.simple 2), AtMostOne.install [.simple 0, .simple 1, .simple 2] (.const 1)] =
    some ([[[(0, 0)], [(2, 2)], [(0, 0)]], [[(2, 2)], [(2, 2)], [(0, 0)]]], true) := by decide +kernel
example : Run.run [[(0, 3)], [(1, 2)], [(0, 2)]] [Count.install [.simple 0, .simple 1, .const 2] (.simple 2) (.const 2), InSet.install (.simple 0) [.simple 1] [7, 0], NValue.install (.const 2) [.simple 0, .simple 1, .simple 2]] =
    some ([[[(0, 0)], [(2, 2)], [(2, 2)]]], true) := by decide +kernel

end Gcs
