import Verif.Lemmas.Cons.GlobalCardinalityGacRight
import Verif.Props.Cons.GlobalCardinality

/-!
# C51: GlobalCardinality, generalised arc consistent
-/

namespace Gcs
open IntervalSet GlobalCardinality

section
variable {σ μ : Type} {n m : Nat} {R : Err → Prop} {root : Doms} {vars counts : List VarId} {values : List Int} {closed : Bool}

/-- C51: `GlobalCardinality` with `consistency::GAC` is right for different values, which have to be in order unless it is closed: whatever flow is found, no solution is lost, no other assignment is accepted, the search for a reason does not throw
`UnexpectedException`, and all loops end. Missing: values that are not in order (`globalCardinality_gac_unsorted_wrong`) or not different (`globalCardinality_gac_twice_wrong`), for which this is false. -/
theorem globalCardinality_gac_right_partial (ho : R .overflow) (hv : ∀ x ∈ vars, x.Valid n) (hc : ∀ x ∈ counts, x.Valid n) (hI : ∀ v ∈ values, InI64 v) (hn : values.Nodup)
    (hs : closed = false → values.Pairwise (· ≤ ·)) (hlen : values.length ≤ counts.length) :
    (Posted.mk (GlobalCardinality.Gac.install (σ := σ) (μ := μ) vars values counts closed) (Meets vars values counts closed) (vars ++ counts)).Right n m R root (fun _ => False) := by
  have e : Meets vars values counts closed = fun a => GlobalCardinality.Tally vars (values.zip counts) a ∧ (closed = true → ∀ x ∈ vars, x.eval a ∈ values) := funext fun a => by rw [Meets, tally_iff]
  rw [e]
  exact GlobalCardinality.Gac.install_right ho hv hc hI hn hs hlen

end

namespace GlobalCardinality.Demo

example : (Posted.mk (GlobalCardinality.Gac.install (σ := Unit) (μ := Unit) vars [1, 2] counts false) (Meets vars [1, 2] counts false) (vars ++ counts)).Right 3 0 (· = .overflow) root (fun _ => False) :=
  globalCardinality_gac_right_partial rfl (by decide) (by decide) (by decide) (by decide) (by decide) (by decide)
example : (Posted.mk (GlobalCardinality.Gac.install (σ := Unit) (μ := Unit) vars values counts true) (Meets vars values counts true) (vars ++ counts)).Right 3 0 (· = .overflow) root (fun _ => False) :=
  globalCardinality_gac_right_partial rfl (by decide) (by decide) (by decide) (by decide) (by decide) (by decide)

/-- Three variables for two values that can be used once each, and one of the variables has another value: 3 is left for it, before any guess. -/
example : Run.run [[(1, 2)], [(1, 2)], [(1, 3)]] [GlobalCardinality.Gac.install [.simple 0, .simple 1, .simple 2] [1, 2] [.const 1, .const 1] false] =
    some ([[[(1, 1)], [(2, 2)], [(3, 3)]], [[(2, 2)], [(1, 1)], [(3, 3)]]], true) := by decide +kernel
/-- Too many variables, too few variables. -/
example : Run.run [[(1, 2)], [(1, 2)], [(1, 2)]] [GlobalCardinality.Gac.install [.simple 0, .simple 1, .simple 2] [1, 2] [.const 1, .const 1] false] = some ([], true) := by decide +kernel
example : Run.run [[(1, 3)], [(1, 2)]] [GlobalCardinality.Gac.install [.simple 0, .simple 1] [1, 2, 3] [.const 1, .const 1, .const 1] true] = some ([], true) := by decide +kernel

end GlobalCardinality.Demo

/-- C51: with `consistency::GAC` the values are not sorted when the constraint is copied, but they are searched by bisection. With 2 before 1, a variable that is 1 is a solution, and the search says that there is none. -/
theorem globalCardinality_gac_unsorted_wrong : (∀ a : Asg, a 0 = 1 → Meets [.simple 0] [2, 1] [.const 0, .const 1] false a) ∧
    Run.run [[(1, 2)]] [GlobalCardinality.Gac.install [.simple 0] [2, 1] [.const 0, .const 1] false] = some ([], true) ∧
    Run.run [[(1, 2)]] [GlobalCardinality.Gac.install [.simple 0] [1, 2] [.const 1, .const 0] false] = some ([[[(1, 1)]]], true) := by
  refine ⟨fun a h => ?_, by decide +kernel, by decide +kernel⟩
  rw [Meets, ← tally_iff]
  refine ⟨?_, (fun h => nomatch h)⟩
  rintro p hp
  have hp : p = (2, .const 0) ∨ p = (1, .const 1) := by simpa using hp
  rcases hp with rfl | rfl <;> simp [VarId.eval, cnt, h]

/-- C51: a value that occurs twice is demanded twice at this level, too. -/
theorem globalCardinality_gac_twice_wrong : (∀ a : Asg, a 0 = 1 → Meets [.simple 0] [1, 1] [.const 1, .const 1] false a) ∧
    Run.run [[(1, 1)]] [GlobalCardinality.Gac.install [.simple 0] [1, 1] [.const 1, .const 1] false] = some ([], true) := ⟨globalCardinality_twice_wrong.1, by decide +kernel⟩

end Gcs
