import Verif.Lemmas.Cons.Increasing
import Verif.Lemmas.Decide

/-!
# C41: sequences in order

For the constraints of `gcs/constraints/increasing.hh`.
-/

namespace Gcs
open IntervalSet

section
variable {σ μ : Type} {n m : Nat} {R : Err → Prop} {root : Doms} {vars : List VarId}

/-- C41: `Increasing`: no variable is greater than a later one. Posting never throws. -/
theorem increasing_right (ho : R .overflow) (hv : ∀ v ∈ vars, v.Valid n) :
    (Posted.mk (Increasing.install (σ := σ) (μ := μ) vars false false) (fun a => (vars.map (·.eval a)).Pairwise (· ≤ ·)) vars).Right n m R root (fun _ => False) := by
  have h := Increasing.install_right (σ := σ) (μ := μ) (m := m) (root := root) (strict := false) (descending := false) ho hv
  simpa [Increasing.Chain] using h

/-- C41: `StrictlyIncreasing`. -/
theorem strictlyIncreasing_right (ho : R .overflow) (hv : ∀ v ∈ vars, v.Valid n) :
    (Posted.mk (Increasing.install (σ := σ) (μ := μ) vars true false) (fun a => (vars.map (·.eval a)).Pairwise (· < ·)) vars).Right n m R root (fun _ => False) := by
  have h := Increasing.install_right (σ := σ) (μ := μ) (m := m) (root := root) (strict := true) (descending := false) ho hv
  have e : ∀ a : Asg, (vars.map (·.eval a)).Pairwise (fun x y => x + 1 ≤ y) ↔ (vars.map (·.eval a)).Pairwise (· < ·) := fun a => List.Pairwise.iff (fun x y => Int.add_one_le_iff)
  simpa [Increasing.Chain, e] using h

/-- C41: `Decreasing`. -/
theorem decreasing_right (ho : R .overflow) (hv : ∀ v ∈ vars, v.Valid n) :
    (Posted.mk (Increasing.install (σ := σ) (μ := μ) vars false true) (fun a => (vars.map (·.eval a)).Pairwise (· ≥ ·)) vars).Right n m R root (fun _ => False) := by
  have h := Increasing.install_right (σ := σ) (μ := μ) (m := m) (root := root) (strict := false) (descending := true) ho hv
  simpa [Increasing.Chain, List.map_reverse, List.pairwise_reverse] using h

/-- C41: `StrictlyDecreasing`. -/
theorem strictlyDecreasing_right (ho : R .overflow) (hv : ∀ v ∈ vars, v.Valid n) :
    (Posted.mk (Increasing.install (σ := σ) (μ := μ) vars true true) (fun a => (vars.map (·.eval a)).Pairwise (· > ·)) vars).Right n m R root (fun _ => False) := by
  have h := Increasing.install_right (σ := σ) (μ := μ) (m := m) (root := root) (strict := true) (descending := true) ho hv
  have e : ∀ a : Asg, (vars.map (·.eval a)).Pairwise (fun x y => y + 1 ≤ x) ↔ (vars.map (·.eval a)).Pairwise (· > ·) := fun a => List.Pairwise.iff (fun x y => Int.add_one_le_iff)
  simpa [Increasing.Chain, List.map_reverse, List.pairwise_reverse, e] using h

/-! A concrete case: three variables and two views, one of them on a variable that is also used directly. -/

example : ∀ v ∈ [VarId.simple 0, .view 1 true 9, .simple 2, .view 0 false 4], v.Valid 3 := by decide
example : ∃ f, Increasing.install (σ := Unit) (μ := Unit) [.simple 0, .view 1 true 9, .simple 2, .view 0 false 4] true true [[(0, 9)], [(0, 9)], [(0, 9)]]
    = .ok [.prop f { onBounds := [.view 0 false 4, .simple 2, .view 1 true 9, .simple 0] }] := ⟨_, rfl⟩
/-- Some assignments are solutions and some are not. -/
example : ([VarId.simple 0, .view 1 true 9, .simple 2].map (·.eval fun i => [3, 5, 6].getD i 0)).Pairwise (· < ·) := by decide
example : ¬ ([VarId.simple 0, .view 1 true 9, .simple 2].map (·.eval fun i => [3, 7, 6].getD i 0)).Pairwise (· < ·) := by decide

end
end Gcs
