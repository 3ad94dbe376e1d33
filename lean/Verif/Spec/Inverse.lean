import Verif.Spec.Semantics

namespace Gcs

/-- `x[i] = j` exactly if `y[j] = i`, where `x` is indexed from `xStart` on and `y` from `yStart` on, and the values of each list are indices of the other. -/
structure Inverses (x y : List VarId) (xStart yStart : Int) (a : Asg) : Prop where
  left : ∀ v ∈ x, yStart ≤ v.eval a ∧ v.eval a < yStart + y.length
  right : ∀ w ∈ y, xStart ≤ w.eval a ∧ w.eval a < xStart + x.length
  iff : ∀ (i j : Nat) (v w : VarId), x[i]? = some v → y[j]? = some w → (v.eval a = yStart + j ↔ w.eval a = xStart + i)

end Gcs
