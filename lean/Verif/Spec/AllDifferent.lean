import Verif.Spec.Semantics

/-!
# What all-different constraints mean
-/

namespace Gcs

/-- No two of the variables have the same value, except for values in `excluded`. -/
def DifferExcept (vars : List VarId) (excluded : List Int) (a : Asg) : Prop :=
  ∀ (i j : Nat) (x y : VarId), vars[i]? = some x → vars[j]? = some y → i ≠ j → x.eval a = y.eval a → x.eval a ∈ excluded

end Gcs
