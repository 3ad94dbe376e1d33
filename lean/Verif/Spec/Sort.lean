import Verif.Spec.Reified

/-!
# What Sort means
-/

namespace Gcs

/-- The second list is the first one, sorted (gcs/constraints/sort/sort.hh:14-15): it has the same values, each as often, and they do not decrease. -/
def Sorts (xs ys : List Int) : Prop := ys.Perm xs ∧ ys.Pairwise (· ≤ ·)

end Gcs
