import Verif.Spec.Sort

/-!
# What ArgSort means (`gcs/constraints/sort/arg_sort.hh:15-18`)
-/

namespace Gcs

/-- `ps` is the stable sorting permutation of `xs`, with places counted from `off` on: every place is there once, what is at one of them is no greater than what is at the next, and equal things are in their order. -/
structure ArgSorts (off : Int) (xs ps : List Int) : Prop where
  perm : ps.Perm ((List.range xs.length).map fun (k : Nat) => off + (k : Int))
  sorted : ∀ (j k k' : Nat), ps[j]? = some (off + k) → ps[j + 1]? = some (off + k') → ∀ v v', xs[k]? = some v → xs[k']? = some v' → v ≤ v' ∧ (v = v' → k < k')

end Gcs
