import Verif.Spec.Reified

/-!
# What Knapsack means
-/

namespace Gcs

/-- For every row of coefficients, the sum of the products with the values is the total (gcs/constraints/knapsack/knapsack.hh:36-37). -/
def Packs (coeffs : List (List Int)) (vals totals : List Int) : Prop :=
  ∀ (x : Nat) (row : List Int) (t : Int), coeffs[x]? = some row → totals[x]? = some t → (List.zipWith (· * ·) row vals).sum = t

/-- What a knapsack has to be given: as many rows as totals, at least one, all of them as long as there are variables, and with no negative entries. -/
structure Items (coeffs : List (List Int)) (vars totals : Nat) : Prop where
  rows : coeffs.length = totals
  some : coeffs ≠ []
  long : ∀ row ∈ coeffs, row.length = vars
  nonneg : ∀ row ∈ coeffs, ∀ c ∈ row, 0 ≤ c

end Gcs
