import Verif.Spec.Reified

/-!
# What MinDistance means
-/

namespace Gcs

/-- The entry of a matrix in row `a` and column `b`. -/
def entry (D : List (List Int)) (a b : Int) : Int := (D.getD a.toNat []).getD b.toNat 0

/-- A matrix of distances between `n` sites (gcs/constraints/min_distance/min_distance.hh:72-75). -/
structure Distances (D : List (List Int)) : Prop where
  some : D ≠ []
  square : ∀ row ∈ D, row.length = D.length
  zero : ∀ a : Nat, a < D.length → entry D a a = 0
  nonneg : ∀ a b : Nat, a < D.length → b < D.length → 0 ≤ entry D a b
  symm : ∀ a b : Nat, a < D.length → b < D.length → entry D a b = entry D b a

/-- A matrix of the distances that `p` points have to have at least; only what is above the diagonal matters. -/
structure Requirements (p : Nat) (Q : List (List Int)) : Prop where
  rows : Q.length = p
  square : ∀ row ∈ Q, row.length = p
  nonneg : ∀ i j : Nat, i < j → j < p → 0 ≤ entry Q i j

/-- `z` is the smallest distance between two of the chosen sites `xs`, and no two of them are closer than they have to be (gcs/constraints/min_distance/min_distance.hh:52-70). -/
structure Spread (D : List (List Int)) (Q : Option (List (List Int))) (xs : List Int) (z : Int) : Prop where
  sites : ∀ x ∈ xs, 0 ≤ x ∧ x < D.length
  least : ∀ (i j : Nat) x y, i < j → xs[i]? = some x → xs[j]? = some y → z ≤ entry D x y
  attained : ∃ (i j : Nat) (x y : Int), i < j ∧ xs[i]? = some x ∧ xs[j]? = some y ∧ entry D x y = z
  apart : ∀ q, Q = some q → ∀ (i j : Nat) x y, i < j → xs[i]? = some x → xs[j]? = some y → entry q i j ≤ entry D x y

end Gcs
