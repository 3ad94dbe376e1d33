/-!
# Counting different values
-/

namespace Gcs

/-- The number of different values in a list. -/
def distinct : List Int → Nat
  | [] => 0
  | x :: xs => if x ∈ xs then distinct xs else distinct xs + 1

end Gcs
