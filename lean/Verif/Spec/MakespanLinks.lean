import Verif.Model.Cons.MakespanLinks
import Verif.Spec.Semantics

/-!
# What is wanted of links to a makespan
-/

namespace Gcs.Makespan

/-- What a row that must hold says; of others nothing is assumed here. -/
def Row.Holds (a : Asg) (c : Row) : Prop := c.reif = .mustHold → (c.terms.map fun t => t.1 * t.2.eval a).sum ≤ c.value

/-- The row says `makespan - start >= bound`, and no more than that. -/
structure Row.Links (makespan : VarId) (i : Nat) (bound : Int) (c : Row) : Prop where
  reif : c.reif = .mustHold
  terms : c.terms = [(1, .simple i), (-1, makespan)] ∨ c.terms = [(-1, makespan), (1, .simple i)]
  value : c.value = -bound

end Gcs.Makespan
