import Verif.Model.Cons.Linear
import Verif.Spec.Semantics

namespace Gcs

/-- The value of a sum of variables with coefficients. -/
def wsum (terms : List WTerm) (a : Asg) : Int := (terms.map fun t => t.1 * t.2.eval a).sum

end Gcs
