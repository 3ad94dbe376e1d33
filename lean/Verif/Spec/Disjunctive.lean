/-!
# What Disjunctive is about, without the solver
-/

namespace Gcs

/-- Something that is done from `start` on, and takes `length`. -/
structure Stretch where
  start : Int
  length : Int
deriving DecidableEq

/-- One has ended before the other begins. -/
def Stretch.Apart (r s : Stretch) : Prop := r.start + r.length ≤ s.start ∨ s.start + s.length ≤ r.start

/-- Only one thing is done at a time. Unless `strict`, what takes no time does not count (gcs/constraints/disjunctive/disjunctive.hh). -/
def OneAtATime (strict : Bool) (ss : List Stretch) : Prop := ss.Pairwise fun r s => (strict = false ∧ (r.length = 0 ∨ s.length = 0)) ∨ r.Apart s

end Gcs
