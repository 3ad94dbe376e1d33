/-!
# What Cumulative is about, without the solver
-/

namespace Gcs

/-- A task that runs at the times `start`, ..., `start + length - 1`, and uses `height` of the resource at each of them. -/
structure Activity where
  start : Int
  length : Int
  height : Int
deriving DecidableEq

/-- Whether it runs at the time `t`. -/
def Activity.Runs (j : Activity) (t : Int) : Prop := j.start ≤ t ∧ t < j.start + j.length

instance (j : Activity) (t : Int) : Decidable (j.Runs t) := by unfold Activity.Runs; infer_instance

/-- What is used of the resource at the time `t`. -/
def usage (js : List Activity) (t : Int) : Int := ((js.filter fun j => j.Runs t).map (·.height)).sum

/-- There is always enough of the resource. -/
def Supplied (js : List Activity) (capacity : Int) : Prop := ∀ t, usage js t ≤ capacity

end Gcs
