import Verif.Model.Cons.MakespanEnergy

/-!
# What is wanted of a bound on a makespan
-/

namespace Gcs.Makespan

open Gcs.Cumulative (times)

/-- At how many time points of a window a task with that start and length runs. -/
def overlap (length lo hi s : Int) : Int := ((times lo hi).countP fun t => decide (s ≤ t ∧ t < s + length) : Nat)

/-- A schedule: the tasks, each with its start. -/
abbrev Schedule := List (Task × Int)

/-- How much is used at a time. -/
def Schedule.use (σ : Schedule) (t : Int) : Int := (σ.map fun k => if k.2 ≤ t ∧ t < k.2 + k.1.length then k.1.height else 0).sum

/-- How much is used in a window. -/
def Schedule.used (σ : Schedule) (lo hi : Int) : Int := (σ.map fun k => k.1.height * overlap k.1.length lo hi k.2).sum

/-- Starts are within their bounds, and linked rows `makespan - start >= bound` hold. -/
def Schedule.Meets (σ : Schedule) (makespan : Int) : Prop :=
  ∀ k ∈ σ, k.1.startLb ≤ k.2 ∧ k.2 ≤ k.1.startUb ∧ ∀ b, k.1.link = some b → b ≤ makespan - k.2

/-- How many of the times from `lo`, before `hi`, are in one of the windows. -/
def slots (windows : List (Int × Int)) (lo hi : Int) : Int := ((times lo hi).countP fun t => windows.any fun w => decide (w.1 ≤ t ∧ t ≤ w.2) : Nat)

/-- The vector counts the times in windows, as `time_slot_prefix` does (gcs/constraints/cumulative/cumulative.cc:320-347, which is modelled in `Gcs.Cumulative`). -/
def SlotCounts (windows : List (Int × Int)) (lo : Int) (pre : List Int) : Prop := ∀ (k : Nat) (h : k < pre.length), pre[k] = slots windows lo (lo + k)

/-- What is known of a task: its window, which is one of the windows and does not begin before `lo`, has room for all starts within its bounds. -/
structure Task.Proper (windows : List (Int × Int)) (lo : Int) (k : Task) : Prop where
  height : 0 ≤ k.height
  window : (k.tLo, k.tHi) ∈ windows
  after : lo ≤ k.tLo
  some : k.startLb ≤ k.startUb
  first : k.tLo ≤ k.startLb
  last : k.startUb + k.length - 1 ≤ k.tHi

end Gcs.Makespan
