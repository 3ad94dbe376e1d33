import Verif.Model.Cons.Cumulative
import Verif.Model.Queue

/-!
# Bounds on a makespan from the energy of tasks

`makespan_energy_bound` (gcs/constraints/innards/makespan_energy.cc:59-89), which a derived Cumulative asks for the makespan to infer (gcs/constraints/cumulative/derived_cumulative.cc:299-365), with `window_energy_bound` (gcs/constraints/innards/window_energy.cc:185-189). An `Integer` operation that overflows throws an exception; here there is no overflow. The lines of the proof are not here.
-/

namespace Gcs.Makespan

open Gcs.Cumulative (times)

/-- `EnergyTask`, without what is there for proofs only (gcs/constraints/innards/makespan_energy.hh:125-154). `link` is the `bound` of the `MakespanLink`, if there is one. -/
structure Task where
  length : Int
  height : Int
  tLo : Int
  tHi : Int
  startLb : Int
  startUb : Int
  link : Option Int

/-- `window_energy_bound`, which is the `bound` of `shape_of` (gcs/constraints/innards/window_energy.cc:56-76 and :185-189). -/
def windowEnergyBound (length flagsLo : Int) (flagsSize : Nat) (lo hi : Int) (startBounds : Int × Int) : Int :=
  let a := max lo flagsLo
  let b := min hi (flagsLo + flagsSize)
  if b ≤ a ∨ length ≤ 0 then 0
  else
    let count := min length (b - a)
    let uLo := a - length + 1
    let vLo := max a (b - length) + 1
    let keptU := min (max 0 (startBounds.1 - uLo + 1)) count
    let lostV := min (max 0 (startBounds.2 - vLo + 1)) count
    keptU - lostV

/-- The `at` of `slots_within` (gcs/constraints/innards/makespan_energy.cc:34-37). -/
def slotAt (pre : List Int) (lo t : Int) : Chk Int := vecAt pre (max 0 (min (t - lo) ((pre.length : Int) - 1))).toNat

/-- `slots_within` (gcs/constraints/innards/makespan_energy.cc:32-39). -/
def slotsWithin (pre : List Int) (lo first last : Int) : Chk Int := do
  let x ← slotAt pre lo last
  let y ← slotAt pre lo first
  return x - y

/-- `start_bounds_within` (gcs/constraints/innards/makespan_energy.cc:45-48). -/
def Task.startBounds (k : Task) (hi : Int) : Int × Int :=
  (k.startLb, match k.link with
    | some bound => min k.startUb (hi - bound)
    | none => k.startUb)

/-- `energy_within` (gcs/constraints/innards/makespan_energy.cc:52-56). -/
def Task.energyWithin (k : Task) (lo hi : Int) : Int := windowEnergyBound k.length k.tLo (max 0 (k.tHi - k.tLo + 1)).toNat lo hi (k.startBounds hi)

/-- The loop over tasks (gcs/constraints/innards/makespan_energy.cc:76-78). -/
def energy (lo hi : Int) (ks : List Task) : Int := ks.foldl (fun e k => e + k.height * k.energyWithin lo hi) 0

/-- `MakespanBound` (gcs/constraints/innards/makespan_energy.hh:162-176). -/
structure Bound where
  bound : Int
  lo : Int
  hi : Int
  widerSuppliesMore : Bool
  deriving DecidableEq

/-- The body of the loop over `mu` (gcs/constraints/innards/makespan_energy.cc:72-86). -/
def step (ks : List Task) (capacity : Int) (pre : List Int) (lo known : Int) (best : Option Bound) (mu : Int) : Chk (Option Bound) :=
  if mu + 1 ≤ known then .ok best
  else do
    let slots ← slotsWithin pre lo lo mu
    if energy lo mu ks > capacity * slots then
      let wider ← slotsWithin pre lo lo (mu + 1)
      return some ⟨mu + 1, lo, mu, decide (wider > slots)⟩
    else return best

/-- `makespan_energy_bound` (gcs/constraints/innards/makespan_energy.cc:59-89). -/
def makespanEnergyBound (ks : List Task) (capacity : Int) (pre : List Int) (lo known upTo : Int) : Chk (Option Bound) :=
  if ks = [] ∨ capacity ≤ 0 ∨ pre.length < 2 then .ok none
  else (times lo (min upTo (lo + ((pre.length : Int) - 1)) + 1)).foldlM (step ks capacity pre lo known) none

/-- What the presolver makes of the links before it asks (gcs/constraints/cumulative/derived_cumulative.cc:331-335). -/
def knownBound (makespanLo : Int) (ks : List Task) : Int :=
  ks.foldl (fun known k => match k.link with
    | some bound => max known (k.startLb + bound)
    | none => known) makespanLo

end Gcs.Makespan
