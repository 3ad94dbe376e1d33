import Verif.Model.Propagate
import Verif.Model.Queue

/-!
# Weighted degrees (`gcs/variable_weighting.cc`)

Doubles are rational numbers here: nothing is rounded, and nothing is infinite. Constraint identities are natural numbers. Maps are lists of pairs; the order is not that of the code, but nothing below depends on it.
-/

namespace Gcs

/-- A map to weights. -/
abbrev Weights (κ : Type) := List (κ × Rat)

namespace Weights
variable {κ : Type} [DecidableEq κ]

/-- `find`. -/
def get : Weights κ → κ → Option Rat
  | [], _ => none
  | (k, v) :: m, x => if k = x then some v else get m x

/-- `m[x] = w`. -/
def put : Weights κ → κ → Rat → Weights κ
  | [], x, w => [(x, w)]
  | (k, v) :: m, x, w => if k = x then (x, w) :: m else (k, v) :: put m x w

end Weights

/-- gcs/variable_weighting.hh:96-98. -/
structure WeightingState where
  ofConstraint : Weights Nat := []
  ofLocal : Weights (Nat × Nat) := []

/-- gcs/variable_weighting.hh:43-48. -/
inductive MergePolicy
  | sum
  | max
  | average
  deriving DecidableEq

namespace WeightingState
open Weights

/-- gcs/variable_weighting.cc:38-42. -/
def weightOf (s : WeightingState) (c : Nat) : Rat := (get s.ofConstraint c).getD 0

/-- gcs/variable_weighting.cc:44-50. -/
def optionalWeightOf (s : WeightingState) (c : Nat) : Option Rat := get s.ofConstraint c

/-- gcs/variable_weighting.cc:52-55. -/
def setWeight (s : WeightingState) (c : Nat) (w : Rat) : WeightingState := { s with ofConstraint := put s.ofConstraint c w }

/-- gcs/variable_weighting.cc:79-85. -/
def localWeightOf (s : WeightingState) (c x : Nat) : Option Rat := get s.ofLocal (c, x)

/-- gcs/variable_weighting.cc:87-90. -/
def setLocalWeight (s : WeightingState) (c x : Nat) (w : Rat) : WeightingState := { s with ofLocal := put s.ofLocal (c, x) w }

/-- `combine` (gcs/variable_weighting.cc:59-66). -/
def combine : MergePolicy → Rat → Rat → Rat
  | .sum, mine, theirs => mine + theirs
  | .max, mine, theirs => if mine < theirs then theirs else mine
  | .average, mine, theirs => (mine + theirs) / 2

/-- One of the loops at gcs/variable_weighting.cc:68-71; `m[k]` makes an entry of 0 if there is none. -/
def mergeInto {κ : Type} [DecidableEq κ] (p : MergePolicy) : Weights κ → Weights κ → Weights κ
  | [], m => m
  | (k, theirs) :: r, m => mergeInto p r (put m k (combine p ((get m k).getD 0) theirs))

/-- gcs/variable_weighting.cc:57-72. -/
def merge (s other : WeightingState) (p : MergePolicy) : WeightingState := ⟨mergeInto p other.ofConstraint s.ofConstraint, mergeInto p other.ofLocal s.ofLocal⟩

end WeightingState

namespace Weighting

section
variable {σ μ : Type}

/-- The loop at gcs/variable_weighting.cc:123-128, 256-261: whether there are `k` more variables without a single value. -/
def enoughOpen (d : Doms) : Nat → List Nat → Chk Bool
  | 0, _ => .ok true
  | _ + 1, [] => .ok false
  | k + 1, v :: vs => do
    if ← hasSingleValue d (.simple v) then enoughOpen d (k + 1) vs
    else enoughOpen d k vs

/-- The loop at gcs/variable_weighting.cc:119-132, 255-267. `contribution` is what a constraint adds. -/
def total (E : Engine σ μ) (d : Doms) (contribution : Nat → Chk Rat) : List Nat → Rat → Chk Rat
  | [], t => .ok t
  | ci :: cs, t => do
    let scope ← vecAt E.constraintScope ci
    if ← enoughOpen d 2 scope then
      let w ← contribution ci
      total E d contribution cs (t + w)
    else total E d contribution cs t

/-- `weighted_degree_of` (gcs/variable_weighting.cc:107-133, 243-270). The contribution may depend on the variable. -/
def weightedDegree (E : Engine σ μ) (d : Doms) (contribution : Nat → Nat → Chk Rat) (v : VarId) : Chk Rat :=
  match v.underlyingIndex with
  | none => .ok 0
  | some i => total E d (fun ci => contribution ci i) (E.varConstraints[i]?.getD []) 0

namespace Dense

/-- gcs/variable_weighting.cc:97-100. -/
def new (E : Engine σ μ) (dflt : Rat) : List Rat := List.replicate E.constraintIds.length dflt

/-- The loop of `snapshot` (gcs/variable_weighting.cc:138-139), from `c` on. -/
def snapshotFrom (E : Engine σ μ) : Nat → List Rat → WeightingState → Chk WeightingState
  | _, [], s => .ok s
  | c, w :: ws, s => do
    let id ← vecAt E.constraintIds c
    snapshotFrom E (c + 1) ws (s.setWeight id w)

/-- gcs/variable_weighting.cc:135-141. -/
def snapshot (E : Engine σ μ) (ws : List Rat) : Chk WeightingState := snapshotFrom E 0 ws {}

/-- gcs/variable_weighting.cc:143-149. -/
def load (E : Engine σ μ) (dflt : Rat) (s : WeightingState) : List Rat := E.constraintIds.map fun id => (s.optionalWeightOf id).getD dflt

end Dense

namespace Classic

/-- gcs/variable_weighting.cc:151-153. -/
def new (E : Engine σ μ) : List Rat := Dense.new E 1

/-- gcs/variable_weighting.cc:155-158. -/
def note (ws : List Rat) (ci : Nat) : Chk (List Rat) := do
  let w ← vecAt ws ci
  return ws.set ci (w + 1)

/-- Conflicts of these propagators, one after the other, each reported as at gcs/innards/propagators.cc:879-881, 920-922. -/
def noteAll (E : Engine σ μ) : List Nat → List Rat → Chk (List Rat)
  | [], ws => .ok ws
  | p :: ps, ws => do
    let ci ← vecAt E.propConstraint p
    noteAll E ps (← note ws ci)

/-- gcs/variable_weighting.cc:102-105. -/
def contribution (ws : List Rat) (ci _x : Nat) : Chk Rat := vecAt ws ci

end Classic

/-- `ConflictHistorySearch` (gcs/variable_weighting.hh:240-243). Here numbers of conflicts are not bounded. -/
structure History where
  weights : List Rat
  conflictOf : List Int
  number : Int
  alpha : Rat

namespace History

/-- gcs/variable_weighting.cc:31. -/
def alphaInitial : Rat := 2 / 5
/-- gcs/variable_weighting.cc:32. -/
def alphaMinimum : Rat := 3 / 50
/-- gcs/variable_weighting.cc:33. -/
def alphaDecay : Rat := 1 / 1000000
/-- gcs/variable_weighting.cc:34. -/
def delta : Rat := 1 / 10000
/-- gcs/variable_weighting.cc:35. -/
def smoothing : Rat := 199 / 200

/-- gcs/variable_weighting.cc:166-169. -/
def new (E : Engine σ μ) : History := ⟨Dense.new E 0, List.replicate E.constraintIds.length 0, 0, alphaInitial⟩

/-- gcs/variable_weighting.cc:171-179. What happens if a number is divided by 0 is not modelled: an error here. -/
def note (h : History) (ci : Nat) : Chk History := do
  let last ← vecAt h.conflictOf ci
  let w ← vecAt h.weights ci
  if h.number - last + 1 = 0 then .error .unexpected
  else
    let r : Rat := 1 / ((h.number - last + 1 : Int) : Rat)
    let next := h.alpha - alphaDecay
    return ⟨h.weights.set ci ((1 - h.alpha) * w + h.alpha * r), h.conflictOf.set ci (h.number + 1), h.number + 1, if alphaMinimum < next then next else alphaMinimum⟩

/-- gcs/variable_weighting.cc:181-184. -/
def contribution (h : History) (ci _x : Nat) : Chk Rat := do
  let w ← vecAt h.weights ci
  return w + delta

/-- The loop at gcs/variable_weighting.cc:190-191. Powers that are negative are not modelled: an error here. -/
def smooth (number : Int) : List Rat → List Int → Chk (List Rat)
  | [], _ => .ok []
  | _ :: _, [] => .error .ub
  | w :: ws, c :: cs => do
    if number - c < 0 then .error .unexpected
    else
      let r ← smooth number ws cs
      return (w * smoothing ^ (number - c).toNat) :: r

/-- gcs/variable_weighting.cc:186-193. -/
def onRestart (h : History) : Chk History := do
  let ws ← smooth h.number h.weights h.conflictOf
  return { h with weights := ws, alpha := alphaInitial }

/-- Conflicts of propagators (`some p`) and restarts (`none`), one after the other, each reported as at gcs/innards/propagators.cc:879-881, 920-922 and gcs/solve.cc:412-413. -/
def noteAll (E : Engine σ μ) : List (Option Nat) → History → Chk History
  | [], h => .ok h
  | some p :: es, h => do
    let ci ← vecAt E.propConstraint p
    noteAll E es (← note h ci)
  | none :: es, h => do noteAll E es (← onRestart h)

/-- gcs/variable_weighting.cc:195-201. -/
def load (E : Engine σ μ) (s : WeightingState) : History := ⟨Dense.load E 0 s, List.replicate E.constraintIds.length 0, 0, alphaInitial⟩

end History

/-- gcs/variable_weighting.hh:271-278. -/
inductive Variant
  | initialArity
  | currentArity
  | initialDomain
  | currentDomain
  | currentArityCurrentDomain
  deriving DecidableEq

/-- `RefinedWeighting` (gcs/variable_weighting.hh:294-300). -/
structure Refined where
  variant : Variant
  locals : List (Weights Nat)
  initial : List (Nat × Int)

namespace Refined

/-- `try_emplace` (gcs/variable_weighting.cc:210). -/
def remember (d : Doms) (m : List (Nat × Int)) (v : Nat) : Chk (List (Nat × Int)) := do
  let size ← domainSize d (.simple v)
  return if m.any fun p => decide (p.1 = v) then m else (v, size) :: m

/-- The inner loop at gcs/variable_weighting.cc:209-210. -/
def rememberAll (d : Doms) : List Nat → List (Nat × Int) → Chk (List (Nat × Int))
  | [], m => .ok m
  | v :: vs, m => do rememberAll d vs (← remember d m v)

/-- The outer loop at gcs/variable_weighting.cc:208, for these constraints. -/
def rememberScopes (E : Engine σ μ) (d : Doms) : List Nat → List (Nat × Int) → Chk (List (Nat × Int))
  | [], m => .ok m
  | c :: cs, m => do
    let scope ← vecAt E.constraintScope c
    rememberScopes E d cs (← rememberAll d scope m)

/-- gcs/variable_weighting.cc:203-211. -/
def new (E : Engine σ μ) (d : Doms) (variant : Variant) : Chk Refined := do
  let m ← rememberScopes E d (List.range E.constraintIds.length) []
  return ⟨variant, List.replicate E.constraintIds.length [], m⟩

/-- gcs/variable_weighting.cc:216-219. -/
def futures (d : Doms) : List Nat → Chk Nat
  | [] => .ok 0
  | v :: vs => do
    let s ← hasSingleValue d (.simple v)
    let k ← futures d vs
    return if s then k else k + 1

/-- `increment` (gcs/variable_weighting.cc:227-237). -/
def increment (h : Refined) (d : Doms) (scope : List Nat) (fut : Nat) (x : Nat) : Chk Rat :=
  match h.variant with
  | .initialArity => return 1 / (scope.length : Rat)
  | .currentArity => return 1 / (fut : Rat)
  | .initialDomain =>
    match h.initial.find? fun p => decide (p.1 = x) with
    | some p => return 1 / (p.2 : Rat)
    | none => .error .unexpected
  | .currentDomain => do
    let size ← domainSize d (.simple x)
    return 1 / (1 + (size : Rat))
  | .currentArityCurrentDomain => do
    let size ← domainSize d (.simple x)
    return 1 / ((fut : Rat) * (1 + (size : Rat)))

/-- The loop at gcs/variable_weighting.cc:224-240. -/
def addAll (h : Refined) (d : Doms) (scope : List Nat) (fut : Nat) : List Nat → Weights Nat → Chk (Weights Nat)
  | [], m => .ok m
  | x :: xs, m => do
    if ← hasSingleValue d (.simple x) then addAll h d scope fut xs m
    else
      let inc ← increment h d scope fut x
      addAll h d scope fut xs (m.put x ((m.get x).getD 1 + inc))

/-- gcs/variable_weighting.cc:213-241, for the scope of a propagator. -/
def note (h : Refined) (d : Doms) (ci : Nat) (scope : List Nat) : Chk Refined := do
  let fut ← futures d scope
  if fut = 0 then return h
  else
    let m ← vecAt h.locals ci
    let m' ← addAll h d scope fut scope m
    return { h with locals := h.locals.set ci m' }

/-- Conflicts of these propagators, one after the other, each reported as at gcs/innards/propagators.cc:879-881, 920-922 with the domains at that time. -/
def noteAll (E : Engine σ μ) : List (Doms × Nat) → Refined → Chk Refined
  | [], h => .ok h
  | (d, p) :: es, h => do
    let ci ← vecAt E.propConstraint p
    let scope ← vecAt E.scope p
    noteAll E es (← note h d ci scope)

/-- gcs/variable_weighting.cc:264-266. -/
def contribution (h : Refined) (ci x : Nat) : Chk Rat := do
  let m ← vecAt h.locals ci
  return (m.get x).getD 1

/-- The inner loop of `snapshot` (gcs/variable_weighting.cc:281-282). -/
def snapshotOne (id : Nat) : Weights Nat → WeightingState → WeightingState
  | [], s => s
  | (x, w) :: m, s => snapshotOne id m (s.setLocalWeight id x w)

/-- The outer loop of `snapshot`, from `c` on. -/
def snapshotFrom (E : Engine σ μ) : Nat → List (Weights Nat) → WeightingState → Chk WeightingState
  | _, [], s => .ok s
  | c, m :: ms, s =>
    match m with
    | [] => snapshotFrom E (c + 1) ms s
    | _ :: _ => do
      let id ← vecAt E.constraintIds c
      snapshotFrom E (c + 1) ms (snapshotOne id m s)

/-- gcs/variable_weighting.cc:277-284. -/
def snapshot (E : Engine σ μ) (h : Refined) : Chk WeightingState := snapshotFrom E 0 h.locals {}

/-- The inner loop of `load` (gcs/variable_weighting.cc:291-293). -/
def loadOne (s : WeightingState) (id : Nat) : List Nat → Weights Nat → Weights Nat
  | [], m => m
  | x :: xs, m =>
    match s.localWeightOf id x with
    | some w => loadOne s id xs (m.put x w)
    | none => loadOne s id xs m

/-- The outer loop of `load` (gcs/variable_weighting.cc:288-290), from `c` on. -/
def loadFrom (E : Engine σ μ) (s : WeightingState) : Nat → List (Weights Nat) → Chk (List (Weights Nat))
  | _, [] => .ok []
  | c, _ :: ms => do
    let id ← vecAt E.constraintIds c
    let scope ← vecAt E.constraintScope c
    let r ← loadFrom E s (c + 1) ms
    return loadOne s id scope [] :: r

/-- gcs/variable_weighting.cc:286-295. -/
def load (E : Engine σ μ) (h : Refined) (s : WeightingState) : Chk Refined := do
  let l ← loadFrom E s 0 h.locals
  return { h with locals := l }

end Refined
end
end Weighting
end Gcs
