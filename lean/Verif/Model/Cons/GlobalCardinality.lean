import Verif.Model.Cons.Counting
import Verif.Model.Cons.AllDifferent

/-!
# GlobalCardinality, bounds consistent (`gcs/constraints/global_cardinality`)

The two vectors `values` and `counts` are a list of pairs here, the cover.
-/

namespace Gcs.GlobalCardinality
open IntervalSet

/-- `std::binary_search` as it is in the GNU standard library (`__lower_bound`): halving a range that starts at `first` and has `len` elements. If the range is not sorted then the C++ standard leaves open what
is returned; this is what that algorithm returns. -/
def bisectFrom (vals : List Int) (x : Int) : Nat → Nat → Nat → Nat
  | 0, first, _ => first
  | fuel + 1, first, len =>
    if len = 0 then first
    else
      let half := len / 2
      if vals.getD (first + half) 0 < x then bisectFrom vals x fuel (first + half + 1) (len - half - 1)
      else bisectFrom vals x fuel first half

/-- `lower_bound(...) - begin()` -/
def lowerIndex (vals : List Int) (x : Int) : Nat := bisectFrom vals x vals.length 0 vals.length

/-- `binary_search` -/
def bisect (vals : List Int) (x : Int) : Bool :=
  match vals[lowerIndex vals x]? with
  | none => false
  | some y => decide (¬ x < y)

/-- `filter` with a test that can throw. -/
def keepIf {α : Type} (p : α → Chk Bool) : List α → Chk (List α)
  | [] => .ok []
  | x :: xs => do
    let b ← p x
    let ys ← keepIf p xs
    return if b then x :: ys else ys

/-- How many variables are fixed to the value, and how many can have it (bounds_global_cardinality.cc:70-76, gac_global_cardinality.cc:215-220). -/
def mustCan (d : Doms) (v : Int) : Int → Int → List VarId → Chk (Int × Int)
  | must, can, [] => .ok (must, can)
  | must, can, x :: xs => do
    if ← inDomain d x v then
      let can' ← iInc can
      if ← hasSingleValue d x then
        let must' ← iInc must
        mustCan d v must' can' xs
      else mustCan d v must can' xs
    else mustCan d v must can xs

/-- `state.in_domain(var, value) && ! state.has_single_value(var)` -/
def open_ (d : Doms) (v : Int) (x : VarId) : Chk Bool := do
  if ← inDomain d x v then return ! (← hasSingleValue d x) else return false

/-- `domain_subset_of_hall` (bounds_global_cardinality.cc:172-182); a loop that stops at the first value that is not there. -/
def subset (hall : List Int) (d : Doms) (x : VarId) : Chk Bool := do
  return ! (← anyOfGen (fun v => .ok (! bisect hall v)) (← eachValue d x))

/-- `domain_meets_hall` (bounds_global_cardinality.cc:183-188). -/
def meets (hall : List Int) (d : Doms) (x : VarId) : Chk Bool := anyOf (inDomain d x ·) hall

section
variable {σ μ : Type}

/-- The two bounds of a count that follow from its own value (bounds_global_cardinality.cc:91-106, gac_global_cardinality.cc:221-238), with what they were before. -/
def countBounds (vars : List VarId) (p : Int × VarId) : Prog σ μ ((Int × Int) × (Int × Int)) := do
  let r ← Prog.ask (mustCan · p.1 0 0 vars)
  let b ← Prog.ask (bounds · p.2)
  Prog.onlyIf (r.1 > b.1) (Prog.tell (.cond (Cond.ge p.2 r.1)))
  Prog.onlyIf (r.2 < b.2) (do
    let c ← Prog.lift (Cond.le p.2 r.2)
    Prog.tell (.cond c))
  return (r, b)

/-- bounds_global_cardinality.cc:114-122, for one variable. -/
def exclude (v : Int) (x : VarId) : Prog σ μ Unit := do
  let b ← Prog.ask (open_ · v x)
  Prog.onlyIf (b = true) (Prog.tell (.cond (Cond.ne x v)))

/-- bounds_global_cardinality.cc:130-140, for one variable. -/
def force (v : Int) (x : VarId) : Prog σ μ Unit := do
  let b ← Prog.ask (open_ · v x)
  Prog.onlyIf (b = true) (do
    let g ← Prog.ask (eachValue · x)
    Prog.forGen (fun w => Prog.onlyIf (w ≠ v) (Prog.tell (.cond (Cond.ne x w)))) g)

/-- One round of the loop at bounds_global_cardinality.cc:69-142. -/
def perValue (vars : List VarId) (p : Int × VarId) : Prog σ μ Unit := do
  let r ← countBounds vars p
  Prog.onlyIf (r.1.1 = r.2.2) (Prog.forEach (exclude p.1) vars)
  Prog.onlyIf (r.1.2 = r.2.1 ∧ r.1.2 > 0) (Prog.forEach (force p.1) vars)

/-- One round of the loop at bounds_global_cardinality.cc:263-325. -/
def tighten (confined potential cap demand : Int) (p : Int × VarId) : Prog σ μ Unit := do
  let b ← Prog.ask (bounds · p.2)
  let lower ← Prog.lift (do iSub confined (← iSub cap b.2))
  Prog.onlyIf (lower > b.1) (Prog.tell (.cond (Cond.ge p.2 lower)))
  let upper ← Prog.lift (do iSub potential (← iSub demand b.1))
  Prog.onlyIf (upper < b.2) (do
    let c ← Prog.lift (Cond.le p.2 upper)
    Prog.tell (.cond c))

/-- bounds_global_cardinality.cc:333-342, for one variable. -/
def keepOut (hall : List Int) (x : VarId) : Prog σ μ Unit := do
  let b ← Prog.ask (subset hall · x)
  Prog.onlyIf (b = false) (Prog.forEach (fun v => do
    let b ← Prog.ask (inDomain · x v)
    Prog.onlyIf (b = true) (Prog.tell (.cond (Cond.ne x v)))) hall)

/-- bounds_global_cardinality.cc:382-388, for one variable. -/
def keepIn (hall : List Int) (x : VarId) : Prog σ μ Unit := do
  let g ← Prog.ask (eachValue · x)
  Prog.forGen (fun v => Prog.onlyIf (bisect hall v = false) (Prog.tell (.cond (Cond.ne x v)))) g

/-- bounds_global_cardinality.cc:327-343. -/
def capacity (vars : List VarId) (hall : List Int) (confined cap : Int) : Prog σ μ Unit :=
  if confined > cap then Prog.fail
  else Prog.onlyIf (confined = cap) (Prog.forEach (keepOut hall) vars)

/-- bounds_global_cardinality.cc:376-389. -/
def demands (potential : List VarId) (hall : List Int) (count demand : Int) : Prog σ μ Unit :=
  if count < demand then Prog.fail
  else Prog.onlyIf (count = demand) (Prog.forEach (keepIn hall) potential)

/-- The body of the loop at bounds_global_cardinality.cc:162-390, without the sums. The confined and the potential variables are found in one loop in the code. -/
def interval (vars : List VarId) (hall : List (Int × VarId)) (cap demand : Int) : Prog σ μ Unit := do
  let vals := hall.map (·.1)
  let confined ← Prog.ask fun d => keepIf (subset vals d) vars
  let potential ← Prog.ask fun d => keepIf (meets vals d) vars
  let nc ← Prog.lift (ofSize confined.length)
  let np ← Prog.lift (ofSize potential.length)
  Prog.forEach (tighten nc np cap demand) hall
  capacity vars vals nc cap
  demands potential vals np demand

/-- The loop at bounds_global_cardinality.cc:162-390; `hall` is the slice so far, `rest` what comes after it. -/
def intervals (vars : List VarId) : List (Int × VarId) → Int → Int → List (Int × VarId) → Prog σ μ Unit
  | _, _, _, [] => .ret ()
  | hall, cap, demand, p :: rest => do
    let b ← Prog.ask (bounds · p.2)
    let cap' ← Prog.lift (iAdd cap b.2)
    let demand' ← Prog.lift (iAdd demand b.1)
    interval vars (hall ++ [p]) cap' demand'
    intervals vars (hall ++ [p]) cap' demand' rest

/-- The loop at bounds_global_cardinality.cc:155-391. -/
def allIntervals (vars : List VarId) : List (Int × VarId) → Prog σ μ Unit
  | [] => .ret ()
  | p :: rest => do
    let b ← Prog.ask (bounds · p.2)
    let cap ← Prog.lift (iAdd 0 b.2)
    let demand ← Prog.lift (iAdd 0 b.1)
    intervals vars [p] cap demand rest
    allIntervals vars rest

/-- `propagate_bounds_global_cardinality` (bounds_global_cardinality.cc:52-394). -/
def boundsProp (vars : List VarId) (cover : List (Int × VarId)) : Prog σ μ PState := do
  Prog.forEach (perValue vars) cover
  allIntervals vars cover
  return .enable

/-- The propagation function at global_cardinality.cc:131-149. The values are sorted there, and searched by bisection. For one variable this is what `In` does. -/
def closedProp (vars : List VarId) (vals : List Int) : Prog σ μ PState := do
  Prog.forEach (fun x => InSet.narrow x [] vals) vars
  return .enable

/-- Putting the two vectors together: too few counts are read past their end. Extra ones are left out. -/
def pairUp : List Int → List VarId → Chk (List (Int × VarId))
  | [], _ => .ok []
  | _ :: _, [] => .error .ub
  | v :: vs, c :: cs => do
    let ps ← pairUp vs cs
    return (v, c) :: ps

/-- The first of the two propagators, if there is one (global_cardinality.cc:122-150). -/
def closedItems (vars : List VarId) (vals : List Int) : Bool → List (Item σ μ)
  | true => [.prop (closedProp vars vals) { onChange := vars }]
  | false => []

/-- `GlobalCardinality` at its default level (global_cardinality.cc:34-76 and :108-163). `sort_cover_values` sorts by value; which of two equal values comes first is not determined in the code, here it is the
one that came first. -/
def install (vars : List VarId) (values : List Int) (counts : List VarId) (closed : Bool) (_ : Doms) : Chk (List (Item σ μ)) := do
  let ps ← pairUp values counts
  let cover := sortBy (fun p q : Int × VarId => decide (p.1 ≤ q.1)) ps
  return closedItems vars values closed ++ [.prop (boundsProp vars cover) { onChange := vars, onBounds := cover.map (·.2) }]

end
end Gcs.GlobalCardinality
