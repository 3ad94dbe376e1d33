import Verif.Model.Search

/-!
# Search heuristics

Models `gcs/search_heuristics.cc`. Heuristics are coroutines in the code; here a value ordering gives the list of branches at once, so if enumerating the values of a variable throws part of the way through,
it throws here before the first branch and in the code after some of them.

Random choices: `pick` stands for what `uniform_int_distribution` returned, reduced to the range asked for; `perm` for what `shuffle` does. The weights of `dom_wdeg` are floating point numbers
computed by observers; here they are whole numbers given from outside, so the rounding of products is not modelled.
-/

namespace Gcs

/-- All that a generator yields, or the exception that ended it. -/
def genAll {α : Type} (g : List α × Option Err) : Chk (List α) :=
  match g.2 with
  | none => .ok g.1
  | some e => .error e

/-- The values of a variable copied into a vector, as at gcs/search_heuristics.cc:294-296. -/
def valuesOf (d : Doms) (var : VarId) : Chk (List Int) := do genAll (← eachValue d var)

/-! ## Value orders -/

/-- gcs/search_heuristics.cc:384-393. -/
def smallestIn (d : Doms) (var : VarId) : Chk (List Cond) := do
  let v ← lowerBound d var
  return [.eq var v, .ne var v]

/-- gcs/search_heuristics.cc:395-404. -/
def smallestOut (d : Doms) (var : VarId) : Chk (List Cond) := do
  let v ← lowerBound d var
  return [.ne var v, .eq var v]

/-- gcs/search_heuristics.cc:406-414. -/
def smallestFirst (d : Doms) (var : VarId) : Chk (List Cond) := do return (← valuesOf d var).map (Cond.eq var)

/-- The first element of `s.each_value(var) | drop(domain_size / 2 - 1)`, as at gcs/search_heuristics.cc:420-421. Dereferencing the end would be undefined. -/
def splitPoint (d : Doms) (var : VarId) : Chk Int := do
  let mid ← iDiv (← domainSize d var) 2
  let k ← iSub mid 1
  let g ← eachValue d var
  match g.1[k.toNat]? with
  | some v => return v
  | none => match g.2 with
    | some e => throw e
    | none => throw .ub

/-- gcs/search_heuristics.cc:416-426. -/
def splitSmallestFirst (d : Doms) (var : VarId) : Chk (List Cond) := do
  let v ← splitPoint d var
  return [← Cond.le var v, ← Cond.gt var v]

/-- gcs/search_heuristics.cc:428-438. -/
def splitLargestFirst (d : Doms) (var : VarId) : Chk (List Cond) := do
  let v ← splitPoint d var
  return [← Cond.gt var v, ← Cond.le var v]

/-- gcs/search_heuristics.cc:442-459. `pick` is 0 or 1. -/
def splitRandom (pick : Nat) (d : Doms) (var : VarId) : Chk (List Cond) := if pick = 0 then splitSmallestFirst d var else splitLargestFirst d var

/-- gcs/search_heuristics.cc:472-481. -/
def largestIn (d : Doms) (var : VarId) : Chk (List Cond) := do
  let v ← upperBound d var
  return [.eq var v, .ne var v]

/-- gcs/search_heuristics.cc:483-492. -/
def largestOut (d : Doms) (var : VarId) : Chk (List Cond) := do
  let v ← upperBound d var
  return [.ne var v, .eq var v]

/-- gcs/search_heuristics.cc:494-502. -/
def largestFirst (d : Doms) (var : VarId) : Chk (List Cond) := do return (← genAll (← eachValueReversed d var)).map (Cond.eq var)

/-- gcs/search_heuristics.cc:504-516. `vector::at` throws `out_of_range`, not an exception of the library; it does not happen. -/
def median (d : Doms) (var : VarId) : Chk (List Cond) := do
  let vs ← valuesOf d var
  match vs[vs.length / 2]? with
  | some v => return [.eq var v, .ne var v]
  | none => throw .ub

/-- gcs/search_heuristics.cc:289-302. -/
def randomOrder (perm : List Int → List Int) (d : Doms) (var : VarId) : Chk (List Cond) := do return (perm (← valuesOf d var)).map (Cond.eq var)

/-- gcs/search_heuristics.cc:304-318. A distribution over no values would be undefined. -/
def randomOut (pick : Nat) (d : Doms) (var : VarId) : Chk (List Cond) := do
  let vs ← valuesOf d var
  match vs[pick % vs.length]? with
  | some v => return [.ne var v, .eq var v]
  | none => throw .ub

/-- gcs/search_heuristics.cc:320-351: numbers from 1 to `values.size() - 2`. -/
def rejectInterval (pick1 pick2 : Nat) (d : Doms) (var : VarId) : Chk (List Cond) := do
  let vs ← valuesOf d var
  match var with
  | .simple _ =>
    if 3 ≤ vs.length then
      let i := 1 + pick1 % (vs.length - 2)
      let j := 1 + pick2 % (vs.length - 2)
      match vs[min i j]?, vs[max i j]? with
      | some lo, some hi => return [← Cond.notInRange var lo hi, ← Cond.inRange var lo hi]
      | _, _ => throw .ub
    else randomOut pick1 d var
  | _ => randomOut pick1 d var

/-! ## Variable orders -/

/-- gcs/search_heuristics.cc:96-98: variables with at least two values. -/
def openVars (d : Doms) : List VarId → Chk (List VarId)
  | [] => .ok []
  | v :: vs => do
    let size ← domainSize d v
    let r ← openVars d vs
    return if size ≥ 2 then v :: r else r

/-- gcs/search_heuristics.cc:92-106. -/
def randomVar (pick : Nat) (vars : List VarId) (d : Doms) : Chk (Option VarId) := do
  let f ← openVars d vars
  return f[pick % f.length]?

/-- The loop at gcs/search_heuristics.cc:113-119; also the loop of `dom_wdeg` (:244-268), which remembers the size and weight of the best variable instead of asking again. -/
def inOrderOfLoop (comp : VarId → VarId → Chk Bool) (d : Doms) : List VarId → Option VarId → Chk (Option VarId)
  | [], result => .ok result
  | v :: vs, result => do
    let size ← domainSize d v
    if size < 2 then inOrderOfLoop comp d vs result
    else match result with
      | none => inOrderOfLoop comp d vs (some v)
      | some r => do if ← comp v r then inOrderOfLoop comp d vs (some v) else inOrderOfLoop comp d vs result

/-- gcs/search_heuristics.cc:108-122. -/
def inOrderOf (comp : Doms → VarId → VarId → Chk Bool) (vars : List VarId) (d : Doms) : Chk (Option VarId) := inOrderOfLoop (comp d) d vars none

/-- gcs/search_heuristics.cc:163-174. -/
def inOrder (vars : List VarId) (d : Doms) : Chk (Option VarId) :=
  match vars with
  | [] => .ok none
  | v :: vs => do
    let size ← domainSize d v
    if size < 2 then inOrder vs d else return some v

/-- gcs/search_heuristics.cc:184-186. -/
def domComp (d : Doms) (a b : VarId) : Chk Bool := do
  let x ← domainSize d a
  let y ← domainSize d b
  return decide (x < y)

/-- gcs/search_heuristics.cc:181-187. -/
def dom (vars : List VarId) (d : Doms) : Chk (Option VarId) := inOrderOf domComp vars d

/-- gcs/search_heuristics.cc:197-199. `deg` is `Propagators::degree_of`. -/
def domDegComp (deg : VarId → Int) (d : Doms) (a b : VarId) : Chk Bool := do
  let x ← domainSize d a
  let y ← domainSize d b
  return decide (x < y ∨ (x = y ∧ -deg a < -deg b))

/-- gcs/search_heuristics.cc:194-200. -/
def domThenDeg (deg : VarId → Int) (vars : List VarId) (d : Doms) : Chk (Option VarId) := inOrderOf (domDegComp deg) vars d

/-- gcs/search_heuristics.cc:282-284. -/
def smallestComp (d : Doms) (a b : VarId) : Chk Bool := do
  let x ← lowerBound d a
  let y ← lowerBound d b
  return decide (x < y)

/-- gcs/search_heuristics.cc:279-285. -/
def withSmallestValue (vars : List VarId) (d : Doms) : Chk (Option VarId) := inOrderOf smallestComp vars d

/-- gcs/search_heuristics.cc:260-262. `w` is what `weighted_degree_of` returned for each variable. Doubles are rational numbers here: nothing is rounded. -/
def wdegComp (w : VarId → Rat) (deg : VarId → Int) (d : Doms) (a b : VarId) : Chk Bool := do
  let x ← domainSize d a
  let y ← domainSize d b
  let lhs := (x : Rat) * w b
  let rhs := (y : Rat) * w a
  return if lhs ≠ rhs then decide (lhs < rhs) else decide (deg a > deg b)

/-- gcs/search_heuristics.cc:207-271. -/
def domWdeg (w : VarId → Rat) (deg : VarId → Int) (vars : List VarId) (d : Doms) : Chk (Option VarId) := inOrderOf (wdegComp w deg) vars d

/-! ## Combining them -/

/-- gcs/search_heuristics.cc:44-62. -/
def branchWith (var : Doms → Chk (Option VarId)) (val : Doms → VarId → Chk (List Cond)) (d : Doms) : Chk (List Cond) := do
  match ← var d with
  | some v => val d v
  | none => return []

/-- gcs/search_heuristics.cc:64-90. -/
def branchSequence (a b : Doms → Chk (List Cond)) (d : Doms) : Chk (List Cond) := do
  let x ← a d
  if x = [] then b d else return x

end Gcs
