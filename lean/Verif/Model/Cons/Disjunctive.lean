import Verif.Model.Cons.Cumulative

/-!
# Disjunctive (gcs/constraints/disjunctive/disjunctive.cc)

Time tables and detectable precedences: what is on unless `with_rules` is used. The rules that are off by default (`overload`, `edge_finding`, `not_first_not_last`, `detectable_precedences_set` and so on) are not modelled, and
neither is anything that is there only to write proofs. A task is one of Cumulative's, whose height is not looked at. Vectors of a huge size are not a problem here.
-/

namespace Gcs.Disjunctive
open Cumulative (Task isPresent isAbsent times get add widen firstFit lastFit strange resolve)

/-- The rules that are modelled (gcs/constraints/disjunctive/disjunctive.hh:63-69). -/
structure Rules where
  timeTable : Bool := true
  detectable : Bool := true
deriving DecidableEq

/-- `t_lo` and `t_hi`, if there are tasks that may be there and may take some time (gcs/constraints/disjunctive/disjunctive.cc:1289-1303). -/
def horizon (d : Doms) : List Task → Option (Int × Int) → Chk (Option (Int × Int))
  | [], w => .ok w
  | t :: ts, w => do
    let l ← upperBound d t.length
    if l = 0 then horizon d ts w
    else if ← isAbsent d t then horizon d ts w
    else
      let b ← bounds d t.start
      let e ← iAdd b.2 l
      let hi ← iSub e 1
      horizon d ts (some (widen w b.1 hi))

/-- The body of the loop at gcs/constraints/disjunctive/disjunctive.cc:1404-1412. The entries are of type `int`, and not more than the number of tasks; here they are integers. -/
def loadOne (d : Doms) (lo : Int) (v : List Int) (t : Task) : Chk (List Int) := do
  let l ← lowerBound d t.length
  if l = 0 then return v
  else if ← isPresent d t then
    let lst ← upperBound d t.start
    let eet ← iAdd (← lowerBound d t.start) l
    if lst < eet then (times lst eet).foldlM (fun v t => add v lo 1 t) v else return v
  else return v

/-- `mand_load` (gcs/constraints/disjunctive/disjunctive.cc:1398-1412). -/
def load (d : Doms) (w : Int × Int) (ts : List Task) : Chk (List Int) := do
  let range ← iAdd (← iSub w.2 w.1) 1
  ts.foldlM (loadOne d w.1) (List.replicate range.toNat 0)

/-- Whether there is something else at the time `t` (gcs/constraints/disjunctive/disjunctive.cc:1509-1513). -/
def blocked (lo : Int) (v : List Int) (j : Task) (cur : Int × Int) (eet : Int) (d : Doms) (t : Int) : Chk Bool := do
  let m ← get v lo t
  let here ← isPresent d j
  return decide ((if here ∧ cur.2 < eet ∧ t ≥ cur.2 ∧ t < eet then m - 1 else m) ≥ 1)

/-- `fits_at` (gcs/constraints/disjunctive/disjunctive.cc:1507-1516). -/
def fits (lo : Int) (v : List Int) (j : Task) (cur : Int × Int) (eet : Int) (d : Doms) (s : Int) : Chk Bool := do
  let e ← iAdd s (← lowerBound d j.length)
  let b ← anyOf (blocked lo v j cur eet d) (times s e)
  return ! b

/-- What the loop needs to know about `j`: the bounds and `eet_j`, unless it goes on with the next one (gcs/constraints/disjunctive/disjunctive.cc:1487-1501). -/
def current (d : Doms) (j : Task) : Chk (Option ((Int × Int) × Int)) := do
  let l ← lowerBound d j.length
  if l = 0 then return none
  else if ← isAbsent d j then return none
  else
    let cur ← bounds d j.start
    if ← Cumulative.settled d j cur then return none
    else
      let eet ← iAdd cur.1 l
      return some (cur, eet)

section
variable {σ μ : Type}

/-- The upper bound (gcs/constraints/disjunctive/disjunctive.cc:1689-1717). -/
def pushUpper (lo : Int) (v : List Int) (j : Task) (cur : Int × Int) (eet : Int) : Prog σ μ Unit := do
  let ub ← Prog.ask fun d => lastFit (fits lo v j cur eet d) (cur.2 - cur.1 + 1).toNat cur.2
  Prog.onlyIf (ub < cur.2) do
    let c ← Prog.lift (Cond.le j.start ub)
    Prog.tell (.cond c)

/-- The rest of the body, with `new_lb` (gcs/constraints/disjunctive/disjunctive.cc:1568-1717). -/
def pushWith (lo : Int) (v : List Int) (j : Task) (cur : Int × Int) (eet : Int) (r : Int × Bool) : Prog σ μ Unit :=
  match j.presence, r.2 with
  | some p, false => Prog.onlyIf (r.1 > cur.2) (Prog.tell (.cond (Cond.eq p 0)))
  | _, _ => do
    Prog.onlyIf (r.1 > cur.1) (Prog.tell (.cond (Cond.ge j.start r.1)))
    pushUpper lo v j cur eet

/-- The body of the loop of the time table (gcs/constraints/disjunctive/disjunctive.cc:1487-1718). -/
def push (lo : Int) (v : List Int) (j : Task) : Prog σ μ Unit := do
  match ← Prog.ask (current · j) with
  | none => return ()
  | some (cur, eet) =>
    let r ← Prog.ask fun d => do
      let lb ← firstFit (fits lo v j cur eet d) (cur.2 - cur.1 + 1).toNat cur.1
      let here ← isPresent d j
      return (lb, here)
    pushWith lo v j cur eet r

/-- `predecessor_eet` with one more, and `successor_lst` with one more (gcs/constraints/disjunctive/disjunctive.cc:1804-1816). -/
def later (x : Option Int) (y : Int) : Int :=
  match x with
  | none => y
  | some x => if y > x then y else x
def sooner (x : Option Int) (y : Int) : Int :=
  match x with
  | none => y
  | some x => if y < x then y else x

/-- `predecessor_eet` and `successor_lst`, of all tasks but the one at `j`, whose earliest end is `eet` and whose latest start is `lst` (gcs/constraints/disjunctive/disjunctive.cc:1799-1820). -/
def neighbours (d : Doms) (j : Nat) (eet lst : Int) : List (Task × Nat) → Option Int × Option Int → Chk (Option Int × Option Int)
  | [], r => .ok r
  | (k, i) :: ks, r => do
    if i = j then neighbours d j eet lst ks r
    else
      let l ← lowerBound d k.length
      if l = 0 then neighbours d j eet lst ks r
      else if ← isPresent d k then
        let b ← bounds d k.start
        let e ← iAdd b.1 l
        neighbours d j eet lst ks (if eet > b.2 then some (later r.1 e) else r.1, if e > lst then some (sooner r.2 b.2) else r.2)
      else neighbours d j eet lst ks r

/-- The bounds of the task at `j`, and its neighbours, unless the loop goes on with the next one (gcs/constraints/disjunctive/disjunctive.cc:1768-1820). -/
def detect (ts : List Task) (j : Task × Nat) (d : Doms) : Chk (Option ((Int × Int) × Option Int × Option Int)) := do
  let l ← lowerBound d j.1.length
  if l = 0 then return none
  else if ← isPresent d j.1 then
    let cur ← bounds d j.1.start
    if cur.1 = cur.2 then return none
    else
      let eet ← iAdd cur.1 l
      let r ← neighbours d j.2 eet cur.2 ts.zipIdx (none, none)
      return some (cur, r)
  else return none

/-- After a predecessor (gcs/constraints/disjunctive/disjunctive.cc:1883-1909). -/
def after (j : Task) (cur : Int × Int) : Option Int → Prog σ μ Unit
  | none => return ()
  | some x => do
    let c ← Prog.lift (iAdd cur.2 1)
    Prog.onlyIf (min x c > cur.1) (Prog.tell (.cond (Cond.ge j.start (min x c))))

/-- Before a successor (gcs/constraints/disjunctive/disjunctive.cc:1917-1939). -/
def before (j : Task) (cur : Int × Int) : Option Int → Prog σ μ Unit
  | none => return ()
  | some x => do
    let target ← Prog.ask fun d => do
      let y ← iSub x (← lowerBound d j.length)
      let z ← iSub cur.1 1
      return max y z
    Prog.onlyIf (target < cur.2) do
      let c ← Prog.lift (Cond.le j.start target)
      Prog.tell (.cond c)

/-- The body of the loop of detectable precedences (gcs/constraints/disjunctive/disjunctive.cc:1767-1940). -/
def precede (ts : List Task) (j : Task × Nat) : Prog σ μ Unit := do
  match ← Prog.ask (detect ts j) with
  | none => return ()
  | some (cur, pred, succ) => do
    after j.1 cur pred
    before j.1 cur succ

/-- Whether `k` is something that takes time and is under way at `vz` (gcs/constraints/disjunctive/disjunctive.cc:2429-2434). -/
def during (d : Doms) (vz : Int) (k : Task) : Chk Bool := do
  let l ← lowerBound d k.length
  let h ← upperBound d k.length
  if l ≠ h ∨ l = 0 then return false
  else if ← hasSingleValue d k.start then
    if ← isPresent d k then
      let vk ← lowerBound d k.start
      if vk < vz then
        let e ← iAdd vk l
        return decide (vz < e)
      else return false
    else return false
  else return false

/-- Whether the one at `z` takes no time, and is in the middle of something else (gcs/constraints/disjunctive/disjunctive.cc:2422-2443). -/
def inside (ts : List Task) (d : Doms) (z : Task × Nat) : Chk Bool := do
  if (← upperBound d z.1.length) > 0 then return false
  else if ← hasSingleValue d z.1.start then
    if ← isPresent d z.1 then
      let vz ← lowerBound d z.1.start
      anyOf (fun k : Task × Nat => if k.2 = z.2 then .ok false else during d vz k.1) ts.zipIdx
    else return false
  else return false

/-- Tasks that take no time (gcs/constraints/disjunctive/disjunctive.cc:2419-2446). -/
def finish (strict : Bool) (ts : List Task) : Prog σ μ PState := do
  let b ← Prog.ask fun d => if strict then anyOf (inside ts d) ts.zipIdx else .ok false
  if b = true then Prog.fail else return .enable

/-- What is done if there are tasks that may be there, between the times `w`. That two mandatory parts overlap is found whatever the rules (gcs/constraints/disjunctive/disjunctive.cc:1303-2397). The search for two tasks with `mand_load > 1` finds them, as
that is what `mand_load` counts. -/
def work (strict : Bool) (rules : Rules) (ts : List Task) (w : Int × Int) : Prog σ μ PState := do
  let v ← Prog.ask (load · w ts)
  if v.any (fun x => decide (x > 1)) = true then Prog.fail
  else do
    Prog.onlyIf (rules.timeTable = true) (Prog.forEach (push w.1 v) ts)
    Prog.onlyIf (rules.detectable = true) (Prog.forEach (precede ts) ts.zipIdx)
    finish strict ts

/-- The propagator (gcs/constraints/disjunctive/disjunctive.cc:388-2447). -/
def prop (strict : Bool) (rules : Rules) (ts : List Task) : Prog σ μ PState := do
  match ← Prog.ask (horizon · ts none) with
  | none => finish strict ts
  | some w => work strict rules ts w

/-- gcs/constraints/disjunctive/disjunctive.cc:354-366. -/
def triggers (ts : List Task) : Triggers :=
  { onBounds := ts.map (·.start) ++ (ts.map (·.length)).filter (fun l => ! l.isConst)
    onInstantiated := (ts.filterMap (·.presence)).filter fun p => ! p.isConst }

/-! ## Posting it -/

/-- Whether a length may be negative: the check of constants in the constructor, and of variables in `prepare` (gcs/constraints/disjunctive/disjunctive.cc:138-140 and :203-212). As for Cumulative, there is one check, when the constraint is posted. -/
def negative (d : Doms) (t : Task) : Chk Bool := do return decide ((← lowerBound d t.length) < 0)

/-- Whether it is in `_active_tasks` (gcs/constraints/disjunctive/disjunctive.cc:248-255). -/
def active (strict : Bool) (t : Task) : Bool := decide (t.presence ≠ some (.const 0)) && (strict || decide (t.length ≠ .const 0))

/-- What is posted, once the sizes of the vectors are known to be the same (gcs/constraints/disjunctive/disjunctive.cc:138-157, :197-258 and :352-2449). -/
def installTasks (strict : Bool) (rules : Rules) (ps : List Task) (d : Doms) : Chk (List (Item σ μ)) := do
  if ← anyOf (negative d) ps then throw .invalidProblem
  else if ← anyOf (strange d) ps then throw .invalidProblem
  else
    let ts := (ps.filter (active strict)).map resolve
    if ts.length < 2 then return []
    else return [.prop (prop strict rules ts) (triggers ts)]

/-- `Disjunctive(starts, lengths).with_strict(strict).with_rules(rules)`, or with presences `Disjunctive(starts, lengths, presences)` (gcs/constraints/disjunctive/disjunctive.cc:132-168). -/
def install (strict : Bool) (rules : Rules) (starts lengths : List VarId) (presences : Option (List VarId)) (d : Doms) : Chk (List (Item σ μ)) :=
  if starts.length ≠ lengths.length ∨ presences.any (fun ps => decide (starts.length ≠ ps.length)) = true then .error .invalidProblem
  else installTasks strict rules (Cumulative.tasks starts lengths (lengths.map fun _ => .const 1) ((presences.map (·.map some)).getD (starts.map fun _ => none))) d

end
end Gcs.Disjunctive
