import Verif.Model.Cons.AllDifferent
import Verif.Model.Cons.Disjunctive2D

/-!
# Cumulative (gcs/constraints/cumulative/cumulative.cc)

Time tables, and the overload check with the load of other tasks: what is on unless `with_rules` is used. The rules that are off by default (`elastic_overload`, `knapsack_overload`, `edge_finding`,
`time_table_edge_finding`, `energetic_edge_finding`, `not_first_not_last` and `not_first_not_last_published`) are not modelled, and neither is anything that is there only to write proofs. Vectors of a huge size are
not a problem here.
-/

namespace Gcs.Cumulative
open Disjunctive2D (keep)

/-- The rules that are modelled (gcs/constraints/cumulative/cumulative.hh:32-45). -/
structure Rules where
  timeTable : Bool := true
  overload : Bool := true
  profile : Bool := true
deriving DecidableEq

/-- What the vectors `starts`, `lengths`, `heights` and `presence` have at one index. There is a presence if the task need not be there. -/
structure Task where
  start : VarId
  length : VarId
  height : VarId
  presence : Option VarId
deriving DecidableEq

/-- `is_present` (gcs/constraints/cumulative/cumulative.cc:737). -/
def isPresent (d : Doms) (t : Task) : Chk Bool :=
  match t.presence with
  | none => .ok true
  | some p => do return decide ((← lowerBound d p) = 1)

/-- `is_absent` (gcs/constraints/cumulative/cumulative.cc:738). -/
def isAbsent (d : Doms) (t : Task) : Chk Bool :=
  match t.presence with
  | none => .ok false
  | some p => do return decide ((← upperBound d p) = 0)

/-- The values of `t` in `for (t = lo; t < hi; ++t)`. -/
def times (lo hi : Int) : List Int := (List.range (hi - lo).toNat).map fun (k : Nat) => lo + (k : Int)

/-- `v[(t - lo).raw_value]`. -/
def get (v : List Int) (lo t : Int) : Chk Int := do
  let k ← iSub t lo
  if k < 0 then throw .ub else vecAt v k.toNat

/-- `v[(t - lo).raw_value] += x`. -/
def add (v : List Int) (lo x t : Int) : Chk (List Int) := do
  let k ← iSub t lo
  if k < 0 then throw .ub
  else
    let y ← vecAt v k.toNat
    let z ← iAdd y x
    return v.set k.toNat z

/-- `t_lo` and `t_hi`, with what is known about a task that is `lo` and `hi` (gcs/constraints/cumulative/cumulative.cc:1314-1317). -/
def widen (w : Option (Int × Int)) (lo hi : Int) : Int × Int :=
  match w with
  | none => (lo, hi)
  | some (l, h) => (if lo < l then lo else l, if hi > h then hi else h)

/-- `t_lo` and `t_hi`, if there are tasks that may be there (gcs/constraints/cumulative/cumulative.cc:1307-1321). -/
def horizon (d : Doms) : List Task → Option (Int × Int) → Chk (Option (Int × Int))
  | [], w => .ok w
  | t :: ts, w => do
    if ← isAbsent d t then horizon d ts w
    else
      let b ← bounds d t.start
      let e ← iAdd b.2 (← upperBound d t.length)
      let hi ← iSub e 1
      horizon d ts (some (widen w b.1 hi))

/-- The body of the loop at gcs/constraints/cumulative/cumulative.cc:1328-1336. -/
def loadOne (d : Doms) (lo : Int) (v : List Int) (t : Task) : Chk (List Int) := do
  if ← isPresent d t then
    let lst ← upperBound d t.start
    let eet ← iAdd (← lowerBound d t.start) (← lowerBound d t.length)
    if lst < eet then
      let h ← lowerBound d t.height
      (times lst eet).foldlM (fun v t => add v lo h t) v
    else return v
  else return v

/-- `mand_load`, of tasks known to be there (gcs/constraints/cumulative/cumulative.cc:1323-1336). -/
def load (d : Doms) (w : Int × Int) (ts : List Task) : Chk (List Int) := do
  let range ← iAdd (← iSub w.2 w.1) 1
  ts.foldlM (loadOne d w.1) (List.replicate range.toNat 0)

/-- Sums of the first ones: `mand_prefix` (gcs/constraints/cumulative/cumulative.cc:1399-1401) and `time_slot_prefix` (:343-347). -/
def sums (x : Int) : List Int → Chk (List Int)
  | [] => .ok [x]
  | y :: ys => do
    let z ← iAdd x y
    let zs ← sums z ys
    return x :: zs

/-- `profile_within` (gcs/constraints/cumulative/cumulative.cc:1404-1406) and `slots_within` (:1411-1414). -/
def between (v : List Int) (lo x y : Int) : Chk Int := do
  let p ← get v lo y
  let q ← get v lo x
  iSub p q

/-- `Candidate`, without what only other rules look at (gcs/constraints/cumulative/cumulative.cc:1416-1424). -/
structure Cand where
  est : Int
  lct : Int
  energy : Int
  mandatory : Int

/-- gcs/constraints/cumulative/cumulative.cc:1426-1448. -/
def candidates (d : Doms) : List Task → Chk (List Cand)
  | [] => .ok []
  | t :: ts => do
    if ← isPresent d t then
      let p ← lowerBound d t.length
      let h ← lowerBound d t.height
      if p ≤ 0 ∨ h ≤ 0 then candidates d ts
      else
        let b ← bounds d t.start
        let lct ← iAdd b.2 p
        let energy ← iMul p h
        let e ← iAdd b.1 p
        let len ← iSub e b.2
        let mandatory ← iMul h (max 0 len)
        let cs ← candidates d ts
        return ⟨b.1, lct, energy, mandatory⟩ :: cs
    else candidates d ts

/-- One step of `sort`, which here is insertion sort. -/
def insertBy (f : α → Int) (x : α) : List α → List α
  | [] => [x]
  | y :: ys => if f x ≤ f y then x :: y :: ys else y :: insertBy f x ys

/-- `sort` (gcs/constraints/cumulative/cumulative.cc:1450 and :1480). Which of those with the same key comes first is not specified there. -/
def sortBy (f : α → Int) : List α → List α
  | [] => []
  | x :: xs => insertBy f x (sortBy f xs)

/-- The loop over `window_starts` leaves out what equals the one before (gcs/constraints/cumulative/cumulative.cc:1578-1581). -/
def distinct : List Int → List Int
  | [] => []
  | [x] => [x]
  | x :: y :: ys => if x = y then distinct (y :: ys) else x :: distinct (y :: ys)

/-- What is set up for the check: `overload_tasks`, `time_slot_lo` and `time_slot_prefix`. -/
structure Overload where
  tasks : List Task
  lo : Int
  slots : List Int

/-- Whether the loop at gcs/constraints/cumulative/cumulative.cc:1601-2256 finds a contradiction for the window that starts at `a`, with `energy` and `inside_mandatory`. -/
def window (profile : Bool) (o : Overload) (cap lo : Int) (sum : List Int) (a : Int) : List Cand → Int → Int → Chk Bool
  | [], _, _ => .ok false
  | c :: cs, energy, inside => do
    if c.est < a then window profile o cap lo sum a cs energy inside
    else
      let energy' ← iAdd energy c.energy
      let inside' ← iAdd inside c.mandatory
      let width ← between o.slots o.lo a c.lct
      let supply ← iMul cap width
      let prof ← between sum lo a c.lct
      let rest ← iSub prof inside'
      let total ← iAdd energy' (if profile then rest else 0)
      if total ≤ supply then window profile o cap lo sum a cs energy' inside' else return true

/-- Whether the overload check finds a contradiction (gcs/constraints/cumulative/cumulative.cc:1398-2258). -/
def overloaded (profile : Bool) (o : Overload) (cap lo : Int) (v : List Int) (d : Doms) : Chk Bool := do
  let sum ← sums 0 v
  let cs ← candidates d o.tasks
  let sorted := sortBy (·.lct) cs
  anyOf (fun a => window profile o cap lo sum a sorted 0 0) (distinct (sortBy id (cs.map (·.est))))

/-- `is_blocked_at`, with `own_load_at`, for the bounds `cur` at the time when the loop gets to `j`, and `eet = cur.1 + lower_bound(length)` (gcs/constraints/cumulative/cumulative.cc:2324-2339). -/
def blocked (cap lo : Int) (v : List Int) (j : Task) (cur : Int × Int) (eet : Int) (d : Doms) (t : Int) : Chk Bool := do
  let m ← get v lo t
  let here ← isPresent d j
  let h ← lowerBound d j.height
  let x ← iSub m (if here ∧ cur.2 < eet ∧ t ≥ cur.2 ∧ t < eet then h else 0)
  let y ← iAdd x h
  return decide (y > cap)

/-- `fits_at` (gcs/constraints/cumulative/cumulative.cc:2332-2337). -/
def fits (cap lo : Int) (v : List Int) (j : Task) (cur : Int × Int) (eet : Int) (d : Doms) (s : Int) : Chk Bool := do
  let e ← iAdd s (← lowerBound d j.length)
  let b ← anyOf (blocked cap lo v j cur eet d) (times s e)
  return ! b

/-- `while (new_lb <= cur_ub && ! fits_at(new_lb)) ++new_lb`, where there are that many values up to `cur_ub` (gcs/constraints/cumulative/cumulative.cc:2357-2359). -/
def firstFit (f : Int → Chk Bool) : Nat → Int → Chk Int
  | 0, s => .ok s
  | n + 1, s => do
    if ← f s then return s
    else
      let s' ← iAdd s 1
      firstFit f n s'

/-- `while (new_ub >= cur_lb && ! fits_at(new_ub)) --new_ub` (gcs/constraints/cumulative/cumulative.cc:2460-2462). -/
def lastFit (f : Int → Chk Bool) : Nat → Int → Chk Int
  | 0, s => .ok s
  | n + 1, s => do
    if ← f s then return s
    else
      let s' ← iSub s 1
      lastFit f n s'

section
variable {σ μ : Type}

/-- Whether there is nothing left to push (gcs/constraints/cumulative/cumulative.cc:2322). -/
def settled (d : Doms) (j : Task) (cur : Int × Int) : Chk Bool := if cur.1 = cur.2 then isPresent d j else .ok false

/-- What the loop needs to know about `j`: the bounds and `eet_j`, unless it goes on with the next one (gcs/constraints/cumulative/cumulative.cc:2317-2324). -/
def current (d : Doms) (j : Task) : Chk (Option ((Int × Int) × Int)) := do
  if ← isAbsent d j then return none
  else
    let cur ← bounds d j.start
    if ← settled d j cur then return none
    else
      let eet ← iAdd cur.1 (← lowerBound d j.length)
      return some (cur, eet)

/-- The upper bound (gcs/constraints/cumulative/cumulative.cc:2457-2487). The steps for a proof are collected there even if there is none, which may only throw an overflow exception; that is not modelled. -/
def pushUpper (cap lo : Int) (v : List Int) (j : Task) (cur : Int × Int) (eet : Int) : Prog σ μ Unit := do
  let ub ← Prog.ask fun d => lastFit (fits cap lo v j cur eet d) (cur.2 - cur.1 + 1).toNat cur.2
  Prog.onlyIf (ub < cur.2) do
    let c ← Prog.lift (Cond.le j.start ub)
    Prog.tell (.cond c)

/-- The rest of the body, with `new_lb` (gcs/constraints/cumulative/cumulative.cc:2384-2487). `chain.empty()` at :2404 does not happen: if there is no place at all, there is none at `cur_lb`, and that is the first step. -/
def pushWith (cap lo : Int) (v : List Int) (j : Task) (cur : Int × Int) (eet : Int) (r : Int × Bool) : Prog σ μ Unit :=
  match j.presence, r.2 with
  | some p, false => Prog.onlyIf (r.1 > cur.2) (Prog.tell (.cond (Cond.eq p 0)))
  | _, _ => do
    Prog.onlyIf (r.1 > cur.1) (Prog.tell (.cond (Cond.ge j.start r.1)))
    pushUpper cap lo v j cur eet

/-- The body of the loop at gcs/constraints/cumulative/cumulative.cc:2316-2488. -/
def push (cap lo : Int) (v : List Int) (j : Task) : Prog σ μ Unit := do
  match ← Prog.ask (current · j) with
  | none => return ()
  | some (cur, eet) =>
    let r ← Prog.ask fun d => do
      let lb ← firstFit (fits cap lo v j cur eet d) (cur.2 - cur.1 + 1).toNat cur.1
      let here ← isPresent d j
      return (lb, here)
    pushWith cap lo v j cur eet r

/-- Whether there is a contradiction, before anything is inferred; with that, `t_lo` and `mand_load` (gcs/constraints/cumulative/cumulative.cc:1307-2258). The overload check needs a constant capacity. -/
def check (rules : Rules) (o : Overload) (capacity : VarId) (ts : List Task) (cap : Int) (w : Int × Int) (d : Doms) : Chk (Bool × List Int) := do
  let v ← load d w ts
  if rules.timeTable ∧ v.any (fun x => decide (x > cap)) then return (true, v)
  else if rules.overload ∧ o.tasks ≠ [] ∧ capacity.isConst then
    let b ← overloaded rules.profile o cap w.1 v d
    return (b, v)
  else return (false, v)

/-- What is done if there are tasks that may be there, between the times `w`. -/
def work (rules : Rules) (o : Overload) (capacity : VarId) (ts : List Task) (cap : Int) (w : Int × Int) : Prog σ μ PState := do
  let r ← Prog.ask (check rules o capacity ts cap w)
  if r.1 = true then Prog.fail
  else if rules.timeTable = true then do
    Prog.forEach (push cap w.1 r.2) ts
    return .enable
  else return .enable

/-- `propagate_cumulative` (gcs/constraints/cumulative/cumulative.cc:620-2493). -/
def prop (rules : Rules) (o : Overload) (capacity : VarId) (ts : List Task) : Prog σ μ PState := do
  let s ← Prog.ask fun d => do
    let cap ← upperBound d capacity
    let w ← horizon d ts none
    return (cap, w)
  match s.2 with
  | none => return .disableUntilBacktrack
  | some w => work rules o capacity ts s.1 w

/-- gcs/constraints/cumulative/cumulative.cc:501-530. -/
def triggers (capacity : VarId) (ts : List Task) : Triggers :=
  { onBounds := ts.map (·.start) ++ (if capacity.isConst then [] else [capacity]) ++ (ts.map (·.height)).filter (fun h => ! h.isConst) ++ (ts.map (·.length)).filter (fun l => ! l.isConst)
    onInstantiated := (ts.filterMap (·.presence)).filter fun p => ! p.isConst }

/-! ## Posting it -/

/-- A task as it was posted, before `task_presence` (gcs/constraints/innards/task_presence.cc:13-27). -/
abbrev Posted := Task

/-- Whether a length or height may be negative: the check of constants in the constructor, and of variables in `prepare` (gcs/constraints/cumulative/cumulative.cc:88-93 and :151-156). Here it is one check, in one place: everything that throws does so when
the constraint is posted, and a lower bound of a constant does not throw. -/
def negative (d : Doms) (t : Posted) : Chk Bool := do
  if (← lowerBound d t.length) < 0 then return true else return decide ((← lowerBound d t.height) < 0)

/-- Whether a presence may be something else than 0 and 1 (gcs/constraints/cumulative/cumulative.cc:109-111 and :175-179, gcs/constraints/innards/task_presence.cc:26). -/
def strange (d : Doms) (t : Posted) : Chk Bool :=
  match t.presence with
  | none => .ok false
  | some p => do
    let b ← bounds d p
    return decide (b.1 < 0 ∨ b.2 > 1)

/-- `task_presence`: without a presence if it is the constant 1 (gcs/constraints/innards/task_presence.cc:13-27). -/
def resolve (t : Posted) : Task := if t.presence = some (.const 1) then { t with presence := none } else t

/-- Whether it is in `_active_tasks` (gcs/constraints/cumulative/cumulative.cc:207-212). The bounds were asked for before (:194-203). -/
def active (d : Doms) (t : Posted) : Chk Bool := do
  let l ← upperBound d t.length
  let h ← upperBound d t.height
  return decide (l > 0 ∧ h > 0 ∧ t.presence ≠ some (.const 0))

/-- `direct_only_encoded` (gcs/constraints/cumulative/cumulative.cc:292-295). -/
def direct (d : Doms) (v : VarId) : Chk Bool := do
  let b ← bounds d v
  return decide (b.1 = 0 ∧ b.2 = 1)

/-- A `SimpleIntegerVariableID`. -/
def simple : VarId → Bool
  | .simple _ => true
  | _ => false

/-- Whether the length is one that the check can use (gcs/constraints/cumulative/cumulative.cc:301-307). -/
def goodLength (d : Doms) (l : VarId) : Chk Bool :=
  match l with
  | .const c => .ok (decide (0 < c))
  | _ => do
    if ! simple l then return false
    else if (← upperBound d l) ≤ 0 then return false
    else return ! (← direct d l)

/-- Whether the height is one that the check can use (gcs/constraints/cumulative/cumulative.cc:308-316). -/
def goodHeight (d : Doms) (h : VarId) : Chk Bool :=
  match h with
  | .const c => .ok (decide (0 < c))
  | _ => do
    if ! simple h then return false
    else return decide (0 < (← upperBound d h))

/-- Whether it is in `overload_tasks` (gcs/constraints/cumulative/cumulative.cc:297-318). -/
def eligible (d : Doms) (t : Task) : Chk Bool := do
  if ! simple t.start then return false
  else if ← direct d t.start then return false
  else if ← goodLength d t.length then goodHeight d t.height
  else return false

/-- `cumulative_task_window`: when it may run, both included (gcs/constraints/cumulative/cumulative.cc:239-244). -/
def span (d : Doms) (t : Task) : Chk (Int × Int) := do
  let b ← bounds d t.start
  let e ← iAdd b.2 (← upperBound d t.length)
  let hi ← iSub e 1
  return (b.1, hi)

/-- The body of the loop at gcs/constraints/cumulative/cumulative.cc:335-338. The entries are counted by `long long`, and there are not more than tasks; here they are integers. -/
def mark (lo : Int) (v : List Int) (w : Int × Int) : Chk (List Int) := do
  let k ← iSub w.1 lo
  let e ← iAdd w.2 1
  let l ← iSub e lo
  if k < 0 ∨ l < 0 then throw .ub
  else
    let x ← vecAt v k.toNat
    let v := v.set k.toNat (x + 1)
    let y ← vecAt v l.toNat
    return v.set l.toNat (y - 1)

/-- Whether some task can run, for each time: `covering > 0` (gcs/constraints/cumulative/cumulative.cc:342-346). -/
def covered (covering : Int) : List Int → List Int
  | [] => []
  | x :: xs => (if covering + x > 0 then 1 else 0) :: covered (covering + x) xs

/-- `prepare_cumulative_overload_check`, for the tasks `ts` that may run when `ws` says (gcs/constraints/cumulative/cumulative.cc:246-350). -/
def prepare (d : Doms) (ts : List Task) (ws : List (Int × Int)) : Chk Overload := do
  let es ← keep (eligible d) ts
  if es = [] then return ⟨[], 0, []⟩
  else
    match ws with
    | [] => throw .ub
    | w :: rest =>
      let lo := rest.foldl (fun l w => min l w.1) w.1
      let hi := rest.foldl (fun h w => max h w.2) w.2
      let range ← iAdd (← iSub hi lo) 1
      let v ← (w :: rest).foldlM (mark lo) (List.replicate (range.toNat + 1) 0)
      let slots ← sums 0 (covered 0 (v.take range.toNat))
      return ⟨es, lo, slots⟩

/-- `prepare_cumulative_overload_check` is called only if the rule is on (gcs/constraints/cumulative/cumulative.cc:228-234). -/
def setUp (rules : Rules) (d : Doms) (ts : List Task) (ws : List (Int × Int)) : Chk Overload := if rules.overload then prepare d ts ws else .ok ⟨[], 0, []⟩

/-- What is posted, once the sizes of the vectors are known to be the same (gcs/constraints/cumulative/cumulative.cc:86-93, :107-111, :142-237 and :499-618). -/
def installTasks (rules : Rules) (ps : List Posted) (capacity : VarId) (d : Doms) : Chk (List (Item σ μ)) := do
  if ← anyOf (negative d) ps then throw .invalidProblem
  else if (← lowerBound d capacity) < 0 then throw .invalidProblem
  else if ← anyOf (strange d) ps then throw .invalidProblem
  else
    let kept ← keep (active d) ps
    let ts := kept.map resolve
    if ts = [] then return []
    else
      let ws ← AllDifferent.mapAll (span d) ts
      let o ← setUp rules d ts ws
      return [.prop (prop rules o capacity ts) (triggers capacity ts)]

/-- The tasks, from the vectors, where there may be none for the presences. -/
def tasks : List VarId → List VarId → List VarId → List (Option VarId) → List Posted
  | s :: ss, l :: ls, h :: hs, p :: ps => ⟨s, l, h, p⟩ :: tasks ss ls hs ps
  | _, _, _, _ => []

/-- `Cumulative(starts, lengths, heights, capacity).with_rules(rules)`, or with presences `Cumulative(starts, lengths, heights, presences, capacity)` (gcs/constraints/cumulative/cumulative.cc:78-112). -/
def install (rules : Rules) (starts lengths heights : List VarId) (presences : Option (List VarId)) (capacity : VarId) (d : Doms) : Chk (List (Item σ μ)) :=
  if starts.length ≠ lengths.length ∨ starts.length ≠ heights.length ∨ presences.any (fun ps => decide (starts.length ≠ ps.length)) = true then .error .invalidProblem
  else installTasks rules (tasks starts lengths heights ((presences.map (·.map some)).getD (starts.map fun _ => none))) capacity d

end
end Gcs.Cumulative
