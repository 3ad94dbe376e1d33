import Verif.Model.Cons.Steps
import Verif.Model.Queue

/-!
# Differences

`DifferenceConstraints` (gcs/constraints/difference/difference_constraints.cc, gcs/constraints/difference/difference_graph.cc), with `simplifying_at_root(false)` and `incrementally(false)`: every call of the propagator
runs Bellman-Ford from the current bounds. Simplification at the root, which is on unless it is turned off, is in Model/Cons/DifferenceRoot.lean. Incremental propagation, also on by default, is not modelled, nor are audits, statistics, proofs and reasons. The constraint
state that is registered for incremental propagation is left out.

The code has two of everything, one for lower bounds and one for upper bounds. Here there is one, with `Dir` saying which.
-/

namespace Gcs.Difference

/-- `x - y <= d`, if `cond` (gcs/constraints/difference/difference_constraints.hh:37-43). -/
structure Edge where
  x : VarId
  y : VarId
  d : Int
  cond : Option Cond := none
  deriving DecidableEq, Repr

/-- Between nodes (gcs/constraints/difference/difference_graph.hh, `DifferenceGraphEdge`, without the position in what was posted). The code splits this into `DifferenceArc` and a vector of conditions, which is empty
if there are none. -/
structure Arc where
  src : Nat
  dst : Nat
  d : Int
  cond : Option Cond
  deriving DecidableEq, Repr

/-- A bound on one node (`DifferenceStaticBound`). -/
structure Static where
  node : Nat
  value : Int
  isLower : Bool
  cond : Option Cond
  deriving DecidableEq, Repr

/-- `DifferenceGraph`, and whether there is a `_root_contradiction_posted_index`. Nodes are variables, here their numbers. -/
structure Graph where
  nodes : List Nat := []
  arcs : List Arc := []
  bounds : List Static := []
  disallowed : List Cond := []
  refuted : Bool := false
  deriving DecidableEq, Repr

/-- gcs/constraints/difference/difference_graph.cc:1100-1112: a variable, if any, and what is added to it. Nothing for a negated view. -/
def operand : VarId → Option (Option Nat × Int)
  | .simple i => some (some i, 0)
  | .const k => some (none, k)
  | .view i neg add => if neg then none else some (some i, add)

/-- gcs/constraints/difference/difference_constraints.cc:45-52. -/
def operandOrThrow (v : VarId) : Chk (Option Nat × Int) :=
  match operand v with
  | some r => .ok r
  | none => .error .invalidProblem

/-- `node_index` (gcs/constraints/difference/difference_constraints.cc:110-116). The map is looked up in the vector of nodes. -/
def nodeIndex (ns : List Nat) (v : Nat) : Nat × List Nat :=
  if v ∈ ns then (ns.idxOf v, ns) else (ns.length, ns ++ [v])

/-- `degenerate` (gcs/constraints/difference/difference_constraints.cc:133-140). -/
def degenerate (g : Graph) (cond : Option Cond) (weight : Int) : Graph :=
  if weight ≥ 0 then g
  else match cond with
    | some c => { g with disallowed := g.disallowed ++ [c] }
    | none => { g with refuted := true }

/-- One round of the loop in `prepare` (gcs/constraints/difference/difference_constraints.cc:118-162). -/
def addEdge (g : Graph) (e : Edge) : Chk Graph := do
  let l ← operandOrThrow e.x
  let r ← operandOrThrow e.y
  let t ← iSub e.d l.2
  let d ← iAdd t r.2
  match l.1, r.1 with
  | some x, some y =>
    let i := nodeIndex g.nodes x
    let j := nodeIndex i.2 y
    let g := { g with nodes := j.2 }
    return if i.1 = j.1 then degenerate g e.cond d else { g with arcs := g.arcs ++ [⟨i.1, j.1, d, e.cond⟩] }
  | some x, none =>
    let i := nodeIndex g.nodes x
    return { g with nodes := i.2, bounds := g.bounds ++ [⟨i.1, d, false, e.cond⟩] }
  | none, some y =>
    let k ← iNeg d
    let i := nodeIndex g.nodes y
    return { g with nodes := i.2, bounds := g.bounds ++ [⟨i.1, k, true, e.cond⟩] }
  | none, none => return degenerate g e.cond d

def addEdges (g : Graph) : List Edge → Chk Graph
  | [] => .ok g
  | e :: es => do addEdges (← addEdge g e) es

/-- The constructor looks at the operands before anything else is done (gcs/constraints/difference/difference_constraints.cc:55-64). -/
def checkOperands : List Edge → Chk Unit
  | [] => .ok ()
  | e :: es => do
    let _ ← operandOrThrow e.x
    let _ ← operandOrThrow e.y
    checkOperands es

/-! ## Bellman-Ford -/

/-- Which bounds. -/
inductive Dir where
  | lower
  | upper
  deriving DecidableEq, Repr

/-- `lb_tail_of`, `ub_tail_of`: the bound that is used. -/
def Dir.tail : Dir → Arc → Nat
  | .lower, e => e.src
  | .upper, e => e.dst

/-- `lb_head_of`, `ub_head_of`: the bound that is improved. -/
def Dir.head : Dir → Arc → Nat
  | .lower, e => e.dst
  | .upper, e => e.src

/-- `lb[edge.from] - edge.d`, `ub[edge.to] + edge.d`. -/
def Dir.step : Dir → Int → Int → Chk Int
  | .lower, x, d => iSub x d
  | .upper, x, d => iAdd x d

/-- `candidate > lb[edge.to]`, `candidate < ub[edge.from]`. -/
def Dir.better : Dir → Int → Int → Bool
  | .lower, new, old => decide (new > old)
  | .upper, new, old => decide (new < old)

/-- `state.lower_bound(v)`, `state.upper_bound(v)`. -/
def Dir.bound : Dir → Doms → VarId → Chk Int
  | .lower, d, v => lowerBound d v
  | .upper, d, v => upperBound d v

/-- A bound, and the edge it comes from. The code has a vector of each. -/
abbrev Label := Int × Option Nat

/-- The body of the loop over active edges, without the last lines (gcs/constraints/difference/difference_graph.cc:772-777 and :800-805): what was improved, and the new labels. -/
def relax (dir : Dir) (arcs : List Arc) (e : Nat) (st : List Label) : Chk (Option (Nat × List Label)) := do
  let a ← vecAt arcs e
  let x ← vecAt st (dir.tail a)
  let c ← dir.step x.1 a.d
  let y ← vecAt st (dir.head a)
  return if dir.better c y.1 then some (dir.head a, st.set (dir.head a) (c, some e)) else none

/-- A round before the last. -/
def sweep (dir : Dir) (arcs : List Arc) : List Nat → List Label → Bool → Chk (List Label × Bool)
  | [], st, changed => .ok (st, changed)
  | e :: es, st, changed => do
    match ← relax dir arcs e st with
    | some r => sweep dir arcs es r.2 true
    | none => sweep dir arcs es st changed

/-- The last round, as far as the first improvement. -/
def lastSweep (dir : Dir) (arcs : List Arc) : List Nat → List Label → Chk (Option (Nat × List Label))
  | [], _ => .ok none
  | e :: es, st => do
    match ← relax dir arcs e st with
    | some r => return some r
    | none => lastSweep dir arcs es st

/-- `relax_lower_bounds`, `relax_upper_bounds` (gcs/constraints/difference/difference_graph.cc:764-790 and :792-818): the labels, and a node that was improved in the last round. The number counts down from `round_bound`. -/
def rounds (dir : Dir) (arcs : List Arc) (active : List Nat) : Nat → List Label → Chk (List Label × Option Nat)
  | 0, st => do
    match ← lastSweep dir arcs active st with
    | some r => return (r.2, some r.1)
    | none => return (st, none)
  | k + 1, st => do
    let r ← sweep dir arcs active st false
    if r.2 then rounds dir arcs active k r.1 else return (r.1, none)

/-- The first loop of `extract_cycle` (gcs/constraints/difference/difference_graph.cc:602-609). -/
def seek (dir : Dir) (arcs : List Arc) (st : List Label) : Nat → List Nat → Nat → Chk Nat
  | 0, _, _ => .error .diverge
  | k + 1, seen, at_ => do
    if at_ ∈ seen then return at_
    else
      match (← vecAt st at_).2 with
      | none => throw .unexpected
      | some e => seek dir arcs st k (at_ :: seen) (dir.tail (← vecAt arcs e))

/-- The second loop (gcs/constraints/difference/difference_graph.cc:611-617). `*pred[here]` is undefined if there is none. -/
def around (dir : Dir) (arcs : List Arc) (st : List Label) (target : Nat) : Nat → Nat → Chk (List Nat)
  | 0, _ => .error .diverge
  | k + 1, here => do
    match (← vecAt st here).2 with
    | none => throw .ub
    | some e =>
      let next := dir.tail (← vecAt arcs e)
      if next = target then return [e] else return e :: (← around dir arcs st target k next)

/-- The loop in `contradict_on_cycle` (gcs/constraints/difference/difference_graph.cc:556-569), over each edge and the one after it. -/
def weigh (dir : Dir) (arcs : List Arc) : Int → List (Nat × Nat) → Chk Int
  | w, [] => .ok w
  | w, p :: ps => do
    let here ← vecAt arcs p.1
    let next ← vecAt arcs p.2
    let w ← iAdd w here.d
    if dir.head next ≠ dir.tail here then throw .unexpected else weigh dir arcs w ps

/-- Each edge of the cycle with the next one, the first after the last. -/
def pairs : List Nat → List (Nat × Nat)
  | [] => []
  | e :: es => (e :: es).zip (es ++ [e])

/-- The checks of `contradict_on_cycle` (gcs/constraints/difference/difference_graph.cc:552-571). -/
def checkCycle (dir : Dir) (arcs : List Arc) (cycle : List Nat) : Chk Unit := do
  if cycle = [] then throw .unexpected
  else
    let w ← weigh dir arcs 0 (pairs cycle)
    if w ≥ 0 then throw .unexpected else return ()

/-- Everything that is done before the contradiction. There are as many nodes as labels, so neither loop takes more than that many rounds, and one more to find out that it has ended. -/
def refute (dir : Dir) (arcs : List Arc) (st : List Label) (start : Nat) : Chk Unit := do
  let at_ ← seek dir arcs st (st.length + 1) [] start
  let cycle ← around dir arcs st at_ (st.length + 1) at_
  checkCycle dir arcs cycle

/-- The inner loop of `infer_along_forest` (gcs/constraints/difference/difference_graph.cc:634-641): what is done now, and the chain, with its end first. -/
def chain (dir : Dir) (arcs : List Arc) (st : List Label) : Nat → List Nat → Nat → Chk (List Nat × List Nat)
  | 0, _, _ => .error .diverge
  | k + 1, done, at_ => do
    if at_ ∈ done then return (done, [])
    else
      match (← vecAt st at_).2 with
      | none => return (done, [])
      | some e =>
        let r ← chain dir arcs st k (at_ :: done) (dir.tail (← vecAt arcs e))
        return (r.1, r.2 ++ [at_])

/-- The bounds to begin with. -/
def seeds (dir : Dir) (d : Doms) : List Nat → Chk (List Label)
  | [] => .ok []
  | v :: vs => do
    let b ← dir.bound d (.simple v)
    let r ← seeds dir d vs
    return (b, none) :: r

/-- The active edges (gcs/constraints/difference/difference_graph.cc:1337-1362, and `for_each_active_edge`, :502-512). -/
def activeFrom (d : Doms) : Nat → List Arc → Chk (List Nat)
  | _, [] => .ok []
  | i, e :: es => do
    let b ← (match e.cond with
      | none => Except.ok true
      | some c => do return decide ((← testLiteral d (.cond c)) = .definitelyTrue))
    let r ← activeFrom d (i + 1) es
    return if b then i :: r else r

section
variable {σ μ : Type}

/-- `infer_lower_bound`, `infer_upper_bound` (gcs/constraints/difference/difference_graph.cc:682-704 and :706-728), called with the label of `v`. -/
def pushOne (dir : Dir) (nodes : List Nat) (arcs : List Arc) (st : List Label) (v : Nat) : Prog σ μ Unit := do
  let l ← Prog.lift (vecAt st v)
  match l.2 with
  | none => .raise .ub
  | some e =>
    let a ← Prog.lift (vecAt arcs e)
    let s ← Prog.lift (vecAt st (dir.tail a))
    if dir.head a ≠ v then .raise .unexpected
    else
      let c ← Prog.lift (dir.step s.1 a.d)
      if c ≠ l.1 then .raise .unexpected
      else
        let x ← Prog.lift (vecAt nodes v)
        let b ← Prog.ask (dir.bound · (.simple x))
        if dir.better l.1 b then
          match dir with
          | .lower => Prog.tell (.cond (Cond.ge (.simple x) l.1))
          | .upper => do
            let k ← Prog.lift (iAdd l.1 1)
            Prog.tell (.cond (Cond.lt (.simple x) k))
        else .ret ()

/-- `infer_along_forest` (gcs/constraints/difference/difference_graph.cc:627-644). The test before the inner loop is the one the inner loop begins with. -/
def push (dir : Dir) (nodes : List Nat) (arcs : List Arc) (st : List Label) : Prog σ μ Unit :=
  (Prog.forEachWith (fun done v => do
    let r ← Prog.lift (chain dir arcs st (st.length + 1) done v)
    let _ ← Prog.forEach (pushOne dir nodes arcs st) r.2
    .ret r.1) [] (List.range nodes.length)).bind fun _ => .ret ()

/-- One half of `run_from_scratch` (gcs/constraints/difference/difference_graph.cc:842-865), with `round_bound`. -/
def pass (dir : Dir) (bound : Nat) (nodes : List Nat) (arcs : List Arc) (active : List Nat) : Prog σ μ Unit := do
  let st ← Prog.ask (seeds dir · nodes)
  let r ← Prog.lift (rounds dir arcs active bound st)
  match r.2 with
  | some v => do
    Prog.lift (refute dir arcs r.1 v)
    Prog.fail
  | none => push dir nodes arcs r.1

/-- `apply_difference_static_bounds`, for one of them (gcs/constraints/difference/difference_graph.cc:429-446). -/
def static (nodes : List Nat) (b : Static) : Prog σ μ Unit := do
  let on ← (match b.cond with
    | none => Prog.ret true
    | some c => do
      let t ← Prog.ask (testLiteral · (.cond c))
      return decide (t = .definitelyTrue))
  if on then
    let x ← Prog.lift (vecAt nodes b.node)
    if b.isLower then
      let l ← Prog.ask (lowerBound · (.simple x))
      Prog.onlyIf (l < b.value) (Prog.tell (.cond (Cond.ge (.simple x) b.value)))
    else
      let u ← Prog.ask (upperBound · (.simple x))
      Prog.onlyIf (u > b.value) (do
        let k ← Prog.lift (iAdd b.value 1)
        Prog.tell (.cond (Cond.lt (.simple x) k)))
  else .ret ()

/-- The initialiser (gcs/constraints/difference/difference_graph.cc:1226-1248), without simplification. -/
def start (g : Graph) : Prog σ μ Unit := do
  let _ ← Prog.forEach (fun c => do
    let t ← Prog.ask (testLiteral · (.cond c))
    Prog.onlyIf (t ≠ .definitelyFalse) (Prog.tell (.cond c.not))) g.disallowed
  Prog.forEach (static g.nodes) g.bounds

/-- The propagator (gcs/constraints/difference/difference_graph.cc:1250-1386, and `run_from_scratch`, :842-865). -/
def propWith (bound : Nat) (g : Graph) : Prog σ μ PState := do
  let _ ← Prog.forEach (static g.nodes) g.bounds
  let active ← Prog.ask (activeFrom · 0 g.arcs)
  let _ ← pass .lower bound g.nodes g.arcs active
  let _ ← pass .upper bound g.nodes g.arcs active
  .ret .enable

/-- Without simplification, `round_bound` is the number of nodes (gcs/constraints/difference/difference_graph.cc:1215). -/
def prop (g : Graph) : Prog σ μ PState := propWith g.nodes.length g

/-- The conditions, in the order they are noted (gcs/constraints/difference/difference_graph.cc:1151-1164). -/
def Graph.conds (g : Graph) : List Cond := g.arcs.filterMap (·.cond) ++ g.bounds.filterMap (·.cond) ++ g.disallowed

/-- gcs/constraints/difference/difference_graph.cc:1129-1167. -/
def triggers (g : Graph) : Triggers := { onBounds := g.nodes.map .simple, onChange := (g.conds.map (·.var)).eraseDups }

/-- `DifferenceConstraints(edges).simplifying_at_root(false).incrementally(false)` (gcs/constraints/difference/difference_constraints.cc:55-251, and gcs/constraints/difference/difference_graph.cc:1114-1387). -/
def install (edges : List Edge) (_ : Doms) : Chk (List (Item σ μ)) := do
  checkOperands edges
  let g ← addEdges {} edges
  if g.refuted then return [.init .simpleDefinition Prog.fail]
  else if g.arcs = [] ∧ g.bounds = [] ∧ g.disallowed = [] then return []
  else return [.init .expensive (start g), .prop (prop g) (triggers g)]

end
end Gcs.Difference
