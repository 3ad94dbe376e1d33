import Verif.Model.Cons.DifferenceSimplify

/-!
# Differences, simplified at the root

`run_difference_root_simplification` (gcs/constraints/difference/difference_graph.cc:188-418), and what `DifferenceConstraints` does with it: the initialiser (:1226-1248) ends by replacing the graph and the number of rounds that
the propagator uses (`DifferenceRootGraph`). Here the initialiser returns them. Statistics and proofs are not modelled. The vector `dropped` is a list of the edges for which it is true.
-/

namespace Gcs.Difference

/-- One edge (gcs/constraints/difference/difference_graph.cc:228-245). -/
def roleOf (d : Doms) (dropped : List Nat) (e : Nat) (a : Arc) : Chk Role :=
  if e ∈ dropped then .ok .ignored
  else match a.cond with
    | none => .ok .base
    | some c => do
      match ← testLiteral d (.cond c) with
      | .definitelyTrue => return .base
      | .definitelyFalse => return .ignored
      | .undecided => return .candidate

/-- All of them. -/
def classify (d : Doms) (dropped : List Nat) : Nat → List Arc → Chk (List Role)
  | _, [] => .ok []
  | i, a :: as => do
    let r ← roleOf d dropped i a
    let rs ← classify d dropped (i + 1) as
    return r :: rs

/-- What has been dropped after the edges have been classified: whatever is now ignored. -/
def ignored (roles : List Role) : List Nat := (List.range roles.length).filter fun e => roles[e]? = some .ignored

/-- The loop over the witness (gcs/constraints/difference/difference_graph.cc:297-312): where it ends, and its weight. -/
def follow (arcs : List Arc) : List Nat → Nat → Int → Chk (Nat × Int)
  | [], at_, w => .ok (at_, w)
  | e :: es, at_, w => do
    let a ← vecAt arcs e
    if a.src ≠ at_ then throw .unexpected
    else
      let w ← iAdd w a.d
      follow arcs es a.dst w

/-- The checks of the witness (gcs/constraints/difference/difference_graph.cc:294-323), and the condition. -/
def check (arcs : List Arc) (e : Nat) (path : List Nat) : Chk Cond := do
  let a ← vecAt arcs e
  let r ← follow arcs path a.dst a.d
  if r.1 ≠ a.src then throw .unexpected
  else if r.2 ≥ 0 then throw .unexpected
  else match a.cond with
    | none => throw .unexpected
    | some c => return c

section
variable {σ μ : Type}

/-- One round of the loop over conditions to fix (gcs/constraints/difference/difference_graph.cc:283-377): what has been dropped, and `progress`. -/
def fixOne (arcs : List Arc) (st : List Nat × Bool) (f : Nat × List Nat) : Prog σ μ (List Nat × Bool) :=
  if f.1 ∈ st.1 then .ret st
  else do
    let c ← Prog.lift (check arcs f.1 f.2)
    let _ ← Prog.tell (.cond c.not)
    .ret (f.1 :: st.1, true)

/-- The loop (gcs/constraints/difference/difference_graph.cc:225-381): what has been dropped at its end. Each round but the last drops an edge, so one more than there are edges is enough. -/
def rootLoop (n : Nat) (arcs : List Arc) : Nat → List Nat → Prog σ μ (List Nat)
  | 0, _ => .raise .diverge
  | k + 1, dropped => do
    let roles ← Prog.ask (classify · dropped 0 arcs)
    let o ← Prog.lift (simplify n arcs roles)
    match o with
    | none => .ret (ignored roles)
    | some o =>
      if o.fix = [] then .ret (ignored roles ++ o.removed)
      else do
        let r ← Prog.forEachWith (fixOne arcs) (ignored roles ++ o.removed, false) o.fix
        if r.2 then rootLoop n arcs k r.1 else .ret r.1

/-- gcs/constraints/difference/difference_graph.cc:386-403. -/
def keep (dropped : List Nat) (arcs : List Arc) : List Arc := (arcs.zipIdx.filter fun p => p.2 ∉ dropped).map (·.1)

/-- `live_count` (gcs/constraints/difference/difference_graph.cc:410-415). -/
def liveCount (n : Nat) (arcs : List Arc) : Nat := ((List.range n).filter fun v => arcs.any fun a => a.src = v || a.dst = v).length

/-- The graph that is left, and `round_bound` (gcs/constraints/difference/difference_graph.cc:188-418). -/
def simplifyRoot (g : Graph) : Prog σ μ (Graph × Nat) :=
  if g.arcs = [] then .ret (g, g.nodes.length)
  else do
    let dropped ← rootLoop g.nodes.length g.arcs (g.arcs.length + 1) []
    .ret ({ g with arcs := keep dropped g.arcs }, liveCount g.nodes.length (keep dropped g.arcs))

/-- The initialiser (gcs/constraints/difference/difference_graph.cc:1226-1248), with simplification. -/
def startRoot (g : Graph) : Prog σ μ (Graph × Nat) := do
  let _ ← start g
  simplifyRoot g

end
end Gcs.Difference
