import Verif.Model.Cons.Matching

/-!
# Maximum flows (`MaxFlow` in `gcs/constraints/global_cardinality/gac_global_cardinality.cc`)

The code keeps two entries for each edge, in the vectors of its two ends: the capacity that is left, and for the reverse edge the flow. Here an edge has a capacity and a flow, and the entries of a vertex, in the order in which
they are in its vector, are `arcs`. The scratch memory that is kept between calls is always cleared first, and so not modelled. Numbers are not bounded here; the capacities given are at most the number of variables plus one.
-/

namespace Gcs.Flow
open Gac (put)

/-- gac_global_cardinality.cc:67-72, and the capacity of the reverse edge, which is the flow. -/
structure Edge where
  src : Nat
  dst : Nat
  cap : Int
  flow : Int
deriving DecidableEq, Repr

/-- An entry in the vector of a vertex: the edge `edge`, or its reverse. -/
structure Arc where
  edge : Nat
  forward : Bool
  dst : Nat
deriving DecidableEq, Repr

/-- The vector of `u` after `add_edge` for all edges in turn (gac_global_cardinality.cc:89-95). -/
def arcsFrom (u : Nat) : Nat → List Edge → List Arc
  | _, [] => []
  | k, e :: es => (if e.src = u then [⟨k, true, e.dst⟩] else []) ++ ((if e.dst = u then [⟨k, false, e.src⟩] else []) ++ arcsFrom u (k + 1) es)

def arcs (g : List Edge) (u : Nat) : List Arc := arcsFrom u 0 g

/-- `e.cap` -/
def left (g : List Edge) (a : Arc) : Int :=
  match g[a.edge]? with
  | none => 0
  | some e => if a.forward then e.cap - e.flow else e.flow

/-- `e.cap -= d; g[e.to][e.rev].cap += d` -/
def push (g : List Edge) (a : Arc) (d : Int) : List Edge :=
  g.modify a.edge fun e => { e with flow := if a.forward then e.flow + d else e.flow - d }

/-- The loop at gac_global_cardinality.cc:105-109: the levels, and what there is after `u` in the queue. -/
def reach (g : List Edge) (u : Nat) : List Arc → (Nat → Int) → List Nat → (Nat → Int) × List Nat
  | [], lv, q => (lv, q)
  | a :: as, lv, q => if left g a > 0 ∧ lv a.dst < 0 then reach g u as (put lv a.dst (lv u + 1)) (q ++ [a.dst]) else reach g u as lv q

/-- The loop at gac_global_cardinality.cc:103-110. -/
def levels (g : List Edge) : Nat → List Nat → (Nat → Int) → Chk (Nat → Int)
  | 0, _, _ => .error .diverge
  | _ + 1, [], lv => .ok lv
  | fuel + 1, u :: q, lv =>
    let x := reach g u (arcs g u) lv q
    levels g fuel x.2 x.1

/-- `bfs` (gac_global_cardinality.cc:97-112) with `n` vertices: the levels. -/
def bfs (n : Nat) (g : List Edge) (s : Nat) : Chk (Nat → Int) := levels g (n + 1) [s] (put (fun _ => -1) s 0)

/-- The loop at gac_global_cardinality.cc:118-128. `it` is `iter`; what is left to do at `u` is the list. A call for a vertex at a higher level does not change `iter[u]`. -/
def tryArcs (again : Nat → Int → List Edge → (Nat → Nat) → Chk (Int × List Edge × (Nat → Nat))) (lv : Nat → Int) (u : Nat) (f : Int) :
    List Arc → List Edge → (Nat → Nat) → Chk (Int × List Edge × (Nat → Nat))
  | [], g, it => .ok (0, g, it)
  | a :: as, g, it =>
    if left g a > 0 ∧ lv u < lv a.dst then do
      let x ← again a.dst (min f (left g a)) g it
      if x.1 > 0 then .ok (x.1, push x.2.1 a x.1, x.2.2)
      else tryArcs again lv u f as x.2.1 (put x.2.2 u (x.2.2 u + 1))
    else tryArcs again lv u f as g (put it u (it u + 1))

/-- `dfs` (gac_global_cardinality.cc:114-130). -/
def dfs (lv : Nat → Int) (t : Nat) : Nat → Nat → Int → List Edge → (Nat → Nat) → Chk (Int × List Edge × (Nat → Nat))
  | 0, _, _, _, _ => .error .diverge
  | fuel + 1, u, f, g, it => if u = t then .ok (f, g, it) else tryArcs (dfs lv t fuel) lv u f ((arcs g u).drop (it u)) g it

/-- The loop at gac_global_cardinality.cc:137-138. -/
def augment (n : Nat) (lv : Nat → Int) (s t : Nat) : Nat → Int → List Edge → (Nat → Nat) → Chk (Int × List Edge)
  | 0, _, _, _ => .error .diverge
  | fuel + 1, flow, g, it => do
    let x ← dfs lv t (n + 1) s 9223372036854775807 g it
    if x.1 = 0 then .ok (flow, x.2.1) else augment n lv s t fuel (flow + x.1) x.2.1 x.2.2

/-- All capacities together, which bounds the number of times that a flow can be increased. -/
def total (g : List Edge) : Nat := (g.map fun e => e.cap.toNat).sum

/-- The loop at gac_global_cardinality.cc:135-139. -/
def phases (n s t : Nat) : Nat → Int → List Edge → Chk (Int × List Edge)
  | 0, _, _ => .error .diverge
  | fuel + 1, flow, g => do
    let lv ← bfs n g s
    if lv t ≥ 0 then do
      let x ← augment n lv s t (total g + 1) flow g fun _ => 0
      phases n s t fuel x.1 x.2
    else .ok (flow, g)

/-- `max_flow` (gac_global_cardinality.cc:132-141). -/
def maxFlow (n s t : Nat) (g : List Edge) : Chk (Int × List Edge) := phases n s t (total g + 1) 0 g

end Gcs.Flow
