import Verif.Model.Cons.ValueConsistent
import Verif.Model.Heuristics

/-!
# Regular and MDD (`gcs/constraints/regular/regular.cc`, `gcs/constraints/mdd/mdd.cc`)

Both constraints unfold an automaton into a graph with one layer of nodes per variable, keep it in a constraint state, and remove edges from it as values go away. The code is nearly the same in both files, and is modelled
once, for automata whose transitions may depend on the layer (as in MDD) and may have several targets (as in Regular). Where they differ, both are modelled.

Simplified: `out_edges` and `in_edges`, which contain the same edges indexed by source and by target, are one list of edges. A value that labels several edges between two nodes is an edge of its own for each of the
values, and edges are removed one at a time. Vectors indexed by layer and node are functions; targets that do not exist, which would be undefined, are refused when the constraint is installed. Not modelled: proofs
(including the cache of dead nodes, and the other proof strategies of Regular). For regular expressions see `Model/Cons/Regex.lean`.
-/

namespace Gcs.Layered
open IntervalSet

/-- An edge of the graph: from node `src` of a layer to node `dst` of the next layer. -/
structure Edge where
  layer : Nat
  src : Nat
  val : Int
  dst : Nat
  deriving DecidableEq, Repr

/-- `std::set`, as far as its elements are concerned. -/
def toSet {α : Type} [BEq α] (l : List α) : List α := l.foldr List.insert []

/-- The automaton: `next i q v` are the targets from node `q` of layer `i` on value `v` (`find_transitions`, regular.cc:73-80, and `find_transition`, mdd.cc:54-61). -/
structure Auto where
  next : Nat → Nat → Int → List Nat
  final : List Int

/-- `RegularGraph` (regular.cc:92-117) and `MDDGraph` (mdd.cc:63-90). `supp` is `states_supporting`: the triples of layer, value and state. `nodes` is not used after the graph has been made. -/
structure Graph where
  initialised : Bool
  edges : List Edge
  supp : List (Nat × Int × Nat)
  outDeg : Nat → Nat → Int
  inDeg : Nat → Nat → Int

/-- The graph at the start (regular.cc:106-116, mdd.cc:78-89). -/
def Graph.fresh : Graph := ⟨false, [], [], fun _ _ => 0, fun _ _ => 0⟩

/-- One step of the forward phase (regular.cc:161-170, mdd.cc:122-131): which nodes are in the next layer? -/
def reached (A : Auto) (i : Nat) (vals : List Int) (nodes : List Nat) : List Nat := toSet (vals.flatMap fun v => nodes.flatMap fun q => A.next i q v)

/-- The edges of layer `i` whose targets are alive (regular.cc:201-218, mdd.cc:169-185). -/
def liveEdges (A : Auto) (i : Nat) (vals : List Int) (nodes alive : List Nat) : List Edge :=
  vals.flatMap fun v => nodes.flatMap fun q => ((A.next i q v).filter (· ∈ alive)).map fun q' => ⟨i, q, v, q'⟩

/-- The forward phase from layer `i` on, given its nodes and the values of the variables that are left, and then the backward phase down to layer `i` (regular.cc:158-229, mdd.cc:119-195). The result is the list of edges, and
the nodes of layer `i` that are left. -/
def unfold (A : Auto) : Nat → List (List Int) → List Nat → List Edge × List Nat
  | _, [], nodes => ([], nodes.filter fun q => decide ((q : Int) ∈ A.final))
  | i, vals :: rest, nodes =>
    let later := unfold A (i + 1) rest (reached A i vals nodes)
    let here := liveEdges A i vals nodes later.2
    (here ++ later.1, nodes.filter fun q => here.any fun e => decide (e.src = q))

/-- The values of the variables, layer by layer. -/
def layerValues (d : Doms) : List VarId → Chk (List (List Int))
  | [] => .ok []
  | v :: vs => do
    let x ← valuesOf d v
    let xs ← layerValues d vs
    return x :: xs

/-- The degrees are counted when edges are added (regular.cc:208-211, mdd.cc:176-179). -/
def degree (edges : List Edge) (p : Edge → Bool) : Int := edges.countP p

/-- `initialise_graph` (regular.cc:151-230, mdd.cc:114-195). -/
def initialise (A : Auto) (vars : List VarId) (d : Doms) : Chk Graph := do
  let vals ← layerValues d vars
  let edges := (unfold A 0 vals [0]).1
  return ⟨true, edges, toSet (edges.map fun e => (e.layer, e.val, e.src)), fun i q => degree edges fun e => decide (e.layer = i ∧ e.src = q),
    fun i q => degree edges fun e => decide (e.layer + 1 = i ∧ e.dst = q)⟩

/-- `graph.out_deg[i][k]--` -/
def Graph.lessOut (g : Graph) (i k : Nat) : Graph := { g with outDeg := fun j q => if j = i ∧ q = k then g.outDeg j q - 1 else g.outDeg j q }

/-- `graph.in_deg[i][k]--` -/
def Graph.lessIn (g : Graph) (i k : Nat) : Graph := { g with inDeg := fun j q => if j = i ∧ q = k then g.inDeg j q - 1 else g.inDeg j q }

/-- Taking out one edge to a node that has no way to go on, and taking note if its source has no other edge for this value (regular.cc:247-253; for an automaton that is deterministic, also mdd.cc:213-216). -/
def Graph.cutInto (g : Graph) (e : Edge) : Graph :=
  let left := g.edges.erase e
  { g with edges := left, supp := if left.any fun f => decide (f.layer = e.layer ∧ f.src = e.src ∧ f.val = e.val) then g.supp else g.supp.filter fun s => decide (s ≠ (e.layer, e.val, e.src)) }

/-- Taking out one edge from a node that is not reached (regular.cc:269-272, mdd.cc:231-234). -/
def Graph.cutFrom (g : Graph) (e : Edge) : Graph := { g with edges := g.edges.erase e, supp := g.supp.filter fun s => decide (s ≠ (e.layer, e.val, e.src)) }

/-- `decrement_outdeg` (regular.cc:232-259, mdd.cc:197-221). -/
def decOut : Nat → Nat → Graph → Graph
  | 0, k, g => g.lessOut 0 k
  | i + 1, k, g =>
    let g := g.lessOut (i + 1) k
    if g.outDeg (i + 1) k = 0 then (g.edges.filter fun e => decide (e.layer = i ∧ e.dst = k)).foldl (fun g e => decOut i e.src (g.cutInto e)) g else g

/-- `decrement_indeg` (regular.cc:261-278, mdd.cc:223-239), for layer `i`, if there are as many layers after it as the first argument says. -/
def decIn : Nat → Nat → Nat → Graph → Graph
  | 0, i, k, g => g.lessIn i k
  | r + 1, i, k, g =>
    let g := g.lessIn i k
    if g.inDeg i k = 0 then (g.edges.filter fun e => decide (e.layer = i ∧ e.src = k)).foldl (fun g e => decIn r (i + 1) e.dst (g.cutFrom e)) g else g

/-- Removing an edge whose value has gone (regular.cc:331-343, mdd.cc:263-275), `n` being the number of variables. -/
def remove (n : Nat) (g : Graph) (e : Edge) : Graph := decIn (n - (e.layer + 1)) (e.layer + 1) e.dst (decOut e.layer e.src { g with edges := g.edges.erase e })

/-- Which edges from a node are removed if the value has gone. Regular looks for them in the graph (regular.cc:326-329), and MDD in the automaton (mdd.cc:261). -/
inductive Lookup
  | graph
  | automaton
  deriving DecidableEq

def targets (A : Auto) (l : Lookup) (g : Graph) (i q : Nat) (v : Int) : List Edge :=
  match l with
  | .graph => g.edges.filter fun e => decide (e.layer = i ∧ e.src = q ∧ e.val = v)
  | .automaton => (A.next i q v).map fun q' => ⟨i, q, v, q'⟩

/-- All edges of layer `i` with the value `v` (regular.cc:322-329, mdd.cc:260-261). They are collected for all states, and not one state at a time: meanwhile no edge from another state of the layer changes. -/
def doomed (A : Auto) (l : Lookup) (g : Graph) (i : Nat) (v : Int) : List Edge :=
  (g.supp.filter fun s => decide (s.1 = i ∧ s.2.1 = v)).flatMap fun s => targets A l g i s.2.2 v

/-- regular.cc:322-346, mdd.cc:260-277. -/
def dropValue (A : Auto) (l : Lookup) (n i : Nat) (v : Int) (g : Graph) : Graph :=
  let g' := (doomed A l g i v).foldl (remove n) g
  { g' with supp := g'.supp.filter fun s => decide (¬ (s.1 = i ∧ s.2.1 = v)) }

/-- The values that have a support in layer `i`. -/
def Graph.valuesAt (g : Graph) (i : Nat) : List Int := toSet ((g.supp.filter fun s => decide (s.1 = i)).map (·.2.1))

/-- regular.cc:318-347, mdd.cc:256-278: for the given values of layer `i`. -/
def dropValues (A : Auto) (l : Lookup) (n : Nat) (d : Doms) (i : Nat) (v : VarId) : List Int → Graph → Chk Graph
  | [], g => .ok g
  | x :: xs, g => do if ← inDomain d v x then dropValues A l n d i v xs g else dropValues A l n d i v xs (dropValue A l n i x g)

/-- The loop at regular.cc:317-348 and mdd.cc:255-279, from layer `i` on. `order` says in which order values are found in an `unordered_map`. -/
def prune (A : Auto) (l : Lookup) (order : List Int → List Int) (n : Nat) (d : Doms) : Nat → List VarId → Graph → Chk Graph
  | _, [], g => .ok g
  | i, v :: vs, g => do prune A l order n d (i + 1) vs (← dropValues A l n d i v (order (g.valuesAt i)) g)

section
variable {σ μ : Type}

/-- regular.cc:352-353, mdd.cc:283-284. -/
def keepValue (g : Graph) (i : Nat) (v : VarId) (x : Int) : Prog σ μ Unit :=
  Prog.onlyIf (¬ ∃ s ∈ g.supp, s.1 = i ∧ s.2.1 = x) (Prog.tell (.cond (Cond.ne v x)))

/-- The loop at regular.cc:350-355 and mdd.cc:281-286, from layer `i` on. -/
def keepValues (g : Graph) : Nat → List VarId → Prog σ μ Unit
  | _, [] => .ret ()
  | i, v :: vs => do
    let gen ← Prog.ask (eachValue · v)
    Prog.forGen (keepValue g i v) gen
    keepValues g (i + 1) vs

/-- Where the graph is stored, and the order in which values are found, which depends on the time. -/
structure Store (σ : Type) where
  kind : Kind σ Graph
  handle : Nat
  order : Nat → List Int → List Int

/-- The graph at the end of the call: made if there was none, and without the values that have gone. -/
def update (A : Auto) (l : Lookup) (order : List Int → List Int) (vars : List VarId) (g : Graph) (d : Doms) : Chk Graph := do
  let g ← (if g.initialised then .ok g else initialise A vars d)
  prune A l order vars.length d 0 vars g

/-- `propagate_mdd` (mdd.cc:241-287), and `propagate_regular` (regular.cc:280-356) without its first part. -/
def prop (A : Auto) (l : Lookup) (st : Store σ) (vars : List VarId) : Prog σ μ PState := .read fun s =>
  match (s.st.cstates.headD [])[st.handle]? with
  | none => .raise .ub
  | some c =>
    match st.kind.get c with
    | none => .raise .unexpected
    | some g =>
      (Prog.ask (update A l (st.order s.total) vars g)).bind fun g' => .setState st.handle (st.kind.put g')
        ((keepValues g' 0 vars).bind fun _ => .ret .enable)

end
end Gcs.Layered

namespace Gcs

/-! ## Regular -/

namespace Regular
open Layered

/-- `find_transitions` (regular.cc:73-80), for transitions as in `_transitions`: for each state, a map from values to sets of states. -/
def auto (transitions : List (List (Int × List Int))) (final : List Int) : Auto :=
  ⟨fun _ q v => match transitions[q]? with | some m => toSet (((m.lookup v).getD []).map Int.toNat) | none => [], final⟩

/-- The constructor that takes a map from values to targets for each state (regular.cc:466-474). -/
def ofMaps (t : List (List (Int × Int))) : List (List (Int × List Int)) := t.map fun m => (m.filter fun p => decide (p.2 ≠ -1)).map fun p => (p.1, [p.2])

/-- The entries of one row, from column `j` on. -/
def ofRow : Nat → List Int → List (Int × List Int)
  | _, [] => []
  | j, t :: ts => if t ≠ -1 then ((j : Int), [t]) :: ofRow (j + 1) ts else ofRow (j + 1) ts

/-- The constructor that takes a matrix of targets (regular.cc:476-484). -/
def ofRows (numStates : Nat) (t : List (List Int)) : Chk (List (List (Int × List Int))) :=
  if t.length ≤ numStates then .ok (t.map (ofRow 0) ++ List.replicate (numStates - t.length) []) else .error .ub

/-- All states that occur exist. -/
def inRange (numStates : Nat) (transitions : List (List (Int × List Int))) : Bool :=
  decide (0 < numStates) && decide (numStates ≤ transitions.length) && transitions.all fun m => m.all fun p => p.2.all fun q => decide (0 ≤ q ∧ q < numStates)

section
variable {σ μ : Type}

/-- `propagate_regular` (regular.cc:280-356). -/
def prop (A : Auto) (st : Store σ) (vars : List VarId) : Prog σ μ PState :=
  if vars = [] then (if (0 : Int) ∈ A.final then .ret .enable else .fail) else Layered.prop A .graph st vars

/-- `Regular` (regular.cc:466-497, 517-587, 635-668). -/
def install (numStates : Nat) (transitions : List (List (Int × List Int))) (final : List Int) (st : Store σ) (vars : List VarId) : Chk (List (Item σ μ)) :=
  if inRange numStates transitions then .ok [.prop (prop (auto transitions final) st vars) { onChange := vars }] else .error .ub

end
end Regular

/-! ## MDD -/

namespace MDD
open Layered

/-- `find_transition` (mdd.cc:54-61), for transitions as in `_layer_transitions`: for each layer and node, a map from values to nodes of the next layer, or -1. -/
def auto (layers : List (List (List (Int × Int)))) (final : List Int) : Auto :=
  ⟨fun i q v => match (layers[i]?.getD [])[q]? with
    | some m => match m.lookup v with
      | some t => if t = -1 then [] else [t.toNat]
      | none => []
    | none => [], final⟩

/-- The exceptions of the constructor (mdd.cc:440-448). -/
def shaped (k : Nat) (layers : List (List (List (Int × Int)))) (nodes : List Nat) : Bool :=
  decide (nodes.length = k + 1) && decide (layers.length = k) && decide (nodes[0]? = some 1) && (List.range k).all fun i => decide ((nodes[i]?.getD 0) ≤ (layers[i]?.getD []).length)

/-- All targets exist. This is not checked by the code. -/
def inRange (layers : List (List (List (Int × Int)))) (nodes : List Nat) : Bool :=
  (List.range layers.length).all fun i => (layers[i]?.getD []).all fun m => m.all fun p => decide (p.2 = -1 ∨ 0 ≤ p.2 ∧ p.2 < (nodes[i + 1]?.getD 0))

section
variable {σ μ : Type}

/-- `MDD` (mdd.cc:433-476, 524-556). -/
def install (layers : List (List (List (Int × Int)))) (nodes : List Nat) (final : List Int) (st : Store σ) (vars : List VarId) : Chk (List (Item σ μ)) :=
  if ¬ shaped vars.length layers nodes then .error .invalidProblem
  else if ¬ inRange layers nodes then .error .ub
  else .ok [.prop (prop (auto layers final) .automaton st vars) { onChange := vars }]

end
end MDD
end Gcs
