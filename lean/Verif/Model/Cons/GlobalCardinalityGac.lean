import Verif.Model.Cons.GlobalCardinality
import Verif.Model.Cons.Flow

/-!
# GlobalCardinality, generalised arc consistent (`gcs/constraints/global_cardinality/gac_global_cardinality.cc`)
-/

namespace Gcs.GlobalCardinality.Gac
open IntervalSet Flow
open Gcs.Gac (put Scc)

/-- gac_global_cardinality.cc:154-159. -/
structure Orig where
  src : Nat
  dst : Nat
  lo : Int
  hi : Int
deriving DecidableEq, Repr

/-- A loop that appends to a vector. -/
def gather {α β : Type} (f : α → Chk (List β)) : List α → Chk (List β)
  | [] => .ok []
  | x :: xs => do
    let ys ← f x
    let zs ← gather f xs
    return ys ++ zs

/-- The nodes (gac_global_cardinality.cc:247-253), for `m` values: 0 is the source, 1 the sink. -/
abbrev valueNode (j : Nat) : Nat := 2 + j
abbrev dummyNode (m : Nat) : Nat := 2 + m
abbrev varNode (m i : Nat) : Nat := 2 + m + 1 + i

/-- The edges for one value (gac_global_cardinality.cc:276-286). -/
def valueEdges (d : Doms) (vars : List VarId) (m : Nat) (p : (Int × VarId) × Nat) : Chk (List Orig) := do
  let b ← bounds d p.1.2
  let xs ← keepIf (fun q : VarId × Nat => inDomain d q.1 p.1.1) vars.zipIdx
  return ⟨0, valueNode p.2, if b.1 < 0 then 0 else b.1, b.2⟩ :: xs.map fun q => ⟨valueNode p.2, varNode m q.2, 0, 1⟩

/-- The edges for values that are not in the cover (gac_global_cardinality.cc:289-304). -/
def otherEdges (d : Doms) (vars : List VarId) (vals : List Int) : Bool → Chk (List Orig)
  | true => .ok []
  | false => do
    let xs ← keepIf (fun q : VarId × Nat => do return ! (← subset vals d q.1)) vars.zipIdx
    return ⟨0, dummyNode vals.length, 0, (vars.length : Int) + 1⟩ :: xs.map fun q => ⟨dummyNode vals.length, varNode vals.length q.2, 0, 1⟩

/-- The original edges (gac_global_cardinality.cc:276-308). -/
def network (d : Doms) (vars : List VarId) (cover : List (Int × VarId)) (closed : Bool) : Chk (List Orig) := do
  let xs ← gather (valueEdges d vars cover.length) cover.zipIdx
  let ys ← otherEdges d vars (cover.map (·.1)) closed
  return xs ++ ys ++ (List.range vars.length).map (fun i => ⟨varNode cover.length i, 1, 1, 1⟩) ++ [⟨1, 0, 0, (vars.length : Int) + 1⟩]

/-- `excess[v]` (gac_global_cardinality.cc:265-270). -/
def excess (es : List Orig) (v : Nat) : Int := (es.map fun e => (if e.dst = v then e.lo else 0) - (if e.src = v then e.lo else 0)).sum

/-- The edges of the super source and sink, which come after `n` nodes (gac_global_cardinality.cc:310-319). -/
def balance (es : List Orig) (n : Nat) : List Edge :=
  (List.range n).flatMap fun v => if excess es v > 0 then [⟨n, v, excess es v, 0⟩] else if excess es v < 0 then [⟨v, n + 1, - excess es v, 0⟩] else []

/-- `need` -/
def need (es : List Orig) (n : Nat) : Int := ((List.range n).map fun v => if excess es v > 0 then excess es v else 0).sum

/-- Whether there is a feasible flow, and the flow on each of the original edges (gac_global_cardinality.cc:310-327). -/
def feasible (es : List Orig) (n : Nat) : Chk (Bool × List Int) := do
  let r ← maxFlow (n + 2) n (n + 1) (es.map (fun e => ⟨e.src, e.dst, e.hi - e.lo, 0⟩) ++ balance es n)
  return (decide (r.1 = need es n), List.zipWith (fun e f => e.lo + f.flow) es r.2)

/-- `flow[assign_edge(j, i)]` and `flow[dummy_edge[i]]`: the flow on the edge from `u` to `v`, if there is that edge. -/
def flowOn (es : List Orig) (fl : List Int) (u v : Nat) : Option Int := ((es.zip fl).find? fun p => p.1.src = u ∧ p.1.dst = v).map (·.2)

/-- Whether nothing flows into a variable (gac_global_cardinality.cc:335-346). -/
def unassigned (fl : Nat → Nat → Option Int) (m i : Nat) : Bool :=
  decide (((List.range m).map fun j => (fl (valueNode j) (varNode m i)).getD 0).sum + (fl (dummyNode m) (varNode m i)).getD 0 = 0)

/-- One round of the loops at gac_global_cardinality.cc:354-371 and :421-438, which are alike with variables and values exchanged. `b` is the set that the round goes over, `a` the other one; the `Bool` is `grew`. -/
def growRound {α : Type} (test : α → (Nat → Bool) → Chk Bool) (adds : Nat → Nat → Bool) : List (α × Nat) → (Nat → Bool) → (Nat → Bool) → Bool → Chk ((Nat → Bool) × (Nat → Bool) × Bool)
  | [], a, b, g => .ok (a, b, g)
  | p :: ps, a, b, g =>
    if b p.2 then growRound test adds ps a b g
    else do
      let t ← test p.1 a
      if t then growRound test adds ps (fun i => a i || adds p.2 i) (put b p.2 true) true
      else growRound test adds ps a b g

/-- gac_global_cardinality.cc:350-372 and :417-439. -/
def grow {α : Type} (test : α → (Nat → Bool) → Chk Bool) (adds : Nat → Nat → Bool) (ps : List (α × Nat)) : Nat → (Nat → Bool) → (Nat → Bool) → Chk ((Nat → Bool) × (Nat → Bool))
  | 0, _, _ => .error .diverge
  | fuel + 1, a, b => do
    let x ← growRound test adds ps a b false
    if x.2.2 then grow test adds ps fuel x.1 x.2.1 else return (x.1, x.2.1)

/-- `in_neighbourhood` (gac_global_cardinality.cc:358-363): whether a variable of the set has the value. -/
def wanted (d : Doms) (vars : List VarId) (p : Int × VarId) (a : Nat → Bool) : Chk Bool := anyOf (fun q : VarId × Nat => if a q.2 then inDomain d q.1 p.1 else .ok false) vars.zipIdx

/-- `meets` (gac_global_cardinality.cc:425-430): whether the variable has a value of the set. -/
def supplies (d : Doms) (cover : List (Int × VarId)) (x : VarId) (b : Nat → Bool) : Chk Bool := anyOf (fun p : (Int × VarId) × Nat => if b p.2 then inDomain d x p.1.1 else .ok false) cover.zipIdx

/-- A sum of bounds of counts. -/
def sumBounds (d : Doms) (f : Int × Int → Int) : Int → List VarId → Chk Int
  | s, [] => .ok s
  | s, x :: xs => do
    let s' ← iAdd s (f (← bounds d x))
    sumBounds d f s' xs

/-- Whether the loop at gac_global_cardinality.cc:383-394 finds only values of the set. -/
def onlyIn (hall : List Int) (d : Doms) (x : VarId) : Chk Bool := do
  return ! (← anyOfGen (fun v => .ok (! decide (v ∈ hall))) (← eachValue d x))

/-- Whether the values reached from a variable without a value have too little capacity (gac_global_cardinality.cc:349-399). -/
def capacityCut (d : Doms) (vars : List VarId) (cover : List (Int × VarId)) (fl : Nat → Nat → Option Int) (i : Nat) : Chk Bool := do
  let x ← grow (wanted d vars) (fun j i => decide (fl (valueNode j) (varNode cover.length i) = some 1)) cover.zipIdx (cover.length + 2) (put (fun _ => false) i true) fun _ => false
  let cut := (cover.zipIdx.filter fun p => x.2 p.2).map (·.1)
  let cap ← sumBounds d (·.2) 0 (cut.map (·.2))
  let confined ← keepIf (onlyIn (cut.map (·.1)) d) vars
  let k ← ofSize confined.length
  return decide (¬ k ≤ cap) && ! cut.isEmpty

/-- Whether less flows out of the value than its count has to be (gac_global_cardinality.cc:409-414). -/
def undersupplied (d : Doms) (n : Nat) (fl : Nat → Nat → Option Int) (m : Nat) (p : (Int × VarId) × Nat) : Chk Bool := do
  let b ← bounds d p.1.2
  return decide (((List.range n).map fun i => (fl (valueNode p.2) (varNode m i)).getD 0).sum < b.1)

/-- The first element with the property. -/
def firstOf {α : Type} (p : α → Chk Bool) : List α → Chk (Option α)
  | [] => .ok none
  | x :: xs => do
    if ← p x then return some x else firstOf p xs

/-- Whether the values reached from an undersupplied one have too few variables (gac_global_cardinality.cc:406-453). -/
def demandCut (d : Doms) (vars : List VarId) (cover : List (Int × VarId)) (fl : Nat → Nat → Option Int) : Chk Bool := do
  match ← firstOf (undersupplied d vars.length fl cover.length) cover.zipIdx with
  | none => return false
  | some u =>
    let x ← grow (supplies d cover) (fun i j => decide (fl (valueNode j) (varNode cover.length i) = some 1)) vars.zipIdx (vars.length + 2) (put (fun _ => false) u.2 true) fun _ => false
    let cut := (cover.zipIdx.filter fun p => x.1 p.2).map (·.1)
    let demand ← sumBounds d (·.1) 0 (cut.map (·.2))
    let k ← ofSize (vars.zipIdx.filter fun q => x.2 q.2).length
    return decide (¬ k ≥ demand) && ! cut.isEmpty

/-- What is to be done: fail, nothing, or look for values without support. -/
inductive Verdict where
  | fail
  | leave
  | prune (fl : Nat → Nat → Option Int) (comp : Nat → Nat)

/-- Without a feasible flow (gac_global_cardinality.cc:329-488). -/
def infeasible (d : Doms) (vars : List VarId) (cover : List (Int × VarId)) (closed : Bool) (fl : Nat → Nat → Option Int) : Chk Verdict := do
  let un := (List.range vars.length).find? (unassigned fl cover.length)
  let c ← (match un with
    | none => .ok false
    | some i => capacityCut d vars cover fl i)
  if c then return .fail
  else do
    let e ← demandCut d vars cover fl
    if e then return .fail
    else if closed ∧ un.isSome then return .leave
    else .error .unexpected

/-- The residual graph (gac_global_cardinality.cc:495-500). -/
def residual (es : List Orig) (fl : List Int) (v : Nat) : List Nat :=
  (es.zip fl).flatMap fun p => (if p.1.src = v ∧ p.2 < p.1.hi then [p.1.dst] else []) ++ (if p.1.dst = v ∧ p.2 > p.1.lo then [p.1.src] else [])

/-- gac_global_cardinality.cc:240-563. -/
def verdict (vars : List VarId) (cover : List (Int × VarId)) (closed : Bool) (d : Doms) : Chk Verdict := do
  let n := 2 + cover.length + 1 + vars.length
  let es ← network d vars cover closed
  let r ← feasible es n
  if r.1 then do
    let s ← Scc.roots true (residual es r.2) n (List.range n) {}
    return .prune (flowOn es r.2) s.comp
  else infeasible d vars cover closed (flowOn es r.2)

section
variable {σ μ : Type}

/-- gac_global_cardinality.cc:599-664, for one value and one variable. -/
def pruneOne (fl : Nat → Nat → Option Int) (comp : Nat → Nat) (m : Nat) (p : (Int × VarId) × Nat) (q : VarId × Nat) : Prog σ μ Unit :=
  Prog.onlyIf (fl (valueNode p.2) (varNode m q.2) = some 0 ∧ comp (valueNode p.2) ≠ comp (varNode m q.2)) (Prog.tell (.cond (Cond.ne q.1 p.1.1)))

/-- gac_global_cardinality.cc:670-701, for one variable. -/
def pruneOther (vals : List Int) (fl : Nat → Nat → Option Int) (comp : Nat → Nat) (q : VarId × Nat) : Prog σ μ Unit :=
  Prog.onlyIf (fl (dummyNode vals.length) (varNode vals.length q.2) = some 0 ∧ comp (dummyNode vals.length) ≠ comp (varNode vals.length q.2)) (do
    let g ← Prog.ask (eachValue · q.1)
    Prog.forGen (fun v => Prog.onlyIf (bisect vals v = false) (Prog.tell (.cond (Cond.ne q.1 v)))) g)

/-- What follows from the flow (gac_global_cardinality.cc:329-703). -/
def act (vars : List VarId) (cover : List (Int × VarId)) : Verdict → Prog σ μ PState
  | .fail => Prog.fail
  | .leave => .ret .enable
  | .prune fl comp => do
    Prog.forEach (fun p => Prog.forEach (pruneOne fl comp cover.length p) vars.zipIdx) cover.zipIdx
    Prog.forEach (pruneOther (cover.map (·.1)) fl comp) vars.zipIdx
    return .enable

/-- `propagate_gac_global_cardinality` (gac_global_cardinality.cc:197-704). -/
def gacProp (vars : List VarId) (cover : List (Int × VarId)) (closed : Bool) : Prog σ μ PState := do
  Prog.forEach (fun p => do
    let _ ← countBounds vars p
    return ()) cover
  let v ← Prog.ask (verdict vars cover closed)
  act vars cover v

/-- `GlobalCardinality` with `consistency::GAC` (global_cardinality.cc:69-76 and :108-172). The values are not sorted. -/
def install (vars : List VarId) (values : List Int) (counts : List VarId) (closed : Bool) (_ : Doms) : Chk (List (Item σ μ)) := do
  let cover ← pairUp values counts
  return closedItems vars values closed ++ [.prop (gacProp vars cover closed) { onChange := vars, onBounds := counts }]

end
end Gcs.GlobalCardinality.Gac
