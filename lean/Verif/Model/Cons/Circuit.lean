import Verif.Model.Cons.Inverse
import Verif.Model.Cons.ValueConsistent

/-!
# Circuit (`gcs/constraints/circuit/circuit.cc`, `circuit_base.cc`, `circuit_scc.cc`, `circuit_prevent.cc`)

Vectors indexed by nodes are functions here, and it is checked when a value is used as a node that it is in range (`toNode`). Proof logging is left out, and so is `with_gac_all_different` (off by default), which
posts an AllDifferent as well.
-/

namespace Gcs
namespace Circuit
open IntervalSet AllDifferent Gac

/-- A value used as an index into vectors with `n` elements; anything out of range is undefined behaviour. -/
def toNode (n : Nat) (w : Int) : Chk Nat := if 0 ≤ w ∧ w < n then .ok w.toNat else .error .ub

section
variable {σ μ : Type}

/-- `for (const auto & w : state.each_value_mutable(x)) ...` with variables that the loop changes. -/
def overValues {β : Type} (x : VarId) (f : β → Int → Prog σ μ β) (b : β) : Prog σ μ β := do
  let g ← Prog.ask (eachValue · x)
  let r ← Prog.forEachWith f b g.1
  match g.2 with
  | none => return r
  | some e => Prog.raise e

/-- `SCCOptions` (circuit_scc.hh:19-29), those that have an effect without proofs. -/
structure Options where
  pruneRoot : Bool := true
  pruneSkip : Bool := true
  fixReq : Bool := true

/-- `SCCPropagatorData` (circuit_scc.cc:66-84), without `root`, which is always 0, and `prev_subroot`, which is for proofs. A visit number of -1 is `none`; `lowlink` is only looked at for nodes that have been
visited. -/
structure Scc where
  count : Nat
  low : Nat → Nat
  visit : Nat → Option Nat
  startPrev : Nat
  endPrev : Nat

/-- circuit_scc.cc:77-83. -/
def Scc.init : Scc := { count := 1, low := fun _ => 0, visit := put (fun _ => none) 0 (some 0), startPrev := 0, endPrev := 0 }

/-- circuit_scc.cc:944-946. -/
def Scc.enter (s : Scc) (node : Nat) : Scc := { s with visit := put s.visit node (some s.count), low := put s.low node s.count, count := s.count + 1 }

/-- `data.lowlink[node] = pos_min(data.lowlink[node], k)`; neither is -1 when this is done. -/
def Scc.lower (s : Scc) (node k : Nat) : Scc := { s with low := put s.low node (min (s.low node) k) }

/-- Whether a visit number is in the previous subtree (circuit_scc.cc:960). -/
abbrev Scc.InPrev (s : Scc) (k : Nat) : Prop := s.startPrev ≤ k ∧ k ≤ s.endPrev

/-- The loop body at circuit_scc.cc:950-984, for `x = succ[node]`. `visit` is what explores another node. -/
def edge (o : Options) (n : Nat) (visit : Nat → Scc → Prog σ μ (Scc × List (Nat × Nat))) (node : Nat) (x : VarId) (acc : Scc × List (Nat × Nat)) (w : Int) : Prog σ μ (Scc × List (Nat × Nat)) := do
  let next ← Prog.lift (toNode n w)
  match acc.1.visit next with
  | none =>
    let r ← visit next acc.1
    return (r.1.lower node (r.1.low next), acc.2 ++ r.2)
  | some k =>
    if acc.1.InPrev k then return (acc.1.lower node k, acc.2 ++ [(node, next)])
    else
      Prog.onlyIf (o.pruneSkip ∧ k < acc.1.startPrev) (Prog.tell (.cond (Cond.ne x w)))
      return (acc.1.lower node k, acc.2)

/-- `explore` (circuit_scc.cc:940-996), with a bound on how deep calls are nested, which is never reached. -/
def explore (o : Options) (succ : List VarId) : Nat → Nat → Scc → Prog σ μ (Scc × List (Nat × Nat))
  | 0, _, _ => .raise .diverge
  | f + 1, node, s => do
    let x ← Prog.lift (vecAt succ node)
    let r ← overValues x (edge o succ.length (fun next s' => explore o succ f next s') node x) (s.enter node, [])
    if r.1.visit node = some (r.1.low node) then Prog.fail else return r

/-- What is done about the back edges (circuit_scc.cc:1009-1034). -/
def useBackEdges (o : Options) (succ : List VarId) : List (Nat × Nat) → Prog σ μ Unit
  | [] => Prog.fail
  | [e] => Prog.onlyIf o.fixReq do
    let x ← Prog.lift (vecAt succ e.1)
    let v ← Prog.ask (optionalSingleValue · x)
    Prog.onlyIf (v = none) (Prog.tell (.cond (Cond.eq x e.2)))
  | _ => return ()

/-- The loop body at circuit_scc.cc:1004-1039. -/
def subtree (o : Options) (succ : List VarId) (s : Scc) (v : Int) : Prog σ μ Scc := do
  let next ← Prog.lift (toNode succ.length v)
  match s.visit next with
  | some _ => return s
  | none =>
    let r ← explore o succ (succ.length + 1) next s
    useBackEdges o succ r.2
    return { r.1 with startPrev := r.1.endPrev + 1, endPrev := r.1.count - 1 }

/-- The loop body at circuit_scc.cc:1052-1060. -/
def cutRoot (n : Nat) (x : VarId) (s : Scc) (v : Int) : Prog σ μ Unit := do
  let next ← Prog.lift (toNode n v)
  Prog.onlyIf (∀ k, s.visit next = some k → k < s.startPrev) (Prog.tell (.cond (Cond.ne x v)))

/-- `check_sccs` (circuit_scc.cc:998-1062). Without any successors, `lowlink[root] = 0` writes to a vector with no elements. -/
def checkSccs (o : Options) (succ : List VarId) : Prog σ μ Unit :=
  match succ with
  | [] => .raise .ub
  | x :: _ => do
    let s ← overValues x (subtree o succ) Scc.init
    if s.count ≠ succ.length then Prog.fail
    else Prog.onlyIf (o.pruneRoot ∧ s.startPrev > 1) (do
      let g ← Prog.ask (eachValue · x)
      Prog.forGen (cutRoot succ.length x s) g)

/-- The loop at circuit_base.cc:91-100, with a bound on the number of turns. `none` means that `j == j0`; otherwise the result is the end of the chain and its length. -/
def follow (d : Doms) (succ : List VarId) (start : Nat) : Nat → Nat → Nat → Chk (Option (Nat × Nat))
  | 0, _, _ => .error .diverge
  | f + 1, j, len => do
    let x ← vecAt succ j
    match ← optionalSingleValue d x with
    | none => .error .ub
    | some w =>
      let j' ← toNode succ.length w
      if j' = start then return none
      else
        let y ← vecAt succ j'
        if ← hasSingleValue d y then follow d succ start f j' (len + 1) else return some (j', len + 1)

/-- A chain that has been found: where it starts, where it ends, and how many edges it has. -/
structure Chain where
  start : Nat
  last : Nat
  len : Nat
  deriving DecidableEq

/-- The loop body at circuit_base.cc:86-105. The chains known so far are the nodes for which `end` is not negative; the most recent one is the first. -/
def chainsFrom (fuel : Nat) (d : Doms) (succ : List VarId) (known : List Chain) (val : Int) : Chk (Option (List Chain)) := do
  let j0 ← toNode succ.length val
  let x ← vecAt succ j0
  if (← hasSingleValue d x) ∧ known.all (·.start ≠ j0) then
    match ← follow d succ j0 fuel j0 0 with
    | none => return none
    | some r => return some (⟨j0, r.1, r.2⟩ :: known)
  else return some known

/-- The loop at circuit_base.cc:86-106. -/
def chainsOver (fuel : Nat) (d : Doms) (succ : List VarId) : List Chain → List Int → Chk (Option (List Chain))
  | known, [] => .ok (some known)
  | known, v :: vs => do
    match ← chainsFrom fuel d succ known v with
    | none => return none
    | some known' => chainsOver fuel d succ known' vs

/-- The loops at circuit_base.cc:85-107. `none` means that there is a cycle. -/
def chains (fuel : Nat) (d : Doms) (succ : List VarId) : List Chain → List VarId → Chk (Option (List Chain))
  | known, [] => .ok (some known)
  | known, x :: xs => do
    let g ← eachValue d x
    match ← chainsOver fuel d succ known g.1 with
    | none => return none
    | some known' =>
      match g.2 with
      | none => chains fuel d succ known' xs
      | some e => .error e

/-- The loop body at circuit_base.cc:109-125. -/
def closeChain (succ : List VarId) (c : Chain) : Prog σ μ Unit := do
  let x ← Prog.lift (vecAt succ c.last)
  if c.len < succ.length - 1 then Prog.tell (.cond (Cond.ne x c.start)) else Prog.tell (.cond (Cond.eq x c.start))

/-- `prevent_small_cycles` (circuit_base.cc:74-126), for the given unassigned variables. `fuel` bounds how often the loop at :91-100 goes round; it may be reached. -/
def preventSmallCycles (fuel : Nat) (succ u : List VarId) : Prog σ μ Unit := do
  match ← Prog.ask (chains fuel · succ [] u) with
  | none => Prog.fail
  | some cs => Prog.forEach (closeChain succ) cs

/-- Reading a constraint state, and `any_cast`. -/
def stored {τ α : Type} (B : Kind σ τ) (h : Nat) (k : τ → Prog σ μ α) : Prog σ μ α := .read fun s =>
  match (s.st.cstates.headD [])[h]? with
  | none => .raise .ub
  | some c =>
    match B.get c with
    | none => .raise .unexpected
    | some t => k t

/-- circuit_scc.cc:1073-1085: variables that have a value now are taken out of the unassigned ones, in the same way as by the loop `AllDifferent.gather` is about, and then small cycles are prevented. -/
def sccTail (B : Kind σ (List VarId)) (h fuel : Nat) (succ : List VarId) : Prog σ μ PState := stored B h fun u => do
  let r ← Prog.ask fun d => gather d (u.length + 1) 0 u []
  .setState h (B.put r.1) (do
    preventSmallCycles fuel succ r.1
    return .enable)

/-- `propagate_circuit_using_scc` (circuit_scc.cc:1064-1085) and the function at :1107-1126. -/
def sccProp (B : Kind σ (List VarId)) (h fuel : Nat) (o : Options) (succ : List VarId) : Prog σ μ PState := vcStage B h fun b =>
  if b then (checkSccs o succ).bind fun _ => sccTail B h fuel succ else .ret .enable

/-- `PreventChainData` (circuit_prevent.hh). -/
structure Chains where
  orig : Nat → Nat
  dest : Nat → Nat
  len : Nat → Nat
  unspliced : List Nat

/-- `make_prevent_chain_data` (circuit_prevent.cc:132-145). -/
def Chains.init (n : Nat) : Chains := { orig := id, dest := id, len := fun _ => 0, unspliced := List.range n }

/-- circuit_prevent.cc:58-91, for a fixed edge from `i` to `j`. Says whether a successor became fixed. -/
def splice (succ : List VarId) (c : Chains) (i j : Nat) : Prog σ μ (Chains × Bool) := do
  let o := c.orig i
  if j = o then if c.len o + 1 < succ.length then Prog.fail else return (c, false)
  else
    let e := c.dest j
    let newLen := c.len o + 1 + c.len j
    let c' : Chains := { c with dest := put c.dest o e, orig := put c.orig e o, len := put c.len o newLen }
    let x ← Prog.lift (vecAt succ e)
    if (newLen : Int) < (succ.length : Int) - 1 then do
      Prog.tell (.cond (Cond.ne x o))
      let v ← Prog.ask (optionalSingleValue · x)
      return (c', v.isSome)
    else do
      Prog.tell (.cond (Cond.eq x o))
      return (c', true)

/-- The loop at circuit_prevent.cc:43-92, with a bound that is never reached. The results are the chains, `progress` and `fixed_a_successor`. -/
def sweep (succ : List VarId) : Nat → Nat → Chains → Bool → Bool → Prog σ μ (Chains × Bool × Bool)
  | 0, _, _, _, _ => .raise .diverge
  | f + 1, k, c, progress, fixed =>
    match c.unspliced[k]? with
    | none => .ret (c, progress, fixed)
    | some i => do
      let x ← Prog.lift (vecAt succ i)
      match ← Prog.ask (optionalSingleValue · x) with
      | none => sweep succ f (k + 1) c progress fixed
      | some v =>
        let j ← Prog.lift (toNode succ.length v)
        let r ← splice succ { c with unspliced := takeOut c.unspliced k } i j
        sweep succ f k r.1 true (fixed || r.2)

/-- The loop at circuit_prevent.cc:41-93, with a bound that is never reached. -/
def sweeps (succ : List VarId) : Nat → Chains → Bool → Prog σ μ (Chains × Bool)
  | 0, _, _ => .raise .diverge
  | f + 1, c, fixed => do
    let r ← sweep succ (c.unspliced.length + 1) 0 c false fixed
    if r.2.1 then sweeps succ f r.1 r.2.2 else return (r.1, r.2.2)

/-- The loop at circuit_prevent.cc:115-120, with a bound that is never reached, for the two constraint states, which are written back at the end (`preventProp`). -/
def alternate (succ : List VarId) : Nat → List VarId → Chains → Prog σ μ (Option (List VarId × Chains))
  | 0, _, _ => .raise .diverge
  | f + 1, u, c => (pass u).bind fun
    | none => .ret none
    | some u' => (sweeps succ (c.unspliced.length + 1) c false).bind fun r => if r.2 then alternate succ f u' r.1 else .ret (some (u', r.1))

/-- `propagate_circuit_using_prevent` (circuit_prevent.cc:102-121) and the function at :154-169. -/
def preventProp (B : Kind σ (List VarId)) (h : Nat) (K : Kind σ Chains) (hc : Nat) (succ : List VarId) : Prog σ μ PState :=
  stored B h fun u => stored K hc fun c => (alternate succ (c.unspliced.length + 1) u c).bind fun
    | none => .ret .enableButIdempotent
    | some r => .setState h (B.put r.1) (.setState hc (K.put r.2) (.ret .enableButIdempotent))

/-- circuit.cc:216-225: `succ[idx] != idx`, from `idx` on. -/
def noLoops : Nat → List VarId → Prog σ μ Unit
  | _, [] => .ret ()
  | i, x :: xs => (Prog.tell (.cond (Cond.ne x i))).bind fun _ => noLoops (i + 1) xs

/-- circuit.cc:122-124. -/
def lowers (d : Doms) : List VarId → Chk (List (Item σ μ))
  | [] => .ok []
  | x :: xs => do return (← defineLower d x 0) ++ (← lowers d xs)

/-- circuit.cc:126-128, for `k` successors. -/
def uppers (d : Doms) (k : Nat) : List VarId → Chk (List (Item σ μ))
  | [] => .ok []
  | x :: xs => do
    let hi ← ofSize (k - 1)
    return (← defineUpper d x hi) ++ (← uppers d k xs)

/-- `circuit::SCC` or `circuit::Prevent`, with where the constraint states that `prepare` adds are (circuit.cc:146-152). -/
inductive Algorithm (σ : Type) where
  | scc (o : Options) (fuel : Nat)
  | prevent (K : Kind σ Chains) (hc : Nat)

/-- circuit_scc.cc:1087-1128 and circuit_prevent.cc:147-172. -/
def Algorithm.item (B : Kind σ (List VarId)) (h : Nat) (succ : List VarId) : Algorithm σ → Item σ μ
  | .scc o fuel => .prop (sccProp B h fuel o succ) { onChange := succ }
  | .prevent K hc => .prop (preventProp B h K hc succ) { onInstantiated := succ }

/-- `Circuit` (circuit.cc:49-60, 120-156 and 212-240). -/
def install (a : Algorithm σ) (B : Kind σ (List VarId)) (h : Nat) (succ : List VarId) (d : Doms) : Chk (List (Item σ μ)) := do
  if Inverse.hasDup succ then throw .invalidProblem
  else
    let is ← lowers d succ
    let js ← uppers d succ.length succ
    let ks := if succ.length > 1 then [Item.prop ((noLoops 0 succ).bind fun _ => .ret .disableUntilBacktrack) {}] else []
    return is ++ js ++ ks ++ [a.item B h succ]

end
end Circuit
end Gcs
