import Verif.Model.Cons.Tabulation
import Verif.Model.Cons.Disjunctive2D

/-!
# Knapsack (gcs/constraints/knapsack/knapsack.cc, knapsack_upfront.cc)

There are two implementations, for two ways of logging proofs. Without proof logging they do the same: partial sums are built up variable by variable, and then what does not lead to possible totals is thrown away from the back.
They are written twice in the code, and differ in where bounds come from, and in what is done about variables that are fixed; this is `Way`. `.at` and `[]` out of range are both an error here (the first throws
`std::out_of_range`). Not modelled: anything that is only for proofs.
-/

namespace Gcs.Knapsack

/-- One entry for each total. -/
abbrev Sums := List Int

/-- A node `to` of a layer that has `parent` of the layer before it, and a value to get there, among its `predecessors`. A layer, which in the code is a map from nodes to their predecessors, is the list of these (every node
but the only one of the first layer has a predecessor); the order is of no importance. -/
structure Edge where
  to : Sums
  parent : Sums
  val : Int
deriving DecidableEq, Repr

/-- What differs between the two implementations. -/
structure Way where
  coeffs : List (List Int)
  vars : List VarId
  totals : List VarId
  /-- `committed`: what the variables that are left out contribute. -/
  committed : Sums
  /-- `bounds.at(x)` (knapsack.cc:192), and `state.upper_bound(totals[x])` (knapsack_upfront.cc:615). -/
  lower : Doms → Nat → Chk Int
  upper : Doms → Nat → Chk Int
  /-- `dag.node_set[i]` (knapsack_upfront.cc:596). -/
  known : Nat → Sums → Bool

/-- `new_sums` (knapsack.cc:178-180, knapsack_upfront.cc:593-594). -/
def advance (coeffs : List (List Int)) (k i : Nat) (w : Sums) (v : Int) : Chk Sums :=
  AllDifferent.mapAll (fun x => do iAdd (← vecAt w x) (← iMul v (← vecAt (← vecAt coeffs x) i))) (List.range k)

/-- The sum with what is left out, for number `x`. (knapsack_upfront.cc adds nothing, and `committed` is 0 there.) -/
def Way.whole (W : Way) (w : Sums) (x : Nat) : Chk Int := do iAdd (← vecAt W.committed x) (← vecAt w x)

/-- knapsack.cc:189-194 and :321-326, knapsack_upfront.cc:613-619 and :626-631. -/
def Way.tooLarge (W : Way) (d : Doms) (w : Sums) : Chk Bool :=
  anyOf (fun x => do return decide ((← W.whole w x) > (← W.upper d x))) (List.range W.totals.length)

/-- knapsack.cc:378-379, knapsack_upfront.cc:684-685. -/
def Way.tooSmall (W : Way) (d : Doms) (w : Sums) : Chk Bool :=
  anyOf (fun x => do return decide ((← W.whole w x) < (← W.lower d x))) (List.range W.totals.length)

/-- knapsack.cc:404-406, knapsack_upfront.cc:724-725. -/
def Way.missing (W : Way) (d : Doms) (w : Sums) : Chk Bool :=
  anyOf (fun x => do return !(← inDomain d (← vecAt W.totals x) (← W.whole w x))) (List.range W.totals.length)

/-- The body of the loop over values (knapsack.cc:175-201, knapsack_upfront.cc:592-622): an edge, and whether it was too much. -/
def Way.choose (W : Way) (d : Doms) (i : Nat) (w : Sums) (v : Int) : Chk (List (Edge × Bool)) := do
  let w' ← advance W.coeffs W.totals.length i w v
  if W.known (i + 1) w' then return [(⟨w', w, v⟩, ← W.tooLarge d w')] else return []

/-- The loop over nodes (knapsack.cc:149-315, knapsack_upfront.cc:591-623). All values are listed before they are looked at. -/
def Way.grow (W : Way) (i : Nat) (x : VarId) (ws : List Sums) (d : Doms) : Chk (List (Edge × Bool)) :=
  Tabulation.collect (fun w => do Tabulation.collect (W.choose d i w) (← collect (← eachValue d x))) ws

/-- Which nodes a layer has. -/
def nodes (es : List Edge) : List Sums := (es.map (·.to)).eraseDups

section
variable {σ μ : Type}

/-- knapsack.cc:340-353, knapsack_upfront.cc:672-675, and knapsack.cc:517-521, knapsack_upfront.cc:825-828. -/
def pruneTo (x : VarId) (vs : List Int) : Prog σ μ Unit := do
  let g ← Prog.ask (eachValue · x)
  Prog.forGen (fun v => Prog.onlyIf (v ∉ vs) (Prog.tell (.cond (Cond.ne x v)))) g

/-- The body of the loop over variables (knapsack.cc:136-356, knapsack_upfront.cc:587-678): the next layer. -/
def Way.layer (W : Way) (i : Nat) (ws : List Sums) : Prog σ μ (List Edge) := do
  let x ← Prog.lift (vecAt W.vars i)
  let r ← Prog.ask (W.grow i x ws)
  let es ← Prog.ask fun d => Disjunctive2D.keep (fun e => do return !(← W.tooLarge d e.to)) (r.map (·.1))
  pruneTo x ((r.filter fun p => !p.2).map (·.1.val))
  return es

/-- The loop over variables, with the layers so far in reverse, each with the variable that leads to it. -/
def Way.forward (W : Way) : List Nat → List Sums → List (List Edge × Nat) → Prog σ μ (List Sums × List (List Edge × Nat))
  | [], ws, done => return (ws, done)
  | i :: is, ws, done => do
    let es ← W.layer i ws
    W.forward is (nodes es) ((es, i) :: done)

/-- What is inferred about total number `x` (knapsack.cc:441-458, knapsack_upfront.cc:757-774; the latter does not look at the lowest value, which has a node). -/
def Way.aboutTotal (W : Way) (ws : List Sums) (d : Doms) (x : Nat) : Chk (List Lit) := do
  let t ← vecAt W.totals x
  let cs ← AllDifferent.mapAll (W.whole · x) ws
  match cs with
  | [] => .error .ub
  | c :: cs =>
    let lo := cs.foldl min c
    let hi ← iAdd (cs.foldl max c) 1
    let vs ← collect (← eachValue d t)
    let gone := vs.filter fun v => decide (v ≥ lo ∧ v < hi ∧ v ∉ c :: cs)
    return .cond (Cond.ge t lo) :: .cond (Cond.lt t hi) :: gone.map fun v => .cond (Cond.ne t v)

/-- The pass from the back (knapsack.cc:495-522, knapsack_upfront.cc:796-829), from the nodes that are left of the last layer on. -/
def Way.backward (W : Way) : List Sums → List (List Edge × Nat) → Prog σ μ Unit
  | _, [] => return ()
  | ws, (es, i) :: rest => do
    let left := es.filter fun e => decide (e.to ∈ ws)
    let x ← Prog.lift (vecAt W.vars i)
    pruneTo x (left.map (·.val))
    W.backward (left.map (·.parent)) rest

/-- After the last layer (knapsack.cc:372-523, knapsack_upfront.cc:681-829). -/
def Way.finish (W : Way) (ws : List Sums) (done : List (List Edge × Nat)) : Prog σ μ Unit := do
  let ws1 ← Prog.ask fun d => Disjunctive2D.keep (fun w => do return !(← W.tooSmall d w)) ws
  let ws2 ← Prog.ask fun d => Disjunctive2D.keep (fun w => do return !(← W.missing d w)) ws1
  if ws2 = [] then Prog.fail
  else
    let ls ← Prog.ask fun d => Tabulation.collect (W.aboutTotal ws2 d) (List.range W.totals.length)
    Prog.forEach (fun l => Prog.tell l) ls
    W.backward ws2 done

/-- `knapsack_gac` (knapsack.cc:102-525) and `propagate` (knapsack_upfront.cc:557-834), for some of the variables. -/
def Way.gac (W : Way) (is : List Nat) : Prog σ μ Unit := do
  let r ← W.forward is [List.replicate W.totals.length 0] []
  W.finish r.1 r.2

/-- `committed_sums.at(x) += *val * coeffs.at(x).at(idx)` for all `x` (knapsack.cc:539-540). -/
def commit (coeffs : List (List Int)) (k i : Nat) (com : Sums) (v : Int) : Chk Sums :=
  AllDifferent.mapAll (fun x => do iAdd (← vecAt com x) (← iMul v (← vecAt (← vecAt coeffs x) i))) (List.range k)

/-- knapsack.cc:532-541: which variables are not fixed, and what the others contribute. -/
def split (coeffs : List (List Int)) (k : Nat) (d : Doms) : Nat → List VarId → Sums → Chk (List Nat × Sums)
  | _, [], com => .ok ([], com)
  | i, v :: vs, com => do
    match ← optionalSingleValue d v with
    | none =>
      let r ← split coeffs k d (i + 1) vs com
      return (i :: r.1, r.2)
    | some a =>
      let com' ← commit coeffs k i com a
      split coeffs k d (i + 1) vs com'

/-- What `knapsack` does with the totals before `knapsack_gac` (knapsack.cc:543-554). -/
def before (fixed : Bool) (totals : List VarId) (com : Sums) : Prog σ μ Unit := do
  Prog.onlyIf (fixed = true) (Prog.forEach (fun p => Prog.tell (.cond (Cond.eq p.1 p.2))) (totals.zip com))
  Prog.forEach (fun p => Prog.tell (.cond (Cond.ge p.1 p.2))) (totals.zip com)

/-- `knapsack` (knapsack.cc:527-577). -/
def perCall (coeffs : List (List Int)) (vars totals : List VarId) : Prog σ μ PState := do
  let r ← Prog.ask fun d => split coeffs totals.length d 0 vars (List.replicate totals.length 0)
  before (decide (r.1 = [])) totals r.2
  let bs ← Prog.ask fun d => AllDifferent.mapAll (bounds d ·) totals
  Way.gac ⟨coeffs, vars, totals, r.2, fun _ x => do return (← vecAt bs x).1, fun _ x => do return (← vecAt bs x).2, fun _ _ => true⟩ r.1
  return .enable

/-- `compute_caps` for one total (knapsack_upfront.cc:110-115). -/
def cap (row : List Int) (d : Doms) : Nat → List VarId → Int → Chk Int
  | _, [], s => .ok s
  | i, v :: vs, s => do
    let c ← iMul (← upperBound d v) (← vecAt row i)
    let s' ← iAdd s c
    cap row d (i + 1) vs s'

/-- `step` and what is done with its result (knapsack_upfront.cc:121-130 and :144-145). The sums are all computed before they are compared. -/
def stepTo (coeffs : List (List Int)) (caps : Sums) (i : Nat) (w : Sums) (v : Int) : Chk (List Sums) := do
  let w' ← advance coeffs w.length i w v
  let b ← anyOf (fun x => do return decide ((← vecAt w' x) > (← vecAt caps x))) (List.range w.length)
  return if b then [] else [w']

/-- `build_static_dag` (knapsack_upfront.cc:132-162), from number `i` on, as the sets of nodes. -/
def dag (coeffs : List (List Int)) (caps : Sums) (d : Doms) : Nat → List VarId → List Sums → Chk (List (List Sums))
  | _, [], ws => .ok [ws]
  | i, v :: vs, ws => do
    let next ← Tabulation.collect (fun w => do Tabulation.collect (stepTo coeffs caps i w) (← collect (← eachValue d v))) ws
    return ws :: (← dag coeffs caps d (i + 1) vs next.eraseDups)

/-- The propagation function of the other strategy (knapsack_upfront.cc:942-951). -/
def upfront (coeffs : List (List Int)) (vars totals : List VarId) (layers : List (List Sums)) : Prog σ μ PState := do
  Way.gac ⟨coeffs, vars, totals, List.replicate totals.length 0, fun d x => do lowerBound d (← vecAt totals x), fun d x => do upperBound d (← vecAt totals x), fun i w => decide (w ∈ layers.getD i [])⟩ (List.range vars.length)
  return .enable

/-- `KnapsackProofStrategy` (gcs/constraints/knapsack/knapsack.hh:30). -/
inductive Strategy where
  | perCall
  | upfront
deriving DecidableEq

/-- The checks at knapsack.cc:590-612 and knapsack_upfront.cc:860-881. Only the second compares the number of coefficients with the number of variables. -/
def refused (s : Strategy) (coeffs : List (List Int)) (vars totals : List VarId) (d : Doms) : Chk Bool := do
  if coeffs.length ≠ totals.length then return true
  else match coeffs with
  | [] => return true
  | row :: _ =>
    if ∃ r ∈ coeffs, r.length ≠ row.length then return true
    else if s = .upfront ∧ row.length ≠ vars.length then return true
    else if ∃ r ∈ coeffs, ∃ c ∈ r, c < 0 then return true
    else anyOf (fun v => do return decide ((← lowerBound d v) < 0)) (vars ++ totals)

/-- `Knapsack` (knapsack.cc:580-660, knapsack_upfront.cc:857-955). The constraint state of the second has a use only for proofs, as has its initialiser. -/
def install (s : Strategy) (coeffs : List (List Int)) (vars totals : List VarId) (d : Doms) : Chk (List (Item σ μ)) := do
  if ← refused s coeffs vars totals d then throw .invalidProblem
  else match s with
  | .perCall => return [.prop (perCall coeffs vars totals) { onChange := vars ++ totals }]
  | .upfront =>
    let caps ← AllDifferent.mapAll (fun x => do cap (← vecAt coeffs x) d 0 vars 0) (List.range totals.length)
    let layers ← dag coeffs caps d 0 vars [List.replicate totals.length 0]
    return [.prop (upfront coeffs vars totals layers) { onChange := vars ++ totals }]

end
end Gcs.Knapsack
