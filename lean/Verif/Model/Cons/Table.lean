import Verif.Model.Cons.Inverse

/-!
# Table (`gcs/constraints/extensional_utils.cc`, `gcs/constraints/table/table.cc`)

The selector is allocated by the constraint in the code. Here it is a parameter, a variable that is there already. Tuples hold integers or wildcards, an integer only table being one without wildcards. Tables have fewer
than 2^32 tuples. Proofs are not modelled.
-/

namespace Gcs.Table

/-- `feasible` (extensional_utils.cc:27-40). -/
def feasibleEntry (d : Doms) (v : VarId) : Option Int → Chk Bool
  | none => .ok true
  | some x => inDomain d v x

/-- The loop at extensional_utils.cc:81-85, `t` being what is left of the tuple. -/
def feasible (d : Doms) : List VarId → List (Option Int) → Chk Bool
  | [], _ => .ok true
  | _ :: _, [] => .error .ub
  | v :: vs, e :: t => do if ← feasibleEntry d v e then feasible d vs t else return false

/-- `match` (extensional_utils.cc:42-55). -/
abbrev agrees (e : Option Int) (x : Int) : Bool := match e with | none => true | some y => decide (y = x)

/-- `match(get_tuple_value(tuples, k, idx), val)` (extensional_utils.cc:57-68). -/
def entryAgrees (tuples : List (List (Option Int))) (idx : Nat) (val k : Int) : Chk Bool := do
  let t ← atIndex tuples k
  let e ← vecAt t idx
  return agrees e val

/-- Whether a value is to be kept (extensional_utils.cc:125-151). The tuple found last time is looked at first, if there was one. -/
def supported (d : Doms) (sel : VarId) (tuples : List (List (Option Int))) (idx : Nat) (val : Int) : Option Nat → Chk Bool
  | none => do anyOfGen (entryAgrees tuples idx val) (← eachValue d sel)
  | some c => do
    if ← (do if ← inDomain d sel (← ofSize c) then entryAgrees tuples idx val c else return false) then return true
    else anyOfGen (entryAgrees tuples idx val) (← eachValue d sel)

section
variable {σ μ : Type}

/-- The body of the loop at extensional_utils.cc:79-94. -/
def keepTuple (sel : VarId) (vars : List VarId) (tuples : List (List (Option Int))) (k : Int) : Prog σ μ Unit := do
  let t ← Prog.lift (atIndex tuples k)
  let b ← Prog.ask (feasible · vars t)
  Prog.onlyIf (b = false) (Prog.tell (.cond (Cond.ne sel k)))

/-- The loop at extensional_utils.cc:76-99: which tuples are possible? -/
def tuplesPass (sel : VarId) (vars : List VarId) (tuples : List (List (Option Int))) : Prog σ μ Unit := do
  let g ← Prog.ask (eachValue · sel)
  Prog.forGen (keepTuple sel vars tuples) g

/-- `(hi - lo).raw_value + 1` for all variables (extensional_utils.cc:108-117), done by the first call. The size of the memory needed is not modelled. -/
def widths (d : Doms) : List VarId → Chk Unit
  | [] => .ok ()
  | v :: vs => do
    let r ← bounds d v
    let _ ← iSub r.2 r.1
    widths d vs

/-- The body of the loop at extensional_utils.cc:125-155. -/
def keepValue (sel : VarId) (tuples : List (List (Option Int))) (cache : Nat → Int → Option Nat) (idx : Nat) (v : VarId) (val : Int) : Prog σ μ Unit := do
  let b ← Prog.ask (supported · sel tuples idx val (cache idx val))
  Prog.onlyIf (b = false) (Prog.tell (.cond (Cond.ne v val)))

/-- The loop at extensional_utils.cc:122-156, from number `idx` on: which values are possible? -/
def valuesPass (sel : VarId) (tuples : List (List (Option Int))) (cache : Nat → Int → Option Nat) : Nat → List VarId → Prog σ μ Unit
  | _, [] => .ret ()
  | idx, v :: vs => do
    let g ← Prog.ask (eachValue · v)
    Prog.forGen (keepValue sel tuples cache idx v) g
    valuesPass sel tuples cache (idx + 1) vs

/-- `propagate_extensional` (extensional_utils.cc:70-172). The tuples remembered from earlier calls are not kept in constraint state, and could be anything: when the inference counter is `k`, `cache k` is what was
remembered, and `fresh k` says whether this is the first call. An entry made within the call is not looked at again, as each value is looked at once. -/
def prop (sel : VarId) (vars : List VarId) (tuples : List (List (Option Int))) (fresh : Nat → Bool) (cache : Nat → Nat → Int → Option Nat) : Prog σ μ PState :=
  (tuplesPass sel vars tuples).bind fun _ => .read fun s =>
    (if fresh s.total then Prog.ask (widths · vars) else .ret ()).bind fun _ =>
    (valuesPass sel tuples (cache s.total) 0 vars).bind fun _ => .ret .enableButIdempotent

/-- `Table` (table.cc:113-140, 167-198). -/
def install (sel : VarId) (vars : List VarId) (tuples : List (List (Option Int))) (fresh : Nat → Bool) (cache : Nat → Nat → Int → Option Nat) : Chk (List (Item σ μ)) :=
  if tuples = [] then .ok [AllDifferent.refuse]
  else if tuples.any (fun t => decide (t.length ≠ vars.length)) then .error .invalidProblem
  else .ok [.prop (prop sel vars tuples fresh cache) { onChange := vars ++ [sel] }]

end
end Gcs.Table
