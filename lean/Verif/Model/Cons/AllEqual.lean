import Verif.Model.Cons.Steps

/-!
# AllEqual (`gcs/constraints/all_equal/all_equal.cc`)
-/

namespace Gcs.AllEqual
open IntervalSet

section
variable {σ μ : Type}

/-- The loop at gcs/constraints/all_equal/all_equal.cc:83-93, without the variables remembered for reasons. -/
def span (d : Doms) (lo hi : Int) : List VarId → Chk (Int × Int)
  | [] => .ok (lo, hi)
  | v :: vs => do
    let b ← bounds d v
    span d (if b.1 > lo then b.1 else lo) (if b.2 < hi then b.2 else hi) vs

/-- One round of the loop at gcs/constraints/all_equal/all_equal.cc:95-102. -/
def tighten (lo hi : Int) (v : VarId) : Prog σ μ Unit := do
  let l ← Prog.ask (lowerBound · v)
  if l < lo then Prog.tell (.cond (Cond.ge v lo))
  let u ← Prog.ask (upperBound · v)
  if u > hi then
    let x ← Prog.lift (iAdd hi 1)
    Prog.tell (.cond (Cond.lt v x))

/-- The loop at gcs/constraints/all_equal/all_equal.cc:107-112. -/
def anyHoles (d : Doms) : List VarId → Chk Bool
  | [] => .ok false
  | v :: vs => do if ← domainHasHoles d v then return true else anyHoles d vs

/-- gcs/constraints/all_equal/all_equal.cc:115-117. -/
def common (d : Doms) (s : IntervalSet) : List VarId → Chk IntervalSet
  | [] => .ok s
  | v :: vs => do common d (intersectWith s (← copyOfValues d v)) vs

/-- The search for a variable that does not have the value (gcs/constraints/all_equal/all_equal.cc:123-128); the answer is only used for the reason. -/
def witness (d : Doms) (val : Int) : List VarId → Chk Unit
  | [] => .ok ()
  | v :: vs => do if ← inDomain d v val then witness d val vs else return ()

/-- One round of the loop at gcs/constraints/all_equal/all_equal.cc:119-133. -/
def prune (vars : List VarId) (c : IntervalSet) (v : VarId) : Prog σ μ Unit := do
  let s ← Prog.ask (copyOfValues · v)
  Prog.forGen (fun p => Prog.forGen (fun val => do
    let _ ← Prog.ask (witness · val vars)
    Prog.tell (.cond (Cond.ne v val))) (loopUp p.1 p.2)) (eachIntervalMinus s c)

/-- The propagation function at gcs/constraints/all_equal/all_equal.cc:73-143. It is only installed for two or more variables. -/
def prop : List VarId → Prog σ μ PState
  | [] => .raise .ub
  | v :: vs => do
    let b ← Prog.ask (bounds · v)
    let r ← Prog.ask fun d => span d b.1 b.2 vs
    Prog.forEach (tighten r.1 r.2) (v :: vs)
    if ← Prog.ask (anyHoles · (v :: vs)) then
      let s ← Prog.ask (copyOfValues · v)
      let c ← Prog.ask (common · s vs)
      Prog.forEach (prune (v :: vs) c) (v :: vs)
    if ← Prog.ask (hasSingleValue · v) then return .disableUntilBacktrack else return .enable

/-- `AllEqual` (gcs/constraints/all_equal/all_equal.cc:40-52 and :66-145). -/
def install (vars : List VarId) (_ : Doms) : Chk (List (Item σ μ)) :=
  if vars.length > 1 then .ok [.prop (prop vars) { onChange := vars }] else .ok []

end
end Gcs.AllEqual
