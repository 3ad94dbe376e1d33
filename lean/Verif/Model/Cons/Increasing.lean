import Verif.Model.Cons.Steps

/-!
# IncreasingChain (`gcs/constraints/increasing/increasing.cc`)
-/

namespace Gcs.Increasing

section
variable {σ μ : Type}

/-- One round of the forward sweep (gcs/constraints/increasing/increasing.cc:83-93). -/
def up (step : Int) (prevLb : Int) (v : VarId) : Prog σ μ Int := do
  let needed ← Prog.lift (iAdd prevLb step)
  let b ← Prog.ask (bounds · v)
  if needed > b.1 then
    Prog.tell (.cond (Cond.ge v needed))
    return needed
  else return b.1

/-- One round of the backward sweep (gcs/constraints/increasing/increasing.cc:100-110). -/
def down (step : Int) (prevUb : Int) (v : VarId) : Prog σ μ Int := do
  let needed ← Prog.lift (iSub prevUb step)
  let b ← Prog.ask (bounds · v)
  if needed < b.2 then
    let x ← Prog.lift (iAdd needed 1)
    Prog.tell (.cond (Cond.lt v x))
    return needed
  else return b.2

/-- The loop at gcs/constraints/increasing/increasing.cc:114-120. -/
def entailed (step : Int) (d : Doms) : List VarId → Chk Bool
  | v :: w :: vs => do
    let b ← bounds d v
    let x ← iAdd b.2 step
    let c ← bounds d w
    if x > c.1 then return false else entailed step d (w :: vs)
  | _ => .ok true

/-- The propagation function at gcs/constraints/increasing/increasing.cc:76-122. It is only installed for two or more variables; the code looks at the first and last unconditionally. -/
def prop (step : Int) : List VarId → Prog σ μ PState
  | [] => .raise .ub
  | v :: vs => do
    let b ← Prog.ask (bounds · v)
    let _ ← Prog.forEachWith (up step) b.1 vs
    match (v :: vs).reverse with
    | [] => .raise .ub
    | w :: ws =>
      let c ← Prog.ask (bounds · w)
      let _ ← Prog.forEachWith (down step) c.2 ws
      if ← Prog.ask (entailed step · (v :: vs)) then return .disableUntilBacktrack else return .enable

/-- `IncreasingChain` (gcs/constraints/increasing/increasing.cc:40-43, :50-58 and :67-124). -/
def install (vars : List VarId) (strict descending : Bool) (_ : Doms) : Chk (List (Item σ μ)) :=
  let ordered := if descending then vars.reverse else vars
  if ordered.length > 1 then .ok [.prop (prop (if strict then 1 else 0) ordered) { onBounds := ordered }] else .ok []

end
end Gcs.Increasing
