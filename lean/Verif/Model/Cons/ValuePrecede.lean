import Verif.Model.Cons.Inverse

/-!
# ValuePrecede and SeqPrecedeChain (`gcs/constraints/value_precede/value_precede.cc`, `gcs/constraints/seq_precede_chain/seq_precede_chain.cc`)
-/

namespace Gcs

/-- The first index from `i` on at which the value is possible, or the length of the list (value_precede.cc:168-174). -/
def leftmost (d : Doms) (s : Int) : List VarId → Chk Nat
  | [] => .ok 0
  | v :: vs => do if ← inDomain d v s then return 0 else return (← leftmost d s vs) + 1

section
variable {σ μ : Type}
namespace ValuePrecede

/-- value_precede.cc:181-182. -/
def prune (t : Int) (v : VarId) : Prog σ μ Unit := do
  let b ← Prog.ask (inDomain · v t)
  Prog.onlyIf (b = true) (Prog.tell (.cond (Cond.ne v t)))

/-- value_precede.cc:185-193, after `alpha == n` has been dealt with. -/
def finish (s : Int) (w : VarId) : Prog σ μ PState := do
  let b ← Prog.ask (hasSingleValue · w)
  if b then
    let r ← Prog.ask (bounds · w)
    if r.1 = s then return .disableUntilBacktrack else return .enable
  else return .enable

/-- The propagation function for a pair of values (value_precede.cc:163-194). -/
def prop (vars : List VarId) (s t : Int) : Prog σ μ PState := do
  let alpha ← Prog.ask (leftmost · s vars)
  Prog.forEach (prune t) (vars.take (if alpha = vars.length then vars.length else alpha + 1))
  if alpha = vars.length then return .disableUntilBacktrack
  else
    let w ← Prog.lift (vecAt vars alpha)
    finish s w

/-- The loop at value_precede.cc:149-196; with fewer than two values nothing is installed (value_precede.cc:41-44). -/
def pairs (vars : List VarId) : List Int → List (Item σ μ)
  | s :: t :: rest => .prop (prop vars s t) { onChange := vars } :: pairs vars (t :: rest)
  | _ => []

/-- `ValuePrecede`. -/
def install (chain : List Int) (vars : List VarId) (_ : Doms) : Chk (List (Item σ μ)) := .ok (pairs vars chain)

end ValuePrecede

namespace SeqPrecedeChain

/-- The largest upper bound, from `m` on (seq_precede_chain.cc:54-59). -/
def maxUpper (d : Doms) : Int → List VarId → Chk Int
  | m, [] => .ok m
  | m, v :: vs => do
    let u ← upperBound d v
    maxUpper d (if u > m then u else m) vs

/-- The loop at seq_precede_chain.cc:73-74. -/
def clamp (d : Doms) (k : Int) : List VarId → Chk (List (Item σ μ))
  | [] => .ok []
  | v :: vs => do
    let is ← defineUpper d v k
    let rest ← clamp d k vs
    return is ++ rest

/-- seq_precede_chain.cc:72-75. -/
def bounded (d : Doms) (top most : Int) (vars : List VarId) : Chk (List (Item σ μ)) := if top > most then clamp d most vars else .ok []

/-- `1, ..., k` (seq_precede_chain.cc:80-82). The loop variable goes to `k + 1`, which is not the largest integer's successor, as `k` is at most the size of a vector; here it does not overflow. -/
def upTo (k : Nat) : List Int := (List.range k).map fun (i : Nat) => (i : Int) + 1

/-- `SeqPrecedeChain::prepare` (seq_precede_chain.cc:46-92). -/
def install (vars : List VarId) (d : Doms) : Chk (List (Item σ μ)) := do
  if vars = [] then return []
  else
    let top ← maxUpper d 0 vars
    if top < 1 then return []
    else
      let n ← ofSize vars.length
      let most := if top < n then top else n
      let is ← bounded d top most vars
      if most < 2 then return is
      else return is ++ ValuePrecede.pairs vars (upTo most.toNat)

end SeqPrecedeChain
end
end Gcs
