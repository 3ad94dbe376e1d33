import Verif.Model.Cons.AllDifferent

/-!
# `define_bound`, SymmetricAllDifferent and Inverse (`gcs/innards/propagators.cc`, `gcs/constraints/all_different/symmetric_all_different.cc`, `gcs/constraints/inverse/inverse.cc`)
-/

namespace Gcs

/-- `xs.at(k.as_index())`: the index is converted to an unsigned number, so that a negative one is out of range. -/
def atIndex {α : Type} (xs : List α) (k : Int) : Chk α := if k < 0 then .error .ub else vecAt xs k.toNat

section
variable {σ μ : Type}

/-- `Propagators::define_bound(..., Bound::Lower, val)` (propagators.cc:383-391), without the proof model. -/
def defineLower (d : Doms) (v : VarId) (k : Int) : Chk (List (Item σ μ)) := do
  if (← lowerBound d v) ≥ k then return [] else return [.init .simpleDefinition (Prog.tell (.cond (Cond.ge v k)))]

/-- `Propagators::define_bound(..., Bound::Upper, val)` (propagators.cc:392-400), without the proof model. -/
def defineUpper (d : Doms) (v : VarId) (k : Int) : Chk (List (Item σ μ)) := do
  if (← upperBound d v) ≤ k then return [] else return [.init .simpleDefinition (do Prog.tell (.cond (← Prog.lift (Cond.le v k))))]

/-- The loops at symmetric_all_different.cc:82-85 and inverse.cc:78-86: every variable is to be one of the `k` numbers from `lo` on. -/
def defineRange (d : Doms) (lo : Int) (k : Nat) : List VarId → Chk (List (Item σ μ))
  | [] => .ok []
  | v :: vs => do
    let is ← defineLower d v lo
    let hi ← iSub (← iAdd lo (← ofSize k)) 1
    let js ← defineUpper d v hi
    let rest ← defineRange d lo k vs
    return is ++ js ++ rest

namespace Inverse

/-- symmetric_all_different.cc:150-152, inverse.cc:165-168 and 172-175: for one value of `x`, which is number `i` of its list. -/
def channelValue (ys : List VarId) (xStart yStart : Int) (i : Nat) (x : VarId) (v : Int) : Prog σ μ Unit := do
  let k ← Prog.lift (iSub v yStart)
  let w ← Prog.lift (atIndex ys k)
  let j ← Prog.lift (do iAdd (← ofSize i) xStart)
  let b ← Prog.ask (inDomain · w j)
  Prog.onlyIf (b = false) (Prog.tell (.cond (Cond.ne x v)))

/-- The same for all values of `x`. -/
def channelOne (ys : List VarId) (xStart yStart : Int) (i : Nat) (x : VarId) : Prog σ μ Unit := do
  let g ← Prog.ask (eachValue · x)
  Prog.forGen (channelValue ys xStart yStart i x) g

/-- The loops at symmetric_all_different.cc:148-153, inverse.cc:164-169 and 171-176, from number `i` on. -/
def channel (ys : List VarId) (xStart yStart : Int) : Nat → List VarId → Prog σ μ Unit
  | _, [] => .ret ()
  | i, x :: xs => (channelOne ys xStart yStart i x).bind fun _ => channel ys xStart yStart (i + 1) xs

/-- The loop body at inverse.cc:163-179. -/
def round (x y : List VarId) (xStart yStart : Int) (vals : List Int) (old : Nat → List (Option Nat)) : Prog σ μ Unit := do
  channel y xStart yStart 0 x
  channel x yStart xStart 0 y
  AllDifferent.gac x vals [] old

/-- The propagation function of Inverse (inverse.cc:152-183). `made_progress_since_last_check` is modelled by comparing domains (`progress_iff_changed`). -/
def prop (x y : List VarId) (xStart yStart : Int) (vals : List Int) (old : Nat → List (Option Nat)) : Prog σ μ PState := do
  Prog.untilQuiet (round x y xStart yStart vals old)
  return .enableButIdempotent

/-- `Integer(i) + start` for all indices, symmetric_all_different.cc:137-139 and inverse.cc:146-148. -/
def indices (start : Int) (k : Nat) : Chk (List Int) := AllDifferent.mapAll (fun i => do iAdd (← ofSize i) start) (List.range k)

/-- `throw_if_dup` (inverse.cc:58-66). -/
def hasDup : List VarId → Bool
  | [] => false
  | v :: vs => (match v with | .const _ => false | _ => decide (v ∈ vs)) || hasDup vs

/-- `Inverse` (inverse.cc:48-184). -/
def install (x y : List VarId) (xStart yStart : Int) (old : Nat → List (Option Nat)) (d : Doms) : Chk (List (Item σ μ)) := do
  if hasDup x || hasDup y then throw .invalidProblem
  else if x.length ≠ y.length then throw .invalidProblem
  else
    let is ← defineRange d yStart y.length x
    let js ← defineRange d xStart x.length y
    let vals ← indices xStart x.length
    return is ++ js ++ [.prop (prop x y xStart yStart vals old) { onChange := x ++ y }]

end Inverse

namespace SymmetricAllDifferent

/-- The propagation function of SymmetricAllDifferent (symmetric_all_different.cc:144-157). -/
def prop (vars : List VarId) (start : Int) (vals : List Int) (old : Nat → List (Option Nat)) : Prog σ μ PState := do
  Inverse.channel vars start start 0 vars
  AllDifferent.gac vars vals [] old
  return .enable

/-- `SymmetricAllDifferent` (symmetric_all_different.cc:60-159). -/
def install (vars : List VarId) (start : Int) (old : Nat → List (Option Nat)) (d : Doms) : Chk (List (Item σ μ)) := do
  if repeats (sortBy VarId.le vars) then return [AllDifferent.refuse]
  else
    let is ← defineRange d start vars.length vars
    let vals ← Inverse.indices start vars.length
    return is ++ [.prop (prop vars start vals old) { onChange := vars }]

end SymmetricAllDifferent
end
end Gcs
