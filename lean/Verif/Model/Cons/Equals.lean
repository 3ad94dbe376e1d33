import Verif.Model.Cons.Comparison

/-!
# Equality (`gcs/constraints/equals/equals.cc`)
-/

namespace Gcs
open IntervalSet

/-- The variable is not a view or constant. -/
def VarId.isSimple : VarId → Bool
  | .simple _ => true
  | _ => false

namespace Equals

section
variable {σ μ : Type}

/-- `prune` (gcs/constraints/equals/equals.cc:112-137). -/
def prune (bothSimple : Bool) (v : VarId) (vSet otherSet : IntervalSet) : Prog σ μ Unit :=
  Prog.forGen (fun p =>
    if bothSimple then Prog.tell (.cond ⟨v, .notInRange, p.1, p.2⟩)
    else Prog.forGen (fun val => Prog.tell (.cond (Cond.ne v val))) (loopUp p.1 p.2)) (eachIntervalMinus vSet otherSet)

/-- `enforce_equality` (gcs/constraints/equals/equals.cc:58-178). -/
def enforce (v1 v2 : VarId) : Prog σ μ PState := do
  match ← Prog.ask (optionalSingleValue · v1) with
  | some x =>
    Prog.tell (.cond (Cond.eq v2 x))
    return .disableUntilBacktrack
  | none =>
    match ← Prog.ask (optionalSingleValue · v2) with
    | some y =>
      Prog.tell (.cond (Cond.eq v1 y))
      return .disableUntilBacktrack
    | none =>
      if ← Prog.ask fun d => do return (← domainHasHoles d v1) || (← domainHasHoles d v2) then
        let s1 ← Prog.ask (copyOfValues · v1)
        let s2 ← Prog.ask (copyOfValues · v2)
        prune (v1.isSimple && v2.isSimple) v1 s1 s2
        prune (v1.isSimple && v2.isSimple) v2 s2 s1
        return .enable
      else
        let b1 ← Prog.ask (bounds · v1)
        let b2 ← Prog.ask (bounds · v2)
        if b1 ≠ b2 then
          Prog.tell (.cond (Cond.ge v2 b1.1))
          Prog.tell (.cond (Cond.ge v1 b2.1))
          let u1 ← Prog.lift (iAdd b1.2 1)
          Prog.tell (.cond (Cond.lt v2 u1))
          let u2 ← Prog.lift (iAdd b2.2 1)
          Prog.tell (.cond (Cond.lt v1 u2))
          return .enable
        else return .enable

/-- `enforce_constraint_must_not_hold` (gcs/constraints/equals/equals.cc:282-305). -/
def notHold (v1 v2 : VarId) : Prog σ μ PState := do
  match ← Prog.ask (optionalSingleValue · v1) with
  | some x => Prog.orStop (.cond (Cond.ne v2 x)) (return .disableUntilBacktrack)
  | none =>
    match ← Prog.ask (optionalSingleValue · v2) with
    | some y => Prog.orStop (.cond (Cond.ne v1 y)) (return .disableUntilBacktrack)
    | none => return .enable

/-- `infer_cond_when_undecided` (gcs/constraints/equals/equals.cc:307-353). -/
def verdict (v1 v2 : VarId) : Prog σ μ Verdict :=
  if v1 = v2 ∧ v1.isConst = false then return .mustHold
  else do
    let x ← Prog.ask (optionalSingleValue · v1)
    let y ← Prog.ask (optionalSingleValue · v2)
    match x, y with
    | some x, some y => return if x = y then .mustHold else .mustNotHold
    | some x, none => return if ← Prog.ask (inDomain · v2 x) then .stillUndecided else .mustNotHold
    | none, some y => return if ← Prog.ask (inDomain · v1 y) then .stillUndecided else .mustNotHold
    | none, none => return if ← Prog.ask (domainsIntersect · v1 v2) then .stillUndecided else .mustNotHold

/-- `ReifiedEquals` (gcs/constraints/equals/equals.cc:212-216 and :272-359). -/
def install (v1 v2 : VarId) (r : Reif) (root : Doms) : Chk (List (Item σ μ)) := do
  let e ← r.test root
  return installDispatcher e r { onChange := [v1, v2] } (enforce v1 v2) (notHold v1 v2) (verdict v1 v2)

/-- `NotEquals` (gcs/constraints/equals/equals.cc:372-378). -/
def notEquals (v1 v2 : VarId) (root : Doms) : Chk (List (Item σ μ)) :=
  if v1 = v2 ∧ v1.isConst = false then .error .invalidProblem else install v1 v2 .mustNotHold root

/-- `NotEqualsIff` (gcs/constraints/equals/equals.cc:385-388). -/
def notEqualsIff (v1 v2 : VarId) (c : Cond) (root : Doms) : Chk (List (Item σ μ)) := install v1 v2 (.iffCond c.not) root

end
end Equals
end Gcs
