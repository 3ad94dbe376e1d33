import Verif.Model.Cons.Steps

/-!
# Reification (`gcs/reification.hh`, `gcs/constraints/innards/reified_state.*`, `reified_dispatcher.hh`)
-/

namespace Gcs

/-- `ReificationCondition` (gcs/reification.hh:9-37). -/
inductive Reif where
  | mustHold | mustNotHold | ifCond (c : Cond) | notIf (c : Cond) | iffCond (c : Cond)
  deriving DecidableEq, Repr

/-- `EvaluatedReificationCondition` (gcs/constraints/innards/reified_state.hh). -/
inductive Evaluated where
  | mustHold (cond : Lit)
  | mustNotHold (cond : Lit)
  | undecided (cond : Cond) (setCondIfMustHold setNotCondIfMustNotHold setNotCondIfMustHold : Bool)
  | deactivated
  deriving DecidableEq, Repr

/-- gcs/constraints/innards/reified_state.cc:10-40. -/
def Reif.test (d : Doms) : Reif → Chk Evaluated
  | .mustHold => .ok (.mustHold .tt)
  | .mustNotHold => .ok (.mustNotHold .tt)
  | .ifCond c => do
    match ← testLiteral d (.cond c) with
    | .definitelyTrue => return .mustHold (.cond c)
    | .definitelyFalse => return .deactivated
    | .undecided => return .undecided c false true false
  | .notIf c => do
    match ← testLiteral d (.cond c) with
    | .definitelyTrue => return .mustNotHold (.cond c)
    | .definitelyFalse => return .deactivated
    | .undecided => return .undecided c false false true
  | .iffCond c => do
    match ← testLiteral d (.cond c) with
    | .definitelyTrue => return .mustHold (.cond c)
    | .definitelyFalse => return .mustNotHold (.cond c.not)
    | .undecided => return .undecided c true true false

/-- `cond_to_infer_if_constraint_must_hold` (gcs/constraints/innards/reified_state.hh), by the fields of `Undecided`. -/
def condIfMustHold (c : Cond) (setCondIfMustHold setNotCondIfMustHold : Bool) : Option Lit :=
  if setCondIfMustHold then some (.cond c) else if setNotCondIfMustHold then some (.cond c.not) else none

/-- `cond_to_infer_if_constraint_must_not_hold` (gcs/constraints/innards/reified_state.hh). -/
def condIfMustNotHold (c : Cond) (setNotCondIfMustNotHold : Bool) : Option Lit := if setNotCondIfMustNotHold then some (.cond c.not) else none

/-- `ReificationVerdict` (gcs/constraints/innards/reified_dispatcher.hh:20-69), without justification and reason. -/
inductive Verdict where
  | stillUndecided | mustHold | mustNotHold
  deriving DecidableEq, Repr

/-- gcs/constraints/innards/triggers.cc:8-26. -/
def Triggers.addFor (t : Triggers) : Lit → Triggers
  | .cond c =>
    match c.op with
    | .equal | .notEqual | .inRange | .notInRange => { t with onChange := t.onChange ++ [c.var] }
    | .less | .greaterEqual => { t with onBounds := t.onBounds ++ [c.var] }
  | .tt => t
  | .ff => t

section
variable {σ μ : Type}

/-- `without_any_idempotency_claim` (gcs/constraints/innards/reified_dispatcher.hh:174-176). -/
def PState.withoutClaim : PState → PState
  | .enableButIdempotent => .enable
  | s => s

/-- `if (lit) inference.infer(*lit)`. -/
def Prog.tellAny : Option Lit → Prog σ μ Unit
  | some l => .tell l
  | none => .ret ()

/-- The propagation function installed when the condition is not decided yet (gcs/constraints/innards/reified_dispatcher.hh:160-214). The condition handed to the passes is only used for reasons. -/
def dispatch (r : Reif) (hold notHold : Prog σ μ PState) (verdict : Prog σ μ Verdict) : Prog σ μ PState := do
  match ← Prog.ask (r.test ·) with
  | .mustHold _ => return (← hold).withoutClaim
  | .mustNotHold _ => return (← notHold).withoutClaim
  | .undecided c b1 b2 b3 =>
    match ← verdict with
    | .stillUndecided => return .enable
    | .mustHold =>
      Prog.tellAny (condIfMustHold c b1 b3)
      return .disableUntilBacktrack
    | .mustNotHold =>
      Prog.tellAny (condIfMustNotHold c b2)
      return .disableUntilBacktrack
  | .deactivated => return .disableUntilBacktrack

/-- `install_reified_dispatcher` (gcs/constraints/innards/reified_dispatcher.hh:111-218). -/
def installDispatcher (e : Evaluated) (r : Reif) (t : Triggers) (hold notHold : Prog σ μ PState) (verdict : Prog σ μ Verdict) : List (Item σ μ) :=
  match e with
  | .deactivated => []
  | .mustHold _ => [.prop hold t]
  | .mustNotHold _ => [.prop notHold t]
  | .undecided c _ _ _ => [.prop (dispatch r hold notHold verdict) (t.addFor (.cond c))]

end
end Gcs
