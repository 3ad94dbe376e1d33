import Verif.Model.Cons.Reified

/-!
# Comparison (`gcs/constraints/comparison/comparison.cc`)
-/

namespace Gcs

/-- `is_constant_variable`. -/
def VarId.isConst : VarId → Bool
  | .const _ => true
  | _ => false

namespace Comparison

section
variable {σ μ : Type}

/-- `enforce_constraint_must_hold` (gcs/constraints/comparison/comparison.cc:175-186). -/
def hold (v1 v2 : VarId) (orEqual : Bool) : Prog σ μ PState := do
  let b1 ← Prog.ask (bounds · v1)
  let b2 ← Prog.ask (bounds · v2)
  let u ← Prog.lift (iAdd b2.2 (if orEqual then 1 else 0))
  Prog.orStop (.cond (Cond.lt v1 u)) do
    let l ← Prog.lift (iAdd b1.1 (if orEqual then 0 else 1))
    Prog.orStop (.cond (Cond.ge v2 l)) do
      let k ← Prog.lift (iAdd b2.1 (if orEqual then 1 else 0))
      return if b1.2 < k then .disableUntilBacktrack else .enable

/-- `enforce_constraint_must_not_hold` (gcs/constraints/comparison/comparison.cc:188-199): the code is that of `hold` for the opposite constraint, apart from the order in which bounds are read. -/
def notHold (v1 v2 : VarId) (orEqual : Bool) : Prog σ μ PState := do
  let b1 ← Prog.ask (bounds · v1)
  let b2 ← Prog.ask (bounds · v2)
  let u ← Prog.lift (iAdd b1.2 (if orEqual then 0 else 1))
  Prog.orStop (.cond (Cond.lt v2 u)) do
    let l ← Prog.lift (iAdd b2.1 (if orEqual then 1 else 0))
    Prog.orStop (.cond (Cond.ge v1 l)) do
      let k ← Prog.lift (iAdd b1.1 (if orEqual then 0 else 1))
      return if b2.2 < k then .disableUntilBacktrack else .enable

/-- `infer_cond_when_undecided` (gcs/constraints/comparison/comparison.cc:201-236). -/
def verdict (v1 v2 : VarId) (orEqual : Bool) : Prog σ μ Verdict :=
  if v1 = v2 ∧ v1.isConst = false then return (if orEqual then .mustHold else .mustNotHold)
  else do
    let b1 ← Prog.ask (bounds · v1)
    let b2 ← Prog.ask (bounds · v2)
    return if (if orEqual then b1.2 ≤ b2.1 else b1.2 < b2.1) then .mustHold
      else if (if orEqual then b1.1 > b2.2 else b1.1 ≥ b2.2) then .mustNotHold
      else .stillUndecided

/-- What is installed if both operands are fixed at the root (gcs/constraints/comparison/comparison.cc:138-171). -/
def constants (holds : Bool) : Evaluated → List (Item σ μ)
  | .mustHold cond => if holds then [] else [.init .simpleDefinition (.tell cond.not)]
  | .mustNotHold cond => if holds then [.init .simpleDefinition (.tell cond.not)] else []
  | .undecided c b1 b2 b3 =>
    match (if holds then condIfMustHold c b1 b3 else condIfMustNotHold c b2) with
    | some l => [.init .simpleDefinition (.tell l)]
    | none => []
  | .deactivated => []

/-- `ReifiedCompareLessThanOrMaybeEqual` (gcs/constraints/comparison/comparison.cc:74-80 and :136-242). -/
def install (v1 v2 : VarId) (r : Reif) (orEqual : Bool) (root : Doms) : Chk (List (Item σ μ)) := do
  let c1 ← optionalSingleValue root v1
  let c2 ← optionalSingleValue root v2
  let e ← r.test root
  match c1, c2 with
  | some x, some y => return constants (if orEqual then decide (x ≤ y) else decide (x < y)) e
  | _, _ => return installDispatcher e r { onBounds := [v1, v2] } (hold v1 v2 orEqual) (notHold v1 v2 orEqual) (verdict v1 v2 orEqual)

/-- `LessThan` (gcs/constraints/comparison/comparison.cc:52-58). -/
def lessThan (v1 v2 : VarId) (root : Doms) : Chk (List (Item σ μ)) :=
  if v1 = v2 ∧ v1.isConst = false then .error .invalidProblem else install v1 v2 .mustHold false root

/-- `GreaterThan` (gcs/constraints/comparison/comparison.cc:60-65). -/
def greaterThan (v1 v2 : VarId) (root : Doms) : Chk (List (Item σ μ)) :=
  if v1 = v2 ∧ v1.isConst = false then .error .invalidProblem else install v2 v1 .mustHold false root

end
end Comparison
end Gcs
