import Verif.Model.Cons.Linear
import Verif.Model.Cons.Comparison

/-!
# Multiplication (`gcs/constraints/multiply`, `gcs/constraints/innards/product_bounds.hh`)

Modelled at bounds consistency (`consistency::BC`, and `consistency::Auto` when there are many combinations of values). The table that is built otherwise is in `Model/Cons/Tabulation.lean`.
-/

namespace Gcs

/-- `div_floor` (gcs/constraints/innards/product_bounds.hh:18-21). -/
def divFloor (a b : Int) : Chk Int :=
  if (decide (a ≥ 0) != decide (b ≥ 0)) = true ∧ a ≠ 0 then do
    let q ← iDiv (← iSub 1 (← iAbs a)) (← iAbs b)
    iSub q 1
  else iDiv a b

/-- `div_ceil` (gcs/constraints/innards/product_bounds.hh:28-31). -/
def divCeil (a b : Int) : Chk Int :=
  if decide (a ≥ 0) = decide (b ≥ 0) ∧ a ≠ 0 then do
    let q ← iDiv (← iSub (← iAbs a) 1) (← iAbs b)
    iAdd q 1
  else iDiv a b

/-- The loop of `isqrt` (gcs/constraints/innards/product_bounds.hh:46-49). It is given a bound, and it is shown that it is not reached (`isqrt_roo`). -/
def isqrtLoop (n : Int) : Nat → Int → Int → Chk Int
  | 0, _, _ => .error .diverge
  | k + 1, x, y => if y < x then do isqrtLoop n k y (← iDiv (← iAdd y (← iDiv n y)) 2) else .ok x

/-- `isqrt` (gcs/constraints/innards/product_bounds.hh:38-51). -/
def isqrt (n : Int) : Chk Int :=
  if n < 0 then .error .unexpected
  else if n < 2 then .ok n
  else do isqrtLoop n n.toNat n (← iDiv (← iAdd n 1) 2)

/-- `ceil_isqrt` (gcs/constraints/innards/product_bounds.hh:58-62). -/
def ceilIsqrt (n : Int) : Chk Int := do
  let r ← isqrt n
  if (← iMul r r) = n then return r else iAdd r 1

/-- `product_bounds` (gcs/constraints/innards/product_bounds.hh:70-77). -/
def productBounds (xMin xMax yMin yMax : Int) : Chk (Int × Int) := do
  let x1y1 ← iMul xMin yMin
  let x2y1 ← iMul xMax yMin
  let x1y2 ← iMul xMin yMax
  let x2y2 ← iMul xMax yMax
  return (min x1y1 (min x1y2 (min x2y1 x2y2)), max x1y1 (max x1y2 (max x2y1 x2y2)))

/-- `square_bounds` (gcs/constraints/innards/product_bounds.hh:85-91). -/
def squareBounds (lo hi : Int) : Chk (Int × Int) := do
  let lo2 ← iMul lo lo
  let hi2 ← iMul hi hi
  if lo ≤ 0 ∧ 0 ≤ hi then return (0, max lo2 hi2) else return (min lo2 hi2, max lo2 hi2)

/-- `QuotientFilter` (gcs/constraints/innards/product_bounds.hh:124-136). -/
inductive Quotient where
  | noFilter
  | emptyBecauseYZero
  | bounds (lo hi : Int)
  deriving DecidableEq

/-- The last case of `quotient_filter` (gcs/constraints/innards/product_bounds.hh:165-175), after the zero endpoint is dropped. -/
def quotientCorners (yMin yMax zMin zMax : Int) : Chk Quotient := do
  let c1 ← divCeil zMin yMin
  let c2 ← divCeil zMin yMax
  let c3 ← divCeil zMax yMin
  let c4 ← divCeil zMax yMax
  let f1 ← divFloor zMin yMin
  let f2 ← divFloor zMin yMax
  let f3 ← divFloor zMax yMin
  let f4 ← divFloor zMax yMax
  return .bounds (min c1 (min c2 (min c3 c4))) (max f1 (max f2 (max f3 f4)))

/-- `quotient_filter` (gcs/constraints/innards/product_bounds.hh:148-176). -/
def quotientFilter (yMin yMax zMin zMax : Int) : Chk Quotient :=
  if zMin ≤ 0 ∧ zMax ≥ 0 ∧ yMin ≤ 0 ∧ yMax ≥ 0 then .ok .noFilter
  else if yMin = 0 ∧ yMax = 0 then .ok .emptyBecauseYZero
  else if yMin < 0 ∧ yMax > 0 then do
    let a ← iAbs zMin
    let b ← iAbs zMax
    let l ← iNeg (max a b)
    return .bounds l (max a b)
  else if yMin = 0 then quotientCorners 1 yMax zMin zMax
  else if yMax = 0 then quotientCorners yMin (-1) zMin zMax
  else quotientCorners yMin yMax zMin zMax

namespace Multiply

section
variable {σ μ : Type}

/-- `infer_all` of those bounds of `z` that are not there yet (gcs/constraints/multiply/signed_multiply.cc:340-357). The literals are made before the first of them is inferred. -/
def boundResult (z : VarId) (p bz : Int × Int) : Prog σ μ Unit :=
  if p.2 < bz.2 then do
    let c ← Prog.lift (Cond.le z p.2)
    Prog.tell (.cond c)
    Prog.onlyIf (p.1 > bz.1) (Prog.tell (.cond (Cond.ge z p.1)))
  else Prog.onlyIf (p.1 > bz.1) (Prog.tell (.cond (Cond.ge z p.1)))

/-- `filter_factor` (gcs/constraints/multiply/signed_multiply.cc:286-321). -/
def filterFactor (target cofactor z : VarId) : Prog σ μ Unit := do
  let bc ← Prog.ask (bounds · cofactor)
  let bz ← Prog.ask (bounds · z)
  let bt ← Prog.ask (bounds · target)
  match ← Prog.lift (quotientFilter bc.1 bc.2 bz.1 bz.2) with
  | .noFilter => return
  | .emptyBecauseYZero => Prog.fail
  | .bounds lo hi => do
    Prog.onlyIf (hi < bt.2) do
      Prog.tell (.cond (Cond.lt target (← Prog.lift (iAdd hi 1))))
    Prog.onlyIf (lo > bt.1) (Prog.tell (.cond (Cond.ge target lo)))

/-- `infer_square_bound(true, t)` (gcs/constraints/multiply/signed_multiply.cc:371-384). -/
def squareUpper (x : VarId) (t : Int) : Prog σ μ Unit := do
  let b ← Prog.ask (bounds · x)
  Prog.onlyIf (¬ t ≥ b.2) do
    Prog.tell (.cond (Cond.lt x (← Prog.lift (iAdd t 1))))

/-- `infer_square_bound(false, t)` (gcs/constraints/multiply/signed_multiply.cc:371-384). -/
def squareLower (x : VarId) (t : Int) : Prog σ μ Unit := do
  let b ← Prog.ask (bounds · x)
  Prog.onlyIf (¬ t ≤ b.1) (Prog.tell (.cond (Cond.ge x t)))

/-- The square case (gcs/constraints/multiply/signed_multiply.cc:359-398). -/
def squareRoots (x z : VarId) : Prog σ μ Unit := do
  let bz ← Prog.ask (bounds · z)
  if bz.2 < 0 then return
  else do
    let u ← Prog.lift (isqrt bz.2)
    squareUpper x u
    squareLower x (← Prog.lift (iNeg u))
    Prog.onlyIf (bz.1 > 0) do
      let m ← Prog.lift (ceilIsqrt bz.1)
      let nm ← Prog.lift (iNeg m)
      let b ← Prog.ask (bounds · x)
      if b.1 > nm then squareLower x m
      else Prog.onlyIf (b.2 < m) (squareUpper x nm)

/-- `signed_multiply::propagate` (gcs/constraints/multiply/signed_multiply.cc:324-402). -/
def pass (x y z : VarId) : Prog σ μ Unit := do
  let bx ← Prog.ask (bounds · x)
  let byy ← Prog.ask (bounds · y)
  let p ← Prog.lift (if x = y then squareBounds bx.1 bx.2 else productBounds bx.1 bx.2 byy.1 byy.2)
  let bz ← Prog.ask (bounds · z)
  boundResult z p bz
  if x = y then squareRoots x z
  else do
    filterFactor x y z
    filterFactor y x z

/-- The propagation function (gcs/constraints/multiply/multiply.cc:182-194). -/
def prop (x y z : VarId) : Prog σ μ PState := do
  Prog.untilQuiet (pass x y z)
  return .enableButIdempotent

/-- The triggers: no constants, nothing twice (gcs/constraints/multiply/multiply.cc:175-178). -/
def watched : List VarId → List VarId → List VarId
  | acc, [] => acc
  | acc, v :: vs => if v.isConst = false ∧ v ∉ acc then watched (acc ++ [v]) vs else watched acc vs

/-- `linear_for_constant_operand` (gcs/constraints/multiply/multiply.cc:48-58): the terms of the sum and the value, if an operand is a constant. -/
def linearForm (x y z : VarId) : Chk (Option (List WTerm × Int)) :=
  match x, y with
  | .const c, .const k => do return some ([(1, z)], ← iMul c k)
  | .const c, y => .ok (some ([(c, y), (-1, z)], 0))
  | x, .const k => .ok (some ([(k, x), (-1, z)], 0))
  | _, _ => .ok none

/-- gcs/constraints/multiply/multiply.cc:75-199, without tables. `initial_state.bounds` is called for both operands when the constraint is posted (signed_multiply.cc:31-44). -/
def install (x y z : VarId) (root : Doms) : Chk (List (Item σ μ)) := do
  match ← linearForm x y z with
  | some (ts, v) => Linear.equality ts v .mustHold root
  | none =>
    let _ ← bounds root x
    let _ ← bounds root y
    return [.prop (prop x y z) { onBounds := watched [] [x, y, z] }]

end
end Multiply
end Gcs
