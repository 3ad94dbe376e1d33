import Verif.Model.Cons.Stages
import Verif.Model.Cons.Tabulation

/-!
# Division and remainder (`gcs/constraints/divide_modulus/divide_modulus.cc`)

The variables for the magnitudes of quotient and divisor are allocated by the constraints in the code. Here they are a parameter, variables that are there already, and `magnitudes` says with which bounds they are allocated.
The variable that `Divide` allocates and never uses (divide_modulus.cc:952) is left out. Rows of the proof model, reasons and justifications are not modelled.
-/

namespace Gcs.DivMod
open Stages

/-- `is_in_relation` (divide_modulus.cc:117-124), where `/` and `%` on `long long` do not overflow. -/
def related (x y q r : Int) : Bool :=
  if y = 0 then false
  else if x = i64Min ∧ y = -1 then false
  else decide (x.tdiv y = q ∧ x.tmod y = r)

/-- `while (power2(bits) <= ub) bits += 1_i;` and then `power2(bits) - 1_i` (divide_modulus.cc:131-134 and :962-965). It is given a bound that is enough, as `power2` throws from 63 on. -/
def bitMax (ub : Int) : Nat → Int → Chk Int
  | 0, _ => .error .diverge
  | k + 1, bits => do
    let p ← power2 bits
    if p ≤ ub then bitMax ub k (← iAdd bits 1) else iSub p 1

/-- The largest value of the variable for a magnitude (`allocate_cake_magnitude`, divide_modulus.cc:128-136). -/
def magnitudeOf (root : Doms) (v : VarId) : Chk Int := do
  let b ← bounds root v
  let l ← iAbs b.1
  let h ← iAbs b.2
  bitMax (max l h) 64 0

/-- The absolute value, as it is found in `mx` (divide_modulus.cc:943). -/
def size (x : Int) : Chk Int := if x < 0 then iNeg x else .ok x

/-- `mx` (divide_modulus.cc:928 and :943). -/
def largest (root : Doms) (x : VarId) : Chk Int := do
  let b ← bounds root x
  let l ← size b.1
  let h ← size b.2
  return max l h

/-- The largest value of the variable for the magnitude of the quotient (divide_modulus.cc:962-966 and :978). `divide` says which constraint it is. -/
def quotientOf (divide : Bool) (mx : Int) (out : VarId) (root : Doms) : Chk Int :=
  if divide = true then magnitudeOf root out else bitMax mx 64 0

/-- The largest values of the two variables allocated (divide_modulus.cc:943-989): for quotient and divisor. -/
def magnitudes (divide : Bool) (x y out : VarId) (root : Doms) : Chk (Int × Int) := do
  let mx ← largest root x
  let q ← quotientOf divide mx out root
  let b ← magnitudeOf root y
  return (q, b)

/-- `append_magnitude_stages` (divide_modulus.cc:881-904). -/
def magnitudeStages (mag : Nat) (v : VarId) (threshold : Int) : List Spec := match v with
  | .const c =>
    (if c ≥ threshold then [le [(1, .simple mag), (-1, v)] 0 none, le [(-1, .simple mag), (1, v)] 0 none] else []) ++
    (if c < 0 then [le [(1, .simple mag), (1, v)] 0 none, le [(-1, .simple mag), (-1, v)] 0 none] else [])
  | v => [le [(1, .simple mag), (-1, v)] 0 (some (Cond.ge v threshold)), le [(-1, .simple mag), (1, v)] 0 (some (Cond.ge v threshold)),
      le [(1, .simple mag), (1, v)] 0 (some (Cond.lt v 0)), le [(-1, .simple mag), (-1, v)] 0 (some (Cond.lt v 0))]

/-- The stages (divide_modulus.cc:1204-1229), for quotient and divisor magnitudes `mq` and `my`. -/
def specs (divide : Bool) (x y out : VarId) (mq my : Nat) : List Spec :=
  if divide = true then magnitudeStages mq out 0 ++ magnitudeStages my y 1
  else [le [(1, out), (-1, .simple my)] (-1) none, le [(-1, out), (-1, .simple my)] (-1) none,
    le [(-1, out)] 0 (some (Cond.ge x 0)), le [(1, out)] 0 (some (Cond.lt x 1))] ++ magnitudeStages my y 1

/-- What the rows for `x >= 0` say about the product (divide_modulus.cc:378-379), given bounds of `x`, of the divisor's magnitude and, for `Modulus`, of the remainder. -/
def posRow (x b : Int × Int) : Option (Int × Int) → Chk (Int × Int)
  | some r => do
    let hi ← iSub x.2 r.1
    let lo ← iSub x.1 r.2
    return (lo, hi)
  | none => do
    let lo ← iAdd (← iSub x.1 b.2) 1
    return (lo, x.2)

/-- What the rows for `x < 1` say about the product (divide_modulus.cc:390-391). -/
def negRow (x b : Int × Int) : Option (Int × Int) → Chk (Int × Int)
  | some r => do
    let hi ← iSub r.2 x.1
    let lo ← iSub r.1 x.2
    return (lo, hi)
  | none => do
    let hi ← iNeg x.1
    let lo ← iAdd (← iSub (← iNeg x.2) b.2) 1
    return (lo, hi)

/-- What the rows say, depending on the sign of `x` (divide_modulus.cc:377-417). -/
def row (x b : Int × Int) (r : Option (Int × Int)) : Chk (Int × Int) :=
  if x.1 ≥ 0 then posRow x b r
  else if x.2 < 1 then negRow x b r
  else do
    let p ← posRow x b r
    let n ← negRow x b r
    return (min p.1 n.1, max p.2 n.2)

section
variable {σ μ : Type}

/-- `infer_bound` of a lower bound (divide_modulus.cc:491-501). -/
def atLeast (v : VarId) (x : Int) : Prog σ μ Unit := do
  let l ← Prog.ask (lowerBound · v)
  Prog.onlyIf (¬ x ≤ l) (Prog.tell (.cond (Cond.ge v x)))

/-- `infer_bound` of an upper bound (divide_modulus.cc:491-501). -/
def atMost (v : VarId) (x : Int) : Prog σ μ Unit := do
  let u ← Prog.ask (upperBound · v)
  Prog.onlyIf (¬ x ≥ u) do
    Prog.tell (.cond (Cond.lt v (← Prog.lift (iAdd x 1))))

/-- What is computed and then used as a bound. -/
def bound (f : VarId → Int → Prog σ μ Unit) (v : VarId) (x : Chk Int) : Prog σ μ Unit := do
  f v (← Prog.lift x)

/-- The first part of pushing the interval back, for `Divide` (divide_modulus.cc:503-547): `pw` is the interval of the product of the magnitudes. -/
def signsDivide (x : VarId) (bx pw : Int × Int) : Prog σ μ Unit :=
  if bx.1 ≥ 0 then atLeast x pw.1
  else if bx.2 < 1 then bound atMost x (iNeg pw.1)
  else do
    Prog.onlyIf (pw.1 > bx.2) (atMost x (-1))
    let m ← Prog.lift (iNeg bx.1)
    Prog.onlyIf (pw.1 > m) (atLeast x 1)

/-- Pushing the interval back, for `Divide` (divide_modulus.cc:503-589): `w` is the interval of the product. -/
def backDivide (x : VarId) (my : Nat) (bx bb pw w : Int × Int) : Prog σ μ Unit := do
  signsDivide x bx pw
  bound atMost x (do iSub (← iAdd pw.2 bb.2) 1)
  bound atLeast x (do iNeg (← iSub (← iAdd pw.2 bb.2) 1))
  if bx.1 ≥ 0 then bound atLeast (.simple my) (do iAdd (← iSub bx.1 w.2) 1)
  else Prog.onlyIf (bx.2 < 1) (bound atLeast (.simple my) (do iSub (← iSub 1 bx.2) w.2))

/-- Pushing the interval back, for `Modulus` (divide_modulus.cc:590-705). -/
def backModulus (x r : VarId) (bx br pw w : Int × Int) : Prog σ μ Unit :=
  if bx.1 ≥ 0 then do
    bound atMost r (iSub bx.2 w.1)
    bound atLeast r (iSub bx.1 w.2)
    bound atLeast x (iAdd br.1 w.1)
    bound atMost x (iAdd br.2 w.2)
  else if bx.2 < 1 then do
    bound atLeast r (iAdd bx.1 w.1)
    bound atMost r (iAdd bx.2 w.2)
    bound atLeast x (iSub br.1 w.2)
    bound atMost x (iSub br.2 w.1)
  else do
    let ph ← Prog.lift (iSub bx.2 br.1)
    Prog.onlyIf (pw.1 > ph) (atMost x (-1))
    let pl ← Prog.lift (iSub bx.1 br.2)
    Prog.onlyIf (pw.2 < pl) (atMost x (-1))
    let nh ← Prog.lift (iSub br.2 bx.1)
    Prog.onlyIf (pw.1 > nh) (atLeast x 1)
    let nl ← Prog.lift (iSub br.1 bx.2)
    Prog.onlyIf (pw.2 < nl) (atLeast x 1)

/-- `filter_one` (divide_modulus.cc:711-803): the bounds of the target and of the other factor are those at the start of the pass. -/
def filterOne (target : Nat) (bt bo w : Int × Int) : Prog σ μ Unit := do
  match ← Prog.lift (quotientFilter bo.1 bo.2 w.1 w.2) with
  | .noFilter => return
  | .emptyBecauseYZero => Prog.fail
  | .bounds lo hi => do
    Prog.onlyIf (hi < bt.2) do
      Prog.tell (.cond (Cond.lt (.simple target) (← Prog.lift (iAdd hi 1))))
    Prog.onlyIf (lo > max bt.1 0) (Prog.tell (.cond (Cond.ge (.simple target) lo)))

/-- Whether the divisor is negative because its magnitude is larger than all of its values (divide_modulus.cc:814). -/
def negative (bl : Int) (by' : Int × Int) : Chk Bool :=
  if bl > by'.2 then do return decide ((← iNeg bl) < (← iAdd by'.2 1)) else .ok false

/-- Whether the divisor is positive because its magnitude is larger than those of its negative values (divide_modulus.cc:833). -/
def positive (bl : Int) (by' : Int × Int) : Chk Bool := do
  let m ← iNeg by'.1
  return decide (bl > m ∧ bl > by'.1)

/-- The lower bound of the divisor's magnitude for the divisor (divide_modulus.cc:812-851). -/
def pushDivisor (y : VarId) (my : Nat) : Prog σ μ Unit := do
  let bl ← Prog.ask (lowerBound · (.simple my))
  let b ← Prog.ask (bounds · y)
  if ← Prog.lift (negative bl b) then
    Prog.tell (.cond (Cond.lt y (← Prog.lift (do iAdd (← iNeg bl) 1))))
  else do
    let p ← Prog.lift (positive bl b)
    Prog.onlyIf (p = true) (Prog.tell (.cond (Cond.ge y bl)))

/-- The bounds of the remainder, for `Modulus`. -/
def askRemainder : Option VarId → Prog σ μ (Option (Int × Int))
  | none => .ret none
  | some r => do return some (← Prog.ask (bounds · r))

/-- Pushing the interval back. -/
def back (x : VarId) (my : Nat) (bx bb pw w : Int × Int) : Option VarId → Option (Int × Int) → Prog σ μ Unit
  | some r, some br => backModulus x r bx br pw w
  | _, _ => backDivide x my bx bb pw w

/-- `propagate_default_product` (divide_modulus.cc:363-852). -/
def product (x y : VarId) (mq my : Nat) (r : Option VarId) : Prog σ μ Unit := do
  let ba ← Prog.ask (bounds · (.simple mq))
  let bb ← Prog.ask (bounds · (.simple my))
  let bx ← Prog.ask (bounds · x)
  let br ← askRemainder r
  let pw ← Prog.lift (productBounds ba.1 ba.2 bb.1 bb.2)
  let rw ← Prog.lift (row bx bb br)
  let w := (max (max pw.1 0) rw.1, min pw.2 rw.2)
  if w.1 > w.2 then Prog.fail
  else do
    back x my bx bb pw w r br
    filterOne mq ba bb w
    filterOne my bb ba w
    pushDivisor y my

/-- The divisor is not zero (divide_modulus.cc:1251-1252). -/
def avoidZero (y : VarId) : Prog σ μ Unit := do
  if ← Prog.ask (inDomain · y 0) then Prog.tell (.cond (Cond.ne y 0)) else return

/-- `lower_bound(v) >= 1`. -/
def isPositive (v : VarId) (d : Doms) : Chk Bool := do return decide ((← lowerBound d v) ≥ 1)

/-- `upper_bound(v) < 0`. -/
def isNegative (v : VarId) (d : Doms) : Chk Bool := do return decide ((← upperBound d v) < 0)

/-- `lower_bound(v) < 0`. -/
def mayBeNegative (v : VarId) (d : Doms) : Chk Bool := do return decide ((← lowerBound d v) < 0)

/-- `upper_bound(v) > 0`. -/
def mayBePositive (v : VarId) (d : Doms) : Chk Bool := do return decide ((← upperBound d v) > 0)

/-- `&&`. -/
def both (f g : Doms → Chk Bool) (d : Doms) : Chk Bool := do if ← f d then g d else return false

/-- The sign of the quotient, given what says that dividend and divisor have the same sign and what says that they do not (divide_modulus.cc:1261-1264 and :1267-1270). -/
def pin (same opposite : Doms → Chk Bool) (q : VarId) : Prog σ μ Unit := do
  if ← Prog.ask (both same (mayBeNegative q)) then Prog.tell (.cond (Cond.ge q 0))
  else do
    let b ← Prog.ask (both opposite (mayBePositive q))
    Prog.onlyIf (b = true) (Prog.tell (.cond (Cond.lt q 1)))

/-- The sign of the quotient of `Divide` (divide_modulus.cc:1254-1272). -/
def pinSign (x y q : VarId) : Prog σ μ Unit := do
  if ← Prog.ask (isPositive x) then pin (isPositive y) (isNegative y) q
  else do
    let b ← Prog.ask (isNegative x)
    Prog.onlyIf (b = true) (pin (isNegative y) (isPositive y) q)

/-- The body of the loop (divide_modulus.cc:1251-1277): whether there was a contradiction. -/
def body (divide : Bool) (stages : List Stage) (x y out : VarId) (mq my : Nat) : Prog σ μ Bool := do
  avoidZero y
  Prog.onlyIf (divide = true) (pinSign x y out)
  if ← Stages.all stages then return true
  else do
    product x y mq my (if divide = true then none else some out)
    return false

/-- The propagation function (divide_modulus.cc:1249-1285). -/
def prop (divide : Bool) (stages : List Stage) (x y out : VarId) (mq my : Nat) : Prog σ μ PState := Prog.untilQuietOr (body divide stages x y out mq my)

/-- `Divide` and `Modulus` without tabulation (divide_modulus.cc:926-989 and :1193-1286). A divisor that is the constant zero is refused. -/
def install (divide : Bool) (x y out : VarId) (mq my : Nat) (root : Doms) : Chk (List (Item σ μ)) :=
  if y = .const 0 then do
    let _ ← bounds root x
    return [AllDifferent.refuse]
  else do
    let _ ← magnitudes divide x y out root
    let stages ← make (specs divide x y out mq my)
    return [.prop (prop divide stages x y out mq my) { onBounds := Multiply.watched [] [x, y, out, .simple mq, .simple my] }]

end

section
open Tabulation

/-- `recover_q` (divide_modulus.cc:1009). -/
def recoverQ (q x y : Int) : Chk Int := if (decide (x ≥ 0) != decide (y ≥ 0)) = true then iNeg q else .ok q

/-- The acceptance test of `Divide` (divide_modulus.cc:1044-1051). -/
def acceptDivide (a b c : Affine) (pa pb pc : Option Nat) (vals : List Int) : Chk Bool := do
  let xv ← slot a pa vals
  let yv ← slot b pb vals
  let outv ← slot c pc vals
  return related xv yv outv (← iSub xv (← iMul outv yv))

/-- The acceptance test of `Modulus` (divide_modulus.cc:1044-1052). -/
def acceptModulus (a b c : Affine) (pa pb pc : Option Nat) (paux : Nat) (vals : List Int) : Chk Bool := do
  let xv ← slot a pa vals
  let yv ← slot b pb vals
  let outv ← slot c pc vals
  return related xv yv (← recoverQ (← vecAt vals paux) xv yv) outv

/-- A value as one of the variable (e.g. divide_modulus.cc:1027-1029). -/
def asValue (c : Affine) (want : Int) : Chk (Option Int) := do
  if (← iMod (← iSub want c.offset) c.coeff) ≠ 0 then return none
  else return some (← iDiv (← iSub want c.offset) c.coeff)

/-- The remainder in terms of the others (divide_modulus.cc:1023-1030). -/
def solveRemainder (a b c : Affine) (pa pb : Option Nat) (paux : Nat) (vals : List Int) : Chk (Option Int) := do
  let xv ← slot a pa vals
  let yv ← slot b pb vals
  let q ← recoverQ (← vecAt vals paux) xv yv
  asValue c (← iSub xv (← iMul q yv))

/-- The dividend in terms of the others, if its sign is fixed (divide_modulus.cc:1034-1041). -/
def solveDividend (sign : Int) (a b c : Affine) (pb pc : Option Nat) (paux : Nat) (vals : List Int) : Chk (Option Int) := do
  let yv ← slot b pb vals
  let outv ← slot c pc vals
  let m ← iMul sign (← vecAt vals paux)
  let ay ← size yv
  asValue a (← iAdd (← iMul m ay) outv)

/-- The plan for `Divide` (divide_modulus.cc:995-1055). -/
def planDivide (x y out : VarId) : Plan :=
  let r := register3 (affineOf x) (affineOf y) (affineOf out)
  ⟨r.1, [], acceptDivide (affineOf x) (affineOf y) (affineOf out) r.2.1 r.2.2.1 r.2.2.2⟩

/-- The determined remainder (divide_modulus.cc:1022-1030). -/
def remainderDet (a b c : Affine) (pa pb pc : Option Nat) (paux : Nat) : List Determined := match c.var, pc with
  | some z, some pz => if some pz ≠ pa ∧ some pz ≠ pb then [⟨.simple z, solveRemainder a b c pa pb paux⟩] else []
  | _, _ => []

/-- The determined dividend (divide_modulus.cc:1031-1041), `bx` being the bounds of the dividend. -/
def dividendDet (bx : Int × Int) (a b c : Affine) (pa pb pc : Option Nat) (paux : Nat) : List Determined := match a.var, pa with
  | some i, some p => if some p ≠ pb ∧ some p ≠ pc ∧ (bx.1 ≥ 0 ∨ bx.2 ≤ 0) then [⟨.simple i, solveDividend (if bx.2 ≤ 0 then -1 else 1) a b c pb pc paux⟩] else []
  | _, _ => []

/-- The plan for `Modulus` (divide_modulus.cc:995-1055). -/
def planModulus (bx : Int × Int) (x y out : VarId) (mq : Nat) : Plan :=
  let r := register3 (affineOf x) (affineOf y) (affineOf out)
  let q := positionOf r.1 (.simple mq)
  ⟨q.1, remainderDet (affineOf x) (affineOf y) (affineOf out) r.2.1 r.2.2.1 r.2.2.2 q.2 ++ dividendDet bx (affineOf x) (affineOf y) (affineOf out) r.2.1 r.2.2.1 r.2.2.2 q.2,
   acceptModulus (affineOf x) (affineOf y) (affineOf out) r.2.1 r.2.2.1 r.2.2.2 q.2⟩

/-- The table, if there is one: not if the divisor is the constant zero (divide_modulus.cc:936-939). -/
def tableAt (divide : Bool) (limit : Int) (level : Level) (x y out : VarId) (mq : Nat) (root : Doms) : Chk (Option (List VarId × List (List (Option Int)))) :=
  if y = .const 0 then .ok none
  else if divide = true then (planDivide x y out).table limit level root
  else do (planModulus (← bounds root x) x y out mq).table limit level root

/-- `Divide` and `Modulus` at any consistency level (divide_modulus.cc:926-1056 and :1193-1291). -/
def installAt {σ μ : Type} (divide : Bool) (limit : Int) (level : Level) (sel x y out : VarId) (mq my : Nat) (fresh : Nat → Bool) (cache : Nat → Nat → Int → Option Nat) : Doms → Chk (List (Item σ μ)) :=
  addTable (install divide x y out mq my) (tableAt divide limit level x y out mq) sel fresh cache

end
end Gcs.DivMod
