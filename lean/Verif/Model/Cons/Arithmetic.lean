import Verif.Model.Cons.Comparison

/-!
# Sums, differences and absolute values (`gcs/constraints/plus_minus`, `gcs/constraints/abs`)

`Plus` and `Minus` are modelled at bounds consistency (`consistency::BC`, and `consistency::Auto` when there are many combinations of values): the table that is built otherwise is not modelled.
-/

namespace Gcs
open IntervalSet

namespace Plus

section
variable {σ μ : Type}

/-- One pass of `propagate_plus` (gcs/constraints/plus_minus/plus.cc:81-112). -/
def pass (a b result : VarId) : Prog σ μ Unit := do
  let ba ← Prog.ask (bounds · a)
  let bb ← Prog.ask (bounds · b)
  let br ← Prog.ask (bounds · result)
  Prog.tell (.cond (Cond.ge result (← Prog.lift (iAdd ba.1 bb.1))))
  Prog.tell (.cond (← Prog.lift (do Cond.le result (← iAdd ba.2 bb.2))))
  Prog.tell (.cond (Cond.ge a (← Prog.lift (iSub br.1 bb.2))))
  Prog.tell (.cond (← Prog.lift (do Cond.le a (← iSub br.2 bb.1))))
  Prog.tell (.cond (Cond.ge b (← Prog.lift (iSub br.1 ba.2))))
  Prog.tell (.cond (← Prog.lift (do Cond.le b (← iSub br.2 ba.1))))

/-- `propagate_plus` (gcs/constraints/plus_minus/plus.cc:56-116). -/
def prop (a b result : VarId) : Prog σ μ PState := do
  Prog.untilQuiet (pass a b result)
  return .enableButIdempotent

/-- gcs/constraints/plus_minus/plus.cc:197-211, without the table. -/
def install (a b result : VarId) (_ : Doms) : Chk (List (Item σ μ)) := .ok [.prop (prop a b result) { onBounds := [a, b, result] }]

end
end Plus

namespace Minus

section
variable {σ μ : Type}

/-- One pass of `propagate_minus` (gcs/constraints/plus_minus/minus.cc:86-122). -/
def pass (a b result : VarId) : Prog σ μ Unit := do
  let ba ← Prog.ask (bounds · a)
  let bb ← Prog.ask (bounds · b)
  let br ← Prog.ask (bounds · result)
  Prog.tell (.cond (Cond.ge result (← Prog.lift (iSub ba.1 bb.2))))
  Prog.tell (.cond (← Prog.lift (do Cond.le result (← iSub ba.2 bb.1))))
  Prog.tell (.cond (Cond.ge a (← Prog.lift (iAdd br.1 bb.1))))
  Prog.tell (.cond (← Prog.lift (do Cond.le a (← iAdd br.2 bb.2))))
  Prog.tell (.cond (Cond.ge b (← Prog.lift (iSub ba.1 br.2))))
  Prog.tell (.cond (← Prog.lift (do Cond.le b (← iSub ba.2 br.1))))

/-- `propagate_minus` (gcs/constraints/plus_minus/minus.cc:64-126). -/
def prop (a b result : VarId) : Prog σ μ PState := do
  Prog.untilQuiet (pass a b result)
  return .enableButIdempotent

/-- gcs/constraints/plus_minus/minus.cc:207-221, without the table. -/
def install (a b result : VarId) (_ : Doms) : Chk (List (Item σ μ)) := .ok [.prop (prop a b result) { onBounds := [a, b, result] }]

end
end Minus

namespace Abs

/-- `sort(pieces)`: sorting pairs gives the same result whatever the algorithm. -/
def insertPiece (p : Int × Int) : List (Int × Int) → List (Int × Int)
  | [] => [p]
  | q :: qs => if p.1 < q.1 ∨ (p.1 = q.1 ∧ p.2 ≤ q.2) then p :: q :: qs else q :: insertPiece p qs

def sortPieces : List (Int × Int) → List (Int × Int)
  | [] => []
  | p :: ps => insertPiece p (sortPieces ps)

/-- The loop of `pieces_to_set` (gcs/constraints/abs/abs.cc:60-73). -/
def mergePieces (cur : Int × Int) (result : IntervalSet) : List (Int × Int) → Chk IntervalSet
  | [] => insertAtEnd cur.1 cur.2 result
  | q :: qs => do
    if q.1 ≤ (← iAdd cur.2 1) then mergePieces (cur.1, max cur.2 q.2) result qs
    else mergePieces q (← insertAtEnd cur.1 cur.2 result) qs

/-- `pieces_to_set` (gcs/constraints/abs/abs.cc:54-74). -/
def piecesToSet (pieces : List (Int × Int)) : Chk IntervalSet :=
  match sortPieces pieces with
  | [] => .ok []
  | p :: ps => mergePieces p [] ps

/-- gcs/constraints/abs/abs.cc:231-239, for one interval. -/
def imagePiece (p : Int × Int) : Chk (List (Int × Int)) :=
  if p.1 ≥ 0 then .ok [p]
  else if p.2 < 0 then do
    let l ← iNeg p.2
    let u ← iNeg p.1
    return [(l, u)]
  else do return [(0, max (← iNeg p.1) p.2)]

/-- gcs/constraints/abs/abs.cc:256-264, for one interval. -/
def preimagePiece (p : Int × Int) : Chk (List (Int × Int)) :=
  if p.1 = 0 then do return [(← iNeg p.2, p.2)]
  else do
    let l ← iNeg p.2
    let u ← iNeg p.1
    return [(l, u), p]

def pieces (f : Int × Int → Chk (List (Int × Int))) : List (Int × Int) → Chk (List (Int × Int))
  | [] => .ok []
  | p :: ps => do
    let qs ← f p
    return qs ++ (← pieces f ps)

section
variable {σ μ : Type}

/-- gcs/constraints/abs/abs.cc:242-254 and :267-277: what `v` had and is not in the set is removed, as far as it is within the bounds at the start of the loop and still there. -/
def removeGaps (v : VarId) (had allowed : IntervalSet) : Prog σ μ Unit := do
  let b ← Prog.ask (bounds · v)
  Prog.forGen (fun p => Prog.forGen (fun val => do
    if ← Prog.ask (inDomain · v val) then Prog.tell (.cond (Cond.ne v val)) else return) (loopUp (max p.1 b.1) (min p.2 b.2))) (eachIntervalMinus had allowed)

/-- gcs/constraints/abs/abs.cc:180-208. -/
def towardsResult (v2 : VarId) (b1 b2 : Int × Int) : Prog σ μ Unit := do
  let imageUb ← Prog.lift (do return max (← iNeg b1.1) b1.2)
  Prog.onlyIf (imageUb < b2.2) do
    Prog.tell (.cond (Cond.lt v2 (← Prog.lift (iAdd imageUb 1))))
  if b1.1 ≥ 1 ∧ b1.1 > b2.1 then Prog.tell (.cond (Cond.ge v2 b1.1))
  else if b1.2 ≤ -1 then do
    let nu ← Prog.lift (iNeg b1.2)
    Prog.onlyIf (nu > b2.1) (Prog.tell (.cond (Cond.ge v2 nu)))
  else return

/-- gcs/constraints/abs/abs.cc:211-225. -/
def towardsArgument (v1 : VarId) (b1 b2 : Int × Int) : Prog σ μ Unit := do
  Prog.onlyIf (b2.2 < b1.2) do
    Prog.tell (.cond (Cond.lt v1 (← Prog.lift (iAdd b2.2 1))))
  let nu ← Prog.lift (iNeg b2.2)
  Prog.onlyIf (nu > b1.1) (Prog.tell (.cond (Cond.ge v1 nu)))

/-- The propagation function (gcs/constraints/abs/abs.cc:161-281). -/
def prop (v1 v2 : VarId) : Prog σ μ PState := do
  let s1 ← Prog.ask (copyOfValues · v1)
  let s2 ← Prog.ask (copyOfValues · v2)
  let b1 ← Prog.ask (bounds · v1)
  let b2 ← Prog.ask (bounds · v2)
  Prog.onlyIf (v2.isConst = false) (towardsResult v2 b1 b2)
  towardsArgument v1 b1 b2
  let image ← Prog.lift (do piecesToSet (← pieces imagePiece (eachInterval s1)))
  removeGaps v2 s2 image
  let preimage ← Prog.lift (do piecesToSet (← pieces preimagePiece (eachInterval s2)))
  removeGaps v1 s1 preimage
  return .enable

/-- The initialiser (gcs/constraints/abs/abs.cc:110-154). -/
def start (v1 v2 : VarId) : Prog σ μ Unit :=
  if v2.isConst then return
  else do
    Prog.tell (.cond (Cond.ge v2 0))
    let u ← Prog.ask (upperBound · v2)
    Prog.onlyIf (u ≥ 0) do
      Prog.tell (.cond (← Prog.lift (Cond.le v1 u)))
    Prog.onlyIf (u > 0) do
      Prog.tell (.cond (Cond.ge v1 (← Prog.lift (iNeg u))))
    let b ← Prog.ask (bounds · v1)
    Prog.tell (.cond (← Prog.lift (do Cond.le v2 (max b.2 (← iNeg b.1)))))

/-- gcs/constraints/abs/abs.cc:95-283. -/
def install (v1 v2 : VarId) (_ : Doms) : Chk (List (Item σ μ)) :=
  .ok [.init .simpleDefinition (start v1 v2), .prop (prop v1 v2) { onChange := [v1, v2] }]

end
end Abs
end Gcs
