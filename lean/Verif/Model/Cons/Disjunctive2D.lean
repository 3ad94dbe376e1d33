import Verif.Model.Cons.Comparison

/-!
# Disjunctive2D (gcs/constraints/disjunctive_2d/disjunctive_2d.cc)
-/

namespace Gcs.Disjunctive2D

/-- What the vectors `xs`, `ys`, `widths` and `heights` have at one index. -/
structure Rect where
  x : VarId
  y : VarId
  w : VarId
  h : VarId
deriving DecidableEq

/-- `mand(pos, lower_bound(size))`: the latest start and the earliest end (gcs/constraints/disjunctive_2d/disjunctive_2d.cc:290-292, with :234-235). -/
def mand (d : Doms) (pos size : VarId) : Chk (Int × Int) := do
  let s ← lowerBound d size
  let late ← upperBound d pos
  let early ← iAdd (← lowerBound d pos) s
  return (late, early)

/-- The mandatory parts on both axes (gcs/constraints/disjunctive_2d/disjunctive_2d.cc:296-297 and others). -/
def parts (d : Doms) (r : Rect) : Chk ((Int × Int) × (Int × Int)) := do
  let px ← mand d r.x r.w
  let py ← mand d r.y r.h
  return (px, py)

/-- There is no mandatory part (gcs/constraints/disjunctive_2d/disjunctive_2d.cc:298 and :304). -/
abbrev Void (p : (Int × Int) × (Int × Int)) : Prop := p.1.1 ≥ p.1.2 ∨ p.2.1 ≥ p.2.2

/-- `x_overlap` and `y_overlap` (gcs/constraints/disjunctive_2d/disjunctive_2d.cc:306-307). -/
abbrev Overlap (p q : Int × Int) : Prop := max p.1 q.1 < min p.2 q.2

/-- The body of the loop at gcs/constraints/disjunctive_2d/disjunctive_2d.cc:300-344. -/
def collides (d : Doms) (p : (Int × Int) × (Int × Int)) (s : Rect) : Chk Bool := do
  let q ← parts d s
  if Void q then return false else return decide (Overlap p.1 q.1 ∧ Overlap p.2 q.2)

/-- Whether the loops at gcs/constraints/disjunctive_2d/disjunctive_2d.cc:294-345 find a contradiction. -/
def collision (d : Doms) : List Rect → Chk Bool
  | [] => .ok false
  | r :: rs => do
    let p ← parts d r
    if Void p then collision d rs
    else if ← anyOf (collides d p) rs then return true
    else collision d rs

/-- What `push_axis` infers about the position `p` with size `w`, because of the position `q` with size `v` (gcs/constraints/disjunctive_2d/disjunctive_2d.cc:363-439). -/
def pushed (d : Doms) (p w q v : VarId) : Chk (Option Lit) := do
  let sz ← lowerBound d w
  if sz = 0 then return none
  else
    let cur ← bounds d p
    let blkLo ← upperBound d q
    let blkHi ← iAdd (← lowerBound d q) (← lowerBound d v)
    if blkLo ≥ blkHi then return none
    else
      let clear ← iSub blkLo sz
      if cur.1 > clear ∧ cur.1 < blkHi then
        let cap ← iAdd cur.2 1
        return some (.cond (Cond.ge p (min blkHi cap)))
      else if cur.2 > clear ∧ cur.2 < blkHi then
        let cap ← iSub cur.1 1
        let target ← iAdd (max clear cap) 1
        return some (.cond (Cond.lt p target))
      else return none

section
variable {σ μ : Type}

/-- `push_axis`. -/
def push (p w q v : VarId) : Prog σ μ Unit := do
  match ← Prog.ask (pushed · p w q v) with
  | none => return ()
  | some l => Prog.tell l

/-- The body of the loops at gcs/constraints/disjunctive_2d/disjunctive_2d.cc:441-465. -/
def separate (rs : Rect × Rect) : Prog σ μ Unit := do
  let o ← Prog.ask fun d => do
    let p ← parts d rs.1
    let q ← parts d rs.2
    return (decide (Overlap p.1 q.1), decide (Overlap p.2 q.2))
  Prog.onlyIf (o.1 = true) do
    push rs.1.y rs.1.h rs.2.y rs.2.h
    push rs.2.y rs.2.h rs.1.y rs.1.h
  Prog.onlyIf (o.2 = true) do
    push rs.1.x rs.1.w rs.2.x rs.2.w
    push rs.2.x rs.2.w rs.1.x rs.1.w

/-- The pairs of different indices, the smaller one first, in the order of `for (a = 0; ...) for (b = a + 1; ...)`. -/
def pairs : List α → List (α × α)
  | [] => []
  | r :: rs => rs.map (r, ·) ++ pairs rs

/-- `fixed` (gcs/constraints/disjunctive_2d/disjunctive_2d.cc:475-478). -/
def fixed (d : Doms) (r : Rect) : Chk Bool := do
  if ← hasSingleValue d r.x then
    if ← hasSingleValue d r.y then
      if ← hasSingleValue d r.w then hasSingleValue d r.h else return false
    else return false
  else return false

/-- `zero_area` (gcs/constraints/disjunctive_2d/disjunctive_2d.cc:474). -/
def zeroArea (d : Doms) (strict : Bool) (r : Rect) : Chk Bool := do
  if strict then
    if (← lowerBound d r.w) = 0 then return true else return decide ((← lowerBound d r.h) = 0)
  else return false

/-- `pos_i + size_i <= pos_j`, for positions that are fixed (gcs/constraints/disjunctive_2d/disjunctive_2d.cc:488). -/
def before (d : Doms) (p w q : VarId) : Chk Bool := do
  let e ← iAdd (← lowerBound d p) (← lowerBound d w)
  return decide (e ≤ (← lowerBound d q))

/-- `sep` (gcs/constraints/disjunctive_2d/disjunctive_2d.cc:488). -/
def clear (d : Doms) (r s : Rect) : Chk Bool := do
  if ← before d r.x r.w s.x then return true
  else if ← before d s.x s.w r.x then return true
  else if ← before d r.y r.h s.y then return true
  else before d s.y s.h r.y

/-- The body of the loop at gcs/constraints/disjunctive_2d/disjunctive_2d.cc:484-500: whether there is a contradiction. -/
def inside (d : Doms) (r s : Rect × Nat) : Chk Bool := do
  if s.2 = r.2 then return false
  else if ← fixed d s.1 then return ! (← clear d r.1 s.1)
  else return false

/-- Whether the loops at gcs/constraints/disjunctive_2d/disjunctive_2d.cc:479-501 find a contradiction. -/
def leaf (d : Doms) (strict : Bool) (rs : List Rect) : Chk Bool :=
  anyOf (fun r => do
    if ← fixed d r.1 then
      if ← zeroArea d strict r.1 then anyOf (inside d r) rs.zipIdx else return false
    else return false) rs.zipIdx

/-- The propagation function (gcs/constraints/disjunctive_2d/disjunctive_2d.cc:225-504). -/
def prop (strict : Bool) (rs : List Rect) : Prog σ μ PState := do
  if ← Prog.ask (collision · rs) then Prog.fail
  else
    Prog.forEach separate (pairs rs)
    if ← Prog.ask (leaf · strict rs) then Prog.fail else return .enable

/-- gcs/constraints/disjunctive_2d/disjunctive_2d.cc:203-213. -/
def triggers (rs : List Rect) : Triggers :=
  { onBounds := rs.flatMap fun r => [r.x, r.y] ++ (if r.w.isConst then [] else [r.w]) ++ (if r.h.isConst then [] else [r.h]) }

/-- The check of constants in the constructor, and of variables in `prepare` (gcs/constraints/disjunctive_2d/disjunctive_2d.cc:43-48 and :82-85). Here it is one check, in one place: everything that throws does so when
the constraint is posted, and a lower bound of a constant does not throw. -/
def negative (d : Doms) (r : Rect) : Chk Bool := do
  if (← lowerBound d r.w) < 0 then return true else return decide ((← lowerBound d r.h) < 0)

/-- Whether it is in `_active_rects` (gcs/constraints/disjunctive_2d/disjunctive_2d.cc:96-110). -/
def active (d : Doms) (strict : Bool) (r : Rect) : Chk Bool := do
  let uw ← upperBound d r.w
  let uh ← upperBound d r.h
  return ! (! strict && (decide (uw = 0) || decide (uh = 0)))

/-- Those with `p`. -/
def keep (p : α → Chk Bool) : List α → Chk (List α)
  | [] => .ok []
  | x :: xs => do
    let b ← p x
    let ys ← keep p xs
    return if b then x :: ys else ys

/-- What is posted for the rectangles. -/
def installRects (strict : Bool) (rs : List Rect) (d : Doms) : Chk (List (Item σ μ)) := do
  if ← anyOf (negative d) rs then throw .invalidProblem
  else
    let rs' ← keep (active d strict) rs
    if rs'.length < 2 then return [] else return [.prop (prop strict rs') (triggers rs')]

/-- The rectangles, from the four vectors. -/
def rects : List VarId → List VarId → List VarId → List VarId → List Rect
  | x :: xs, y :: ys, w :: ws, h :: hs => ⟨x, y, w, h⟩ :: rects xs ys ws hs
  | _, _, _, _ => []

/-- `Disjunctive2D(xs, ys, widths, heights).with_strict(strict)` (gcs/constraints/disjunctive_2d/disjunctive_2d.cc:37-131 and :203-505). -/
def install (strict : Bool) (xs ys ws hs : List VarId) (d : Doms) : Chk (List (Item σ μ)) :=
  if xs.length ≠ ys.length ∨ xs.length ≠ ws.length ∨ xs.length ≠ hs.length then .error .invalidProblem
  else installRects strict (rects xs ys ws hs) d

end
end Gcs.Disjunctive2D
