import Verif.Model.Cons.Linear

/-!
# Linear inequalities: waking by slack (`gcs/constraints/linear/propagate.cc:381-444`)

Off unless an environment variable is set. After a sweep has inferred what it can, only some of the variables are watched, chosen such that changes to the others cannot make a difference. Modelled here: the
choice. Not modelled: that the watches are registered and removed (but see `Model/Propagate.lean`), and when this is used (gcs/constraints/linear/linear_inequality.cc:126-145).
-/

namespace Gcs.Linear
open IntervalSet

/-- How much a term may still add (gcs/constraints/linear/propagate.cc:397). -/
def potential (t : Bounded) : Chk Int := do
  iMul (← iAbs t.term.coeff) (← iSub t.hi t.lo)

def potentials : List Bounded → Chk (List (Bounded × Int))
  | [] => .ok []
  | t :: ts => do return (t, ← potential t) :: (← potentials ts)

/-- gcs/constraints/linear/propagate.cc:407-409 -/
def total (s : Int) : List (Bounded × Int) → Chk Int
  | [] => .ok s
  | t :: ts => do total (← iAdd s t.2) ts

/-- gcs/constraints/linear/propagate.cc:411-417 -/
def coverLoop (margin : Int) : Int → List (Bounded × Int) → Chk (List Bounded)
  | _, [] => .ok []
  | unwatched, (t, p) :: r =>
    if unwatched ≤ margin ∨ p = 0 then .ok []
    else do return t :: (← coverLoop margin (← iSub unwatched p) r)

/-- `linear_slack_cover` (gcs/constraints/linear/propagate.cc:386-419), given the bounds of the terms: the terms to be watched. `sort` is the order in which `std::sort` puts the terms, of which not everything is
specified. -/
def slackCover (sort : List (Bounded × Int) → List (Bounded × Int)) (value : Int) (bs : List Bounded) : Chk (List Bounded) := do
  let ps ← potentials bs
  let sum ← lowerSum false 0 bs
  let slack ← iSub value sum
  let order := sort ps
  let margin ← iSub slack ((order.map (·.2)).headD 0)
  coverLoop margin (← total 0 ps) order

/-- The literal that is watched (gcs/constraints/linear/propagate.cc:438-441). -/
def slackLiteral (t : Bounded) : Chk Cond := do
  if t.term.coeff ≥ 0 then return Cond.ge (.simple t.term.var) (← iAdd t.lo 1)
  else return Cond.lt (.simple t.term.var) (← iAdd (← iSub t.hi 1) 1)

end Gcs.Linear
