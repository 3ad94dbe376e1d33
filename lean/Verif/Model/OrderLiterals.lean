import Verif.Model.RangeLiterals

/-!
# Order literals in proofs

How `NamesAndIDsTracker` defines and chains the literals that say that a variable is at least a value (gcs/innards/proofs/names_and_ids_tracker.cc), and how equality and range literals are defined with them, for one variable whose
bounds follow from its constraints and without the compact encoding. Not here: the bits, views, and assertion levels above `Links`.
-/

namespace Gcs.Ranges

/-- What a literal is about: being at least a value, or in an interval. -/
inductive Atom where
  | ge (v : Int)
  | ivl (i : Ivl)
  deriving DecidableEq, Repr

/-- An atom, or with `false` its negation. -/
abbrev OLit := Bool × Atom

/-- `gevar_values`, the intervals with literals, and the lines that have been written, in order. -/
structure OSt where
  ges : List Int := []
  ivls : List Ivl := []
  lines : List (List OLit) := []
  deriving DecidableEq, Repr

/-- Being implied by the next higher (gcs/innards/proofs/names_and_ids_tracker.cc:1040-1069). -/
def fromHigher (v : Int) (ges : List Int) : List (List OLit) :=
  match (ges.dropWhile (· ≤ v)).head? with
  | some h => [[(true, .ge v), (false, .ge h)]]
  | none => []

/-- Implying the next lower (gcs/innards/proofs/names_and_ids_tracker.cc:1072-1102). -/
def toLower (v : Int) (ges : List Int) : List (List OLit) :=
  match (ges.takeWhile (· < v)).getLast? with
  | some l => [[(true, .ge l), (false, .ge v)]]
  | none => []

/-- `need_gevar` (gcs/innards/proofs/names_and_ids_tracker.cc:919-1102), without the definition by bits: the literal is fixed if the bounds say what it is, and chained to its neighbours. -/
def needGe (lb ub v : Int) (st : OSt) : OSt :=
  if v ∈ st.ges then st
  else
    let pins := (if lb ≥ v then [[(true, Atom.ge v)]] else []) ++ (if ub < v then [[(false, Atom.ge v)]] else [])
    let ges := insertCut v st.ges
    { st with ges := ges, lines := st.lines ++ (pins ++ fromHigher v ges ++ toLower v ges) }

/-- The definition of an interval literal, in `define_plain_invar` (gcs/innards/proofs/names_and_ids_tracker.cc:1254-1275), or of an equality, in `need_direct_encoding_for` (gcs/innards/proofs/names_and_ids_tracker.cc:805-822). The
first line written, with coefficients 2, 1 and 1, is two clauses here: unit propagation does the same with both. -/
def defineIvl (lb ub : Int) (i : Ivl) (st : OSt) : OSt :=
  let st := needGe lb ub (i.2 + 1) (needGe lb ub i.1 st)
  { st with
    ivls := st.ivls ++ [i]
    lines := st.lines ++ [[(false, .ivl i), (true, .ge i.1)], [(false, .ivl i), (false, .ge (i.2 + 1))], [(true, .ivl i), (false, .ge i.1), (true, .ge (i.2 + 1))]] }

/-- One literal becoming needed. -/
def needAtom (lb ub : Int) : Atom → OSt → OSt
  | .ge v, st => needGe lb ub v st
  | .ivl i, st => if i ∈ st.ivls then st else defineIvl lb ub i st

/-- Several, one after the other. -/
def needAtoms (lb ub : Int) (as : List Atom) : OSt := as.foldl (fun st a => needAtom lb ub a st) {}

end Gcs.Ranges
