import Verif.Model.Cons.MakespanEnergy
import Verif.Model.Cons.Reified

/-!
# Rows that link starts to a makespan

`find_makespan_links` (gcs/presolvers/innards/makespan_links.cc:14-66). An `Integer` operation that overflows throws an exception; here there is no overflow. A `map` is a list of keys with their values, of which there is one each.
-/

namespace Gcs.Makespan

/-- A `ReifiedLinearInequality` as posted, which says `sum <= value`, with the label of its row in the model of a proof, if there is one (gcs/constraints/linear/linear_inequality.hh, and `each_constraint_of_type_with_proof_data` in gcs/problem.hh). -/
structure Row where
  reif : Reif
  terms : List (Int × VarId)
  value : Int
  label : Option Nat

/-- `MakespanLink` (gcs/constraints/innards/makespan_energy.hh:109-113). -/
structure Link where
  bound : Int
  row : Option Nat
  deriving DecidableEq

/-- One step of the loop over terms, for `start` and `limit` (gcs/presolvers/innards/makespan_links.cc:31-37). -/
def sides (s : Option VarId × Option VarId) (t : Int × VarId) : Option VarId × Option VarId :=
  if t.1 = 1 ∧ s.1 = none then (some t.2, s.2)
  else if t.1 = -1 ∧ s.2 = none then (s.1, some t.2)
  else s

/-- What a row says, if it is one to use (gcs/presolvers/innards/makespan_links.cc:22-56). -/
def linkOf (logger : Bool) (makespan : VarId) (c : Row) : Option (Nat × Link) :=
  if c.reif ≠ .mustHold then none
  else if c.terms.length ≠ 2 then none
  else
    match c.terms.foldl sides (none, none) with
    | (some start, some limit) =>
      if limit ≠ makespan ∨ start = makespan then none
      else
        match start with
        | .simple i =>
          if -c.value ≤ 0 then none
          else if logger ∧ c.label = none then none
          else some (i, ⟨-c.value, c.label⟩)
        | _ => none
    | _ => none

/-- What becomes of the map (gcs/presolvers/innards/makespan_links.cc:58-62). -/
def putLink (i : Nat) (l : Link) : List (Nat × Link) → List (Nat × Link)
  | [] => [(i, l)]
  | (j, m) :: rest => if j = i then (if l.bound > m.bound then (j, l) else (j, m)) :: rest else (j, m) :: putLink i l rest

/-- The body of the loop over rows (gcs/presolvers/innards/makespan_links.cc:19-63). -/
def addLink (logger : Bool) (makespan : VarId) (links : List (Nat × Link)) (c : Row) : List (Nat × Link) :=
  match linkOf logger makespan c with
  | some (i, l) => putLink i l links
  | none => links

/-- `find_makespan_links` (gcs/presolvers/innards/makespan_links.cc:14-66). -/
def findLinks (logger : Bool) (makespan : VarId) (rows : List Row) : List (Nat × Link) := rows.foldl (addLink logger makespan) []

/-- The task with its link, for the start variable with index `i` (gcs/presolvers/inferred_cumulative/inferred_cumulative.cc:795-796 and gcs/constraints/cumulative/derived_cumulative.cc:287). -/
def Task.linked (links : List (Nat × Link)) (i : Nat) (k : Task) : Task := { k with link := (links.find? fun x => x.1 = i).map (·.2.bound) }

end Gcs.Makespan
