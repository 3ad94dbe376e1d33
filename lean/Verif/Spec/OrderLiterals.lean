import Verif.Model.OrderLiterals

/-!
# What is wanted of order literals in proofs
-/

namespace Gcs.Ranges

/-- What an atom says of a value. -/
def Atom.Holds (x : Int) : Atom → Prop
  | .ge v => v ≤ x
  | .ivl i => i.1 ≤ x ∧ x ≤ i.2

/-- Some literal of the clause is true of a value. -/
def HoldsAt (x : Int) (c : List OLit) : Prop := ∃ l ∈ c, if l.1 then l.2.Holds x else ¬ l.2.Holds x

/-- Unit propagation has been done, without reaching a conflict. -/
def Propagated (lines : List (List OLit)) (a : Atom → Option Bool) : Prop :=
  ∀ c ∈ lines, ∀ p l q, c = p ++ l :: q → (∀ m ∈ p ++ q, a m.2 = some (!m.1)) → a l.2 = some l.1

/-- The clause follows by reverse unit propagation: with all its literals false, unit propagation cannot end without a conflict. -/
def Rup (lines : List (List OLit)) (c : List OLit) : Prop := ∀ a, Propagated lines a → ¬ ∀ l ∈ c, a l.2 = some (!l.1)

/-- A clause over interval literals as one over all literals. -/
def Clause.wide (c : Clause) : List OLit := c.map fun l => (l.pos, .ivl l.ivl)

end Gcs.Ranges
