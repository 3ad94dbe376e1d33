import Verif.Model.RangeLiterals

/-!
# What is wanted of range literals in proofs
-/

namespace Gcs.Ranges

/-- The literal has been defined. -/
def St.Has (st : St) (I : Ivl) : Prop := (I.1 = I.2 ∧ I.1 ∈ st.eqs) ∨ I ∈ st.invars

/-- What is known of some of the literals makes this one false. -/
def Lit.Out (a : Ivl → Option Bool) (l : Lit) : Prop := a l.ivl = some (!l.pos)
/-- Or true. -/
def Lit.In (a : Ivl → Option Bool) (l : Lit) : Prop := a l.ivl = some l.pos

/-- Unit propagation has been done, without reaching a conflict: in every clause, a literal that is the only one not false is true. -/
def Settled (cs : List Clause) (a : Ivl → Option Bool) : Prop :=
  ∀ c ∈ cs, ∀ p l q, c = p ++ l :: q → (∀ m ∈ p ++ q, m.Out a) → l.In a

/-- What the literal says of a value. -/
def Lit.Holds (x : Int) (l : Lit) : Prop := if l.pos then l.ivl.1 ≤ x ∧ x ≤ l.ivl.2 else ¬ (l.ivl.1 ≤ x ∧ x ≤ l.ivl.2)

end Gcs.Ranges
