import Verif.Spec.Semantics

/-!
# What tables are for
-/

namespace Gcs

/-- An entry of a tuple, `none` being a wildcard, allows a value. -/
def Allows (e : Option Int) (y : Int) : Prop := e = none ∨ e = some y

/-- The variables have values that the tuple allows. -/
def Matches (t : List (Option Int)) (vars : List VarId) (a : Asg) : Prop := ∀ (p : Nat) v e, vars[p]? = some v → t[p]? = some e → Allows e (v.eval a)

/-- One of the tuples matches. -/
def InTable (tuples : List (List (Option Int))) (vars : List VarId) (a : Asg) : Prop := ∃ t ∈ tuples, Matches t vars a

/-- The tuple whose number is the value of `sel` matches. -/
def Selected (tuples : List (List (Option Int))) (vars : List VarId) (sel : VarId) (a : Asg) : Prop := ∃ (k : Nat) (t : List (Option Int)), sel.eval a = k ∧ tuples[k]? = some t ∧ Matches t vars a

end Gcs
