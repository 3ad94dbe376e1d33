import Verif.Spec.Semantics

namespace Gcs

/-- Wherever `t` is in the list, `s` is somewhere before it. -/
def Precedes (s t : Int) (vars : List VarId) (a : Asg) : Prop :=
  ∀ (i : Nat) v, vars[i]? = some v → v.eval a = t → ∃ j w, j < i ∧ vars[j]? = some w ∧ w.eval a = s

/-- Consecutive values of `chain` precede each other. -/
def Chained (chain : List Int) (vars : List VarId) (a : Asg) : Prop :=
  ∀ (j : Nat) s t, chain[j]? = some s → chain[j + 1]? = some t → Precedes s t vars a

end Gcs
