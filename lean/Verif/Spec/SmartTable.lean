import Verif.Model.Literal
import Verif.Spec.Semantics

/-!
# Smart tables

A smart table says that one of its rows holds. A row is a list of entries, all of which have to hold. The entries are comparisons of two variables, comparisons of a variable with a value, and that a variable takes one of a list
of values, or none of them.
-/

namespace Gcs

/-- A comparison. -/
inductive Rel where
  | lt | le | eq | ne | gt | ge
deriving DecidableEq

def Rel.holds : Rel → Int → Int → Prop
  | .lt, x, y => x < y
  | .le, x, y => x ≤ y
  | .eq, x, y => x = y
  | .ne, x, y => x ≠ y
  | .gt, x, y => x > y
  | .ge, x, y => x ≥ y

instance Rel.decidableHolds (r : Rel) (x y : Int) : Decidable (r.holds x y) := by cases r <;> simp only [Rel.holds] <;> infer_instance

inductive SmartEntry where
  | binary (x y : VarId) (r : Rel)
  | value (x : VarId) (v : Int) (r : Rel)
  | set (x : VarId) (vs : List Int) (member : Bool)
deriving DecidableEq

/-- The entry holds, if variables have the values `s`. -/
def SmartEntry.sat (s : VarId → Int) : SmartEntry → Prop
  | .binary x y r => r.holds (s x) (s y)
  | .value x v r => r.holds (s x) v
  | .set x vs true => s x ∈ vs
  | .set x vs false => s x ∉ vs

/-- The variables in an entry. -/
def SmartEntry.vars : SmartEntry → List VarId
  | .binary x y _ => [x, y]
  | .value x _ _ => [x]
  | .set x _ _ => [x]

/-- One of the rows holds. -/
def SmartHolds (rows : List (List SmartEntry)) (a : Asg) : Prop := ∃ row ∈ rows, ∀ e ∈ row, e.sat (·.eval a)

/-- There is a way from one variable to another through comparisons of two variables. -/
inductive Linked (es : List SmartEntry) : VarId → VarId → Prop
  | refl (v : VarId) : Linked es v v
  | step {u v w : VarId} {r : Rel} : Linked es u v → SmartEntry.binary v w r ∈ es ∨ SmartEntry.binary w v r ∈ es → Linked es u w

/-- No comparison of two variables is between variables that are linked by the others. -/
def Acyclic (es : List SmartEntry) : Prop := ∀ (i : Nat) (x y : VarId) (r : Rel), es[i]? = some (.binary x y r) → ¬ Linked (es.eraseIdx i) x y

end Gcs
