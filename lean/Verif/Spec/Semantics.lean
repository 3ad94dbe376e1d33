import Verif.Model.Literal

/-!
# Meaning of variables, conditions and literals

Specification, written without the model's helpers: an assignment gives every simple variable an integer; views, conditions and literals get their
mathematical meaning (over unbounded integers).
-/

namespace Gcs

/-- An assignment of integers to simple variables. -/
abbrev Asg := Nat → Int

/-- Value of a (viewed) variable. -/
def VarId.eval (a : Asg) : VarId → Int
  | .simple i => a i
  | .view i neg add => (if neg then - a i else a i) + add
  | .const c => c

/-- Does the integer `x` satisfy the operator with its argument(s)? -/
abbrev CondOp.holds (op : CondOp) (value upper x : Int) : Prop :=
  match op with
  | .equal => x = value
  | .notEqual => x ≠ value
  | .greaterEqual => value ≤ x
  | .less => x < value
  | .inRange => value ≤ x ∧ x ≤ upper
  | .notInRange => ¬ (value ≤ x ∧ x ≤ upper)

instance (op : CondOp) (v u x : Int) : Decidable (op.holds v u x) := by cases op <;> exact inferInstance

/-- A condition holds under an assignment. -/
abbrev Cond.holds (a : Asg) (c : Cond) : Prop := c.op.holds c.value c.upper (c.var.eval a)

/-- A literal holds under an assignment. -/
def Lit.holds (a : Asg) : Lit → Prop
  | .cond c => c.holds a
  | .tt => True
  | .ff => False

end Gcs
