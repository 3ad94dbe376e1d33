import Verif.Model.PbSession
import Verif.Spec.Semantics
import Verif.Spec.Reified

/-!
# Meaning of rows, literals and sums in proofs

Specification, without the model's helpers: a row is a pseudo-Boolean inequality over 0/1 variables; a variable of the solver has an integer; the 0/1 variables represent the integers if every literal means its
condition.
-/

namespace Gcs.Pb

/-- An assignment of 0/1 variables. -/
abbrev Bools := XVar → Bool

/-- Integers for the variables, including those that are only in proofs. -/
abbrev Vals := PVar → Int

/-- The literal is true. -/
def XLit.Holds (α : Bools) (x : XLit) : Prop := α x.var = !x.neg

instance (α : Bools) (x : XLit) : Decidable (x.Holds α) := inferInstanceAs (Decidable (_ = _))

/-- The weighted sum of literals. -/
def sum (α : Bools) : List (Int × XLit) → Int
  | [] => 0
  | (c, x) :: ts => (if x.Holds α then c else 0) + sum α ts

/-- The row is satisfied. -/
def Row.Holds (α : Bools) (r : Row) : Prop := r.degree ≤ sum α r.terms

instance (α : Bools) (r : Row) : Decidable (r.Holds α) := inferInstanceAs (Decidable (_ ≤ _))

/-- The values of the variables of the problem. -/
def Vals.asg (w : Vals) : Asg := fun i => w (.real i)

/-- A literal of a proof is true of the integers. -/
def PLit.Holds (w : Vals) : PLit → Prop
  | .lit l => l.holds w.asg
  | .aux i op v u => op.holds v u (w (.aux i))

instance (w : Vals) : (l : PLit) → Decidable (l.Holds w)
  | .lit l => inferInstanceAs (Decidable (l.holds w.asg))
  | .aux i op v u => inferInstanceAs (Decidable (op.holds v u (w (.aux i))))

/-- What may stand in a reification is true: literals are about integers, flags and bits about 0/1 variables. -/
def PItem.Holds (t : Tracker) (α : Bools) (w : Vals) : PItem → Prop
  | .lit l => l.Holds w
  | .flag n positive => α (.flag n) = positive
  | .bit p k positive => ((t.bits p).bind (·[k.toNat]?)).map (fun b => decide (b.2.Holds α)) = some positive

instance (t : Tracker) (α : Bools) (w : Vals) (i : PItem) : Decidable (i.Holds t α w) := by
  cases i with
  | lit l => exact inferInstanceAs (Decidable (l.Holds w))
  | flag n b => exact inferInstanceAs (Decidable (_ = _))
  | bit p k b => exact inferInstanceAs (Decidable (_ = _))

/-- The value of a term: the integer of a variable, 0 or 1 for what may be true. -/
def Term.value (t : Tracker) (α : Bools) (w : Vals) : Term → Int
  | .item i => if i.Holds t α w then 1 else 0
  | .var v => v.eval w.asg
  | .aux i => w (.aux i)

def total (t : Tracker) (α : Bools) (w : Vals) : List (Int × Term) → Int
  | [] => 0
  | (c, v) :: ts => c * v.value t α w + total t α w ts

/-- The inequality holds. -/
def Ineq.Holds (t : Tracker) (α : Bools) (w : Vals) (i : Ineq) : Prop := total t α w i.lhs ≤ i.rhs

instance (t : Tracker) (α : Bools) (w : Vals) (i : Ineq) : Decidable (i.Holds t α w) := inferInstanceAs (Decidable (_ ≤ _))

/-- The inequality holds if everything it is reified on does. -/
def Asked.Holds (t : Tracker) (α : Bools) (w : Vals) (a : Asked) : Prop := (∀ r ∈ a.reifs.getD [], r.Holds t α w) → a.ineq.Holds t α w

instance (t : Tracker) (α : Bools) (w : Vals) (a : Asked) : Decidable (a.Holds t α w) := inferInstanceAs (Decidable (_ → _))

/-- The 0/1 variables represent the integers. -/
structure Means (t : Tracker) (α : Bools) (w : Vals) : Prop where
  bits : ∀ p b, t.bits p = some b → sum α b = w p
  ge : ∀ p v x, t.ge p v = some x → (x.Holds α ↔ v ≤ w p)
  eq : ∀ p v x, t.eq p v = some x → (x.Holds α ↔ w p = v)
  within : ∀ p lo hi x, t.within p lo hi = some x → (x.Holds α ↔ lo ≤ w p ∧ w p ≤ hi)
  view : ∀ i neg add k, t.view i neg add = some k → w (.aux k) = (VarId.view i neg add).eval w.asg

/-- The integers obey the bounds for which there are rows. -/
def InBounds (s : Session) (w : Vals) : Prop := ∀ p l u, s.bounds p = some (l, u) → s.bounded p = true → l ≤ w p ∧ w p ≤ u

/-- All that the rows of a session are to say. -/
structure Good (s : Session) (α : Bools) (w : Vals) : Prop where
  means : Means s.t α w
  bounds : InBounds s w
  asked : ∀ a ∈ s.asked, a.Holds s.t α w

/-- All rows are satisfied. -/
def Sat (s : Session) (α : Bools) : Prop := ∀ r ∈ s.rows, r.Holds α

/-- 0/1 variables for given integers and flags: two's complement for bits, truth for conditions. -/
def encode (w : Vals) (f : Nat → Bool) : Bools
  | .sign p => decide (w p < 0)
  | .bit p k => decide (w p / 2 ^ k.toNat % 2 = 1)
  | .ge p v => decide (v ≤ w p)
  | .eq p v => decide (w p = v)
  | .within p lo hi => decide (lo ≤ w p ∧ w p ≤ hi)
  | .flag n => f n

/-- Has the variable been set up? -/
def Session.Known (s : Session) (p : PVar) : Prop := (s.bounds p).isSome = true

/-- The variables a term is about. -/
def Term.vars : Term → List PVar
  | .item (.lit (.lit (.cond c))) => match c.var with | .simple i => [.real i] | .view i _ _ => [.real i] | .const _ => []
  | .item (.lit (.lit _)) => []
  | .item (.lit (.aux i _ _ _)) => [.aux i]
  | .item (.flag _ _) => []
  | .item (.bit p _ _) => [p]
  | .var v => match v with | .simple i => [.real i] | .view i _ _ => [.real i] | .const _ => []
  | .aux i => [.aux i]

/-- How calls are made: a variable of the problem is set up once, bounds are machine integers, constraints are about variables that were set up, variables without rows for their bounds do not go with the compact
encoding, and an interval of one value is an equality. -/
def Op.OK (s : Session) : Op → Prop
  | .setUp i l u _ => ¬ s.Known (.real i) ∧ InI64 l ∧ InI64 u
  | .createAux l u _ => InI64 l ∧ InI64 u
  | .createFree l u => s.compact = false ∧ InI64 l ∧ InI64 u
  | .definePlain _ lo hi => lo < hi
  | .constrain i reifs => (∀ x ∈ i.lhs, ∀ p ∈ x.2.vars, s.Known p) ∧ ∀ r ∈ reifs.getD [], ∀ p ∈ (Term.item r).vars, s.Known p
  | _ => True

/-- A history of calls, each returning normally. -/
inductive History (compact : Bool) : Session → Prop where
  | start : History compact (Session.start compact)
  | step {s s' : Session} (fuel : Nat) (o : Op) : History compact s → o.OK s → o.run fuel s = .ok s' → History compact s'

end Gcs.Pb
