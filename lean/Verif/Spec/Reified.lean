import Verif.Model.Cons.Reified
import Verif.Spec.Posts
import Verif.Lemmas.Ver
import Verif.Props.TestLiteral

/-!
# What reified constraints mean
-/

namespace Gcs

instance (a : Asg) (c : Cond) : Decidable (c.holds a) := inferInstanceAs (Decidable (c.op.holds c.value c.upper (c.var.eval a)))

instance (a : Asg) : (l : Lit) → Decidable (l.holds a)
  | .cond c => inferInstanceAs (Decidable (c.holds a))
  | .tt => .isTrue trivial
  | .ff => .isFalse id

/-- The meaning of `constraint P, reified by r`. -/
def Reif.holds (P : Asg → Prop) (a : Asg) : Reif → Prop
  | .mustHold => P a
  | .mustNotHold => ¬ P a
  | .ifCond c => c.holds a → P a
  | .notIf c => c.holds a → ¬ P a
  | .iffCond c => c.holds a ↔ P a

/-- The variables of the condition. -/
def Reif.vars : Reif → List VarId
  | .mustHold => []
  | .mustNotHold => []
  | .ifCond c => [c.var]
  | .notIf c => [c.var]
  | .iffCond c => [c.var]

/-- The condition is a proper one. -/
def Reif.Valid (n : Nat) : Reif → Prop
  | .mustHold => True
  | .mustNotHold => True
  | .ifCond c => (Lit.cond c).Valid n ∧ (Lit.cond c).RangeOK
  | .notIf c => (Lit.cond c).Valid n ∧ (Lit.cond c).RangeOK
  | .iffCond c => (Lit.cond c).Valid n ∧ (Lit.cond c).RangeOK

section
variable {σ μ : Type}

/-- The constraint installs the right things, or throws one of `E`. -/
def Posted.Right (n m : Nat) (R : Err → Prop) (root : Doms) (E : Err → Prop) (c : Posted σ μ) : Prop :=
  c.OK n m R root ∧ ∀ e, c.install root = .error e → E e

/-- A pass that enforces `P`, on the variables `xs`. -/
def Enforces (n m : Nat) (R : Err → Prop) (root : Doms) (P : Asg → Prop) (xs : List VarId) (f : Prog σ μ PState) : Prop :=
  ∀ d, DomsOK d → d.length = n →
    f.Ver { n, m, R, C := fun a => Within root a ∧ P a } (fun _ => True) (Enforced (fun a => Within root a → P a) (xs.filterMap VarId.underlyingIndex) d) d

/-- A pass that finds out whether `P` holds, or does not, whatever happens; it makes no inferences, and may only be undecided as long as something in `xs` is not fixed. -/
def Judges (n m : Nat) (R : Err → Prop) (root : Doms) (P : Asg → Prop) (xs : List VarId) (f : Prog σ μ Verdict) : Prop :=
  ∀ d, DomsOK d → d.length = n → f.Ver { n, m, R, C := fun _ => True } (fun _ => False) (fun v d' => d' = d ∧
    (v = .mustHold → ∀ a, Within d a → Within root a → P a) ∧ (v = .mustNotHold → ∀ a, Within d a → Within root a → ¬ P a) ∧
    (v = .stillUndecided → (∀ x ∈ xs, Known d x) → ∀ a, Within d a → ¬ Within root a)) d

end
end Gcs
