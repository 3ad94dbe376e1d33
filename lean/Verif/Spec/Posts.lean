import Verif.Model.Constraint
import Verif.Spec.Ver

/-!
# What is asked of a constraint

`Posts` is about what a constraint installs, given the domains at the time of posting: nothing that satisfies the constraint may be lost, and together the initialisers and propagators enforce it.
-/

namespace Gcs

section
variable {σ μ : Type}

/-- An initialiser or propagator installed for the constraint `C` on the variables `xs` never loses a solution, and enforces `e`: an initialiser at once, a propagator in the sense of `Implements`. -/
def Item.OK (n m : Nat) (R : Err → Prop) (root : Doms) (C : Asg → Prop) (xs : List VarId) (e : Asg → Prop) : Item σ μ → Prop
  | .init _ f => ∀ d, DomsOK d → d.length = n →
    f.Ver { n, m, R, C := fun a => Within root a ∧ C a, watch := False } (fun _ => False) (fun _ d' => ∀ a, Within d' a → Within root a → e a) d
  | .prop f t => ∃ ys, (∀ y ∈ ys, y ∈ xs) ∧ Implements n m R root f t C e ys

/-- All that is installed is right, and what is enforced together is the constraint. -/
def Posts (n m : Nat) (R : Err → Prop) (root : Doms) (C : Asg → Prop) (xs : List VarId) (items : List (Item σ μ)) : Prop :=
  ∃ es : List (Item σ μ × (Asg → Prop)), es.map (·.1) = items ∧ (∀ p ∈ es, p.1.OK n m R root C xs p.2) ∧ ∀ a, Within root a → (C a ↔ ∀ p ∈ es, p.2 a)

/-- A constraint in a problem: what it installs, what it means, and the variables it mentions. -/
structure Posted (σ μ : Type) where
  install : Doms → Chk (List (Item σ μ))
  holds : Asg → Prop
  about : List VarId

/-- The constraint installs the right things, if it installs anything. -/
def Posted.OK (n m : Nat) (R : Err → Prop) (root : Doms) (c : Posted σ μ) : Prop := ∀ items, c.install root = .ok items → Posts n m R root c.holds c.about items

end
end Gcs
