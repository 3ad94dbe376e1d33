import Verif.Model.State
import Verif.Lemmas.IntervalSet
import Verif.Spec.Semantics

/-!
# Specification of inference on domains

Set-theoretic: what it means for an inference result to be right for a predicate `P` on integers.
-/

namespace Gcs
open IntervalSet

/-- The set has exactly one value. -/
def SingleValued (s : IntervalSet) : Prop := ∃ v, ∀ x, Mem x s ↔ x = v

/-- `s'` differs from `s`. -/
def Changed (s s' : IntervalSet) : Prop := ¬ ∀ x, Mem x s' ↔ Mem x s

/-- `x` is the least or the greatest value of `s`. -/
def IsBound (s : IntervalSet) (x : Int) : Prop := Mem x s ∧ ((∀ y, Mem y s → x ≤ y) ∨ (∀ y, Mem y s → y ≤ x))

/-- What each kind of change promises about the old set `s` and the new set `s'`. -/
def KindSpec (s s' : IntervalSet) : Inference → Prop
  | .noChange => ¬ Changed s s'
  | .instantiated => Changed s s' ∧ SingleValued s'
  | .boundsChanged => Changed s s' ∧ ¬ SingleValued s' ∧ ∃ x, IsBound s x ∧ ¬ Mem x s'
  | .interiorValuesChanged => Changed s s' ∧ ¬ SingleValued s' ∧ ∀ x, IsBound s x → Mem x s'
  | .contradiction => True

/-- Right result of asserting `P` on a variable with domain `s`. -/
structure ChangeSpec (P : Int → Prop) (s : IntervalSet) (r : Inference × IntervalSet) : Prop where
  wf : WF r.2
  sub : ∀ x, Mem x r.2 → Mem x s
  contra : r.1 = .contradiction ↔ ∀ x, Mem x s → ¬ P x
  mem : r.1 ≠ .contradiction → ∀ x, Mem x r.2 ↔ Mem x s ∧ P x
  kind : KindSpec s r.2 r.1

/-- A usable domain: canonical, representable, non-empty. -/
structure DomOK (s : IntervalSet) : Prop where
  wf : WF s
  inRange : InRange s
  nonempty : ∃ x, Mem x s

/-- Every domain is usable. -/
def DomsOK (d : Doms) : Prop := ∀ s ∈ d, DomOK s

end Gcs
