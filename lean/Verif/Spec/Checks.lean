import Verif.Spec.Search

/-!
# What makes a propagator good enough for searching

A propagator may be weak, but once everything it depends on has a single value it must tell satisfied from violated, and it must be woken for that.
-/

namespace Gcs
open IntervalSet

/-- The variable has exactly one value left. -/
def Fixed (d : Doms) (v : Nat) : Prop := ∃ s, d[v]? = some s ∧ SingleValued s

/-- No variable is behind two of the triggers. Only then does the engine listen to what a propagator says about its own fixed point (gcs/innards/propagators.cc:495-505). -/
def Triggers.Distinct (t : Triggers) : Prop := ((t.onChange ++ t.onBounds ++ t.onInstantiated ++ t.scopeOnly).filterMap VarId.underlyingIndex).Nodup

section
variable {σ μ : Type}

/-- The propagator checks `C`, which depends on the variables `vs`:
* it asks to be woken when one of these is instantiated;
* if it runs with these fixed and does not report a contradiction, `C` holds;
* if it claims to have reached its own fixed point, no variable is behind two of its triggers and these are fixed now, `C` holds;
* if it asks not to be run again until backtracking, `C` holds whatever happens. -/
structure Checks (n : Nat) (f : Prog σ μ PState) (t : Triggers) (C : Asg → Prop) (vs : List Nat) : Prop where
  wakes : ∀ v ∈ vs, ∃ x, (x ∈ t.onChange ∨ x ∈ t.onBounds ∨ x ∈ t.onInstantiated) ∧ x.underlyingIndex = some v
  checks : ∀ d, DomsOK d → d.length = n → f.Wp n (fun ps d' =>
    ((∀ v ∈ vs, Fixed d v) → ∀ a, Within d' a → C a) ∧
    (t.Distinct → ps = .enableButIdempotent → (∀ v ∈ vs, Fixed d' v) → ∀ a, Within d' a → C a) ∧
    (ps = .disableUntilBacktrack → ∀ a, Within d' a → C a)) d

end
end Gcs
