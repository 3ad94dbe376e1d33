import Verif.Model.Propagate

/-!
# What is posted before search
-/

namespace Gcs

/-- The variables that a propagator says it is about, seen through views, as often as it says so. -/
def Triggers.about (t : Triggers) : List Nat :=
  (t.onChange ++ t.onBounds ++ t.onInstantiated ++ t.scopeOnly).filterMap VarId.underlyingIndex ++ t.refined.filterMap fun r => r.1.underlyingIndex

/-- One thing done before search: a propagator is installed for a constraint, or the propagators of some constraints are disabled. -/
inductive Act (σ μ : Type)
  | install (c : Nat) (f : Prog σ μ PState) (t : Triggers)
  | disable (ids : List Nat)

section
variable {σ μ : Type}

def Act.apply (E : Engine σ μ) : Act σ μ → Engine σ μ
  | .install c f t => E.install c f t
  | .disable ids => E.disableConstraints ids

/-- What the propagators know after doing all that, in order. -/
def Engine.after (acts : List (Act σ μ)) : Engine σ μ := acts.foldl Act.apply Engine.empty

/-- For whom a propagator was installed, and what it is about. -/
def Act.posts : Act σ μ → Option (Nat × Triggers)
  | .install c _ t => some (c, t)
  | .disable _ => none

/-- What was installed, in order. -/
def installed (acts : List (Act σ μ)) : List (Nat × Triggers) := acts.filterMap Act.posts

/-- Constraint `c` has a propagator that is about variable `i`. -/
def Touches (acts : List (Act σ μ)) (c i : Nat) : Prop := ∃ x ∈ installed acts, x.1 = c ∧ i ∈ x.2.about

end
end Gcs
