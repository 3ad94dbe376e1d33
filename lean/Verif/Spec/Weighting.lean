import Verif.Spec.Books
import Verif.Props.Heuristics
import Verif.Model.Weighting

/-!
# Weighted degrees, as described in gcs/variable_weighting.hh
-/

namespace Gcs

section
variable {σ μ : Type}

/-- The variable has at least two possible values. -/
def Unfixed (d : Doms) (i : Nat) : Prop := ∃ y z, y ≠ z ∧ Poss d (.simple i) y ∧ Poss d (.simple i) z

/-- The constraint still is about two variables that are not fixed. -/
def Lively (acts : List (Act σ μ)) (d : Doms) (c : Nat) : Prop := ∃ x y, x ≠ y ∧ Touches acts c x ∧ Touches acts c y ∧ Unfixed d x ∧ Unfixed d y

/-- The sum of what the lively constraints on a variable weigh. -/
def WeightedDegree (acts : List (Act σ μ)) (d : Doms) (i : Nat) (weight : Nat → Rat) (r : Rat) : Prop :=
  ∃ l : List Nat, l.Nodup ∧ (∀ c, c ∈ l ↔ Touches acts c i ∧ Lively acts d c) ∧ r = (l.map weight).sum

/-- Every variable that something was posted about exists. -/
def Allocated (acts : List (Act σ μ)) (n : Nat) : Prop := ∀ c i, Touches acts c i → i < n

/-- How many of these propagators belong to the constraint. -/
def tally (acts : List (Act σ μ)) (ps : List Nat) (c : Nat) : Nat := ps.countP fun p => decide (((installed acts)[p]?).map (·.1) = some c)

/-- Each list of different variables among which are these, and only these, has `k` elements. -/
def NumberOf (P : Nat → Prop) (k : Nat) : Prop := ∃ l : List Nat, l.Nodup ∧ (∀ x, x ∈ l ↔ P x) ∧ l.length = k

/-- What a conflict of a propagator that is about `about` adds to the local weight of `x` (gcs/variable_weighting.hh:253-259). `d0`: the domains when search began, `d`: now. -/
def Increment (d0 d : Doms) (about : Nat → Prop) (x : Nat) : Weighting.Variant → Rat → Prop
  | .initialArity, r => ∃ k : Nat, NumberOf about k ∧ r = 1 / (k : Rat)
  | .currentArity, r => ∃ k : Nat, NumberOf (fun y => about y ∧ Unfixed d y) k ∧ r = 1 / (k : Rat)
  | .initialDomain, r => ∃ k : Nat, Count d0 (.simple x) k ∧ r = 1 / (k : Rat)
  | .currentDomain, r => ∃ k : Nat, Count d (.simple x) k ∧ r = 1 / (1 + (k : Rat))
  | .currentArityCurrentDomain, r => ∃ j k : Nat, NumberOf (fun y => about y ∧ Unfixed d y) j ∧ Count d (.simple x) k ∧ r = 1 / ((j : Rat) * (1 + (k : Rat)))

/-- From the local weights `w` one may come to `w'`, by conflicts of these propagators, each at these domains. -/
def LocalRun (acts : List (Act σ μ)) (d0 : Doms) (v : Weighting.Variant) : List (Doms × Nat) → (Nat → Nat → Rat) → (Nat → Nat → Rat) → Prop
  | [], w, w' => w = w'
  | (d, p) :: es, w, w' => ∃ c t u, (installed acts)[p]? = some (c, t) ∧ (∀ x, x ∈ t.about → Unfixed d x → ∃ r, Increment d0 d (· ∈ t.about) x v r ∧ u c x = w c x + r) ∧
      (∀ e x, ¬ (e = c ∧ x ∈ t.about ∧ Unfixed d x) → u e x = w e x) ∧ LocalRun acts d0 v es u w'

/-- The constraints of these propagators; `none` is kept. -/
def owners (acts : List (Act σ μ)) (es : List (Option Nat)) : List (Option Nat) := es.map fun e => e.bind fun p => ((installed acts)[p]?).map (·.1)

/-- Scores of constraints in Conflict-History Search (gcs/variable_weighting.hh:208-221), and how many conflicts there were since the last one of a constraint, or since the beginning. -/
structure Recency where
  score : Nat → Rat
  since : Nat → Nat
  alpha : Rat

/-- At first. -/
def Recency.start : Recency := ⟨fun _ => 0, fun _ => 0, 2 / 5⟩

/-- After a conflict of constraint `c`. -/
def Recency.conflict (r : Recency) (c : Nat) : Recency where
  score e := if e = c then (1 - r.alpha) * r.score c + r.alpha * (1 / ((r.since c : Rat) + 1)) else r.score e
  since e := if e = c then 0 else r.since e + 1
  alpha := if r.alpha - 1 / 1000000 > 3 / 50 then r.alpha - 1 / 1000000 else 3 / 50

/-- After a restart. -/
def Recency.restart (r : Recency) : Recency := { r with score := fun e => r.score e * (199 / 200) ^ r.since e, alpha := 2 / 5 }

/-- After conflicts of constraints (`some c`) and restarts (`none`). -/
def Recency.all (r : Recency) : List (Option Nat) → Recency
  | [] => r
  | some c :: es => (r.conflict c).all es
  | none :: es => r.restart.all es

end
end Gcs
