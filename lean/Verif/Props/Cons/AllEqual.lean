import Verif.Lemmas.Cons.AllEqual
import Verif.Lemmas.Decide
import Verif.Model.Solve
import Verif.Model.Heuristics

/-!
# C41: AllEqual, for which it is false

`AllEqual` switches its propagator off as soon as its first variable has one value left (gcs/constraints/all_equal/all_equal.cc:136-140), on the grounds that the others then have that value too. They
need not: the bounds are tightened first, and the values missing inside a domain are only passed on to the other variables if there still are some after that. With the first variable 0 or 5 and the second
0 to 3, tightening leaves 0 and 0 to 3, nothing is missing from either, and the propagator is switched off. All four assignments are then reported as solutions.

The same happens without any missing values if two members are views of one variable.
-/

namespace Gcs
open IntervalSet

namespace AllEqual

/-- `AllEqual` on the first two variables, of which the first is 0 or 5 and the second between 0 and 3. -/
def gap : Doms := [[(0, 0), (5, 5)], [(0, 3)]]
/-- `AllEqual` on `x` and `x + 1`, with `x` between 0 and 2. -/
def shift : Doms := [[(0, 2)]]

def setup (root : Doms) (vars : List VarId) : Setup Unit Unit := (Setup.create root 0 [install vars] Setup.empty).toOption.getD Setup.empty

/-- Enumerate everything, smallest values first. -/
def env (root : Doms) (vars : List VarId) : SearchEnv Unit Unit where
  engine := (setup root vars).engine
  abort := fun _ => false
  branch := fun _ s => branchWith (dom vars) smallestFirst s.doms
  solution := fun _ _ => true
  trace := fun _ _ => true
  minimise := none
  learn := none

def run (root : Doms) (vars : List VarId) : Option (List Doms × Bool) :=
  match solve (env root vars) (setup root vars) 12 1 none (Sys.start root [] () (setup root vars).watches) with
  | .ok ((_, _, _, t), done) => some (t.found, done)
  | .error _ => none

end AllEqual

/-- C41 fails: a solution is reported whose values differ. -/
theorem allEqual_reports_unequal : ∃ found, AllEqual.run AllEqual.gap [.simple 0, .simple 1] = some (found, true) ∧ [[(0, 0)], [(3, 3)]] ∈ found :=
  ⟨[[[(0, 0)], [(0, 0)]], [[(0, 0)], [(1, 1)]], [[(0, 0)], [(2, 2)]], [[(0, 0)], [(3, 3)]]], by decide +kernel, by decide⟩

/-- C41 fails: `x` and `x + 1` are taken to be equal. -/
theorem allEqual_reports_shifted : AllEqual.run AllEqual.shift [.simple 0, .view 0 false 1] = some ([[[(1, 1)]]], true) := by decide +kernel

section
variable {σ μ : Type} {n m : Nat} {R : Err → Prop} {root d : Doms}

/-- C41 for `AllEqual`, in part: the propagator loses no assignment in which the values are equal, throws nothing but overflow, and makes sure that they are equal if all variables were fixed when it ran.
When it is switched off they are only sure to be equal if no member had values missing inside its domain and no two different members are about the same variable. Missing: without these two conditions, which
cannot be done without (`allEqual_reports_unequal`, `allEqual_reports_shifted`). -/
theorem allEqual_partial (ho : R .overflow) {vars : List VarId} (hv : ∀ v ∈ vars, v.Valid n) (hne : vars ≠ []) (hd : DomsOK d) (hl : d.length = n) :
    (AllEqual.prop (σ := σ) (μ := μ) vars).Ver { n, m, R, C := fun a => Within root a ∧ ∀ v ∈ vars, ∀ w ∈ vars, v.eval a = w.eval a } (fun _ => True)
      (fun ps d' => ((∀ x ∈ vars, Known d x) → ∀ a, Within d' a → ∀ v ∈ vars, ∀ w ∈ vars, v.eval a = w.eval a) ∧ ps ≠ .enableButIdempotent ∧
        (ps = .disableUntilBacktrack → (∀ v ∈ vars, ∀ w ∈ vars, ∀ i, v.underlyingIndex = some i → w.underlyingIndex = some i → v = w) →
          (∀ x ∈ vars, ∀ i j k, Poss d x i → Poss d x k → i < j → j < k → Poss d x j) → ∀ a, Within d' a → ∀ v ∈ vars, ∀ w ∈ vars, v.eval a = w.eval a)) d :=
  AllEqual.prop_partial ho hv hne hd hl

example : DomsOK [[(0, 4)], [(2, 6)], [(3, 9)]] ∧ ∀ v ∈ [VarId.simple 0, .view 1 false 1, .simple 2], v.Valid 3 := by decide +kernel

end
end Gcs
