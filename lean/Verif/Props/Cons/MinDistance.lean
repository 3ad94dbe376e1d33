import Verif.Lemmas.Cons.MinDistanceInstall
import Verif.Props.Cons.Run
import Verif.Props.Stateful

/-!
# C54: MinDistance
-/

namespace Gcs
open IntervalSet

section
variable {σ μ : Type} {m : Nat} {R : Err → Prop} {root : Doms} {xs : List VarId} {z : VarId} {D : List (List Int)} {Q : Option (List (List Int))} {z0 : List σ} {level : MinDistance.Level}

/-- What is wrong with the arguments of a MinDistance (gcs/constraints/min_distance/min_distance.hh:72-75). -/
def BadDistance (xs : List VarId) (D : List (List Int)) (Q : Option (List (List Int))) : Prop := xs.length < 2 ∨ ¬ Distances D ∨ ∃ q, Q = some q ∧ ¬ Requirements xs.length q

theorem minDistance_bad (h : BadDistance xs D Q) : RightOrOverflow (MinDistance.install (σ := σ) (μ := μ) level xs z D Q root) (fun _ => False) ∨ MinDistance.install (σ := σ) (μ := μ) level xs z D Q root = .error .invalidProblem := by
  unfold MinDistance.install
  split
  · exact .inr rfl
  rename_i hp
  rcases MinDistance.badDistances_roo D with e | ⟨b, e, hb⟩
  · left; rw [e]; exact .inl rfl
  rw [e, MinDistance.chk_ok_bind]
  cases b with
  | true => right; rfl
  | false =>
    rw [if_neg (by decide)]
    rcases MinDistance.badRequirements_roo xs.length Q with e | ⟨c, e, hc⟩
    · left; rw [e]; exact .inl rfl
    rw [e, MinDistance.chk_ok_bind]
    cases c with
    | true => right; rfl
    | false =>
      rcases h with h | h | h
      · exact absurd h hp
      · exact Bool.noConfusion (hb.2 h)
      · exact Bool.noConfusion (hc.2 h)

/-- C54: `MinDistance(xs, z, D, Q, level)`: what is installed is right at every level of propagation, whatever is repeated and whatever the domains are. It keeps no constraint state. Posting throws only if there are fewer than
two points, or the matrices are not as they have to be, or something is not a 64-bit integer. -/
theorem minDistance_right (ho : R .overflow) (hd : DomsOK root) (hx : ∀ x ∈ xs, x.Valid root.length) (hz : z.Valid root.length) (hD : ∀ row ∈ D, ∀ x ∈ row, InI64 x) (hQ : ∀ q, Q = some q → ∀ row ∈ q, ∀ x ∈ row, InI64 x) :
    (Posted.mk (MinDistance.install (σ := σ) (μ := μ) level xs z D Q) (fun a => Spread D Q (xs.map (·.eval a)) (z.eval a)) (xs ++ [z])).Serves root.length m R root z0 (fun _ => False) ∧
    ∀ e, MinDistance.install (σ := σ) (μ := μ) level xs z D Q root = .error e → e = .overflow ∨ (e = .invalidProblem ∧ BadDistance xs D Q) := by
  by_cases bad : BadDistance xs D Q
  · have key := minDistance_bad (σ := σ) (μ := μ) (z := z) (root := root) (level := level) bad
    refine ⟨fun items h => ?_, fun e h => ?_⟩
    · have h : MinDistance.install (σ := σ) (μ := μ) level xs z D Q root = .ok items := h
      rcases key with (k | ⟨_, _, k⟩) | k
      · rw [k] at h; cases h
      · exact k.elim
      · rw [k] at h; cases h
    · rcases key with (k | ⟨_, _, k⟩) | k
      · rw [k] at h; cases h; exact .inl rfl
      · exact k.elim
      · rw [k] at h; cases h; exact .inr ⟨rfl, bad⟩
  · have h2 : 2 ≤ xs.length := Nat.not_lt.1 fun h => bad (.inl h)
    have key := MinDistance.install_ok (σ := σ) (μ := μ) (m := m) (R := R) (z0 := z0) (level := level) ho hd hx hz hD hQ h2 (Classical.byContradiction fun h => bad (.inr (.inl h)))
      (fun q e => Classical.byContradiction fun h => bad (.inr (.inr ⟨q, e, h⟩)))
    refine ⟨fun items h => ?_, fun e h => ?_⟩
    · have h : MinDistance.install (σ := σ) (μ := μ) level xs z D Q root = .ok items := h
      rcases key with k | ⟨v, k, hv⟩
      · rw [k] at h; cases h
      · rw [k] at h; cases h; exact hv
    · rcases key with k | ⟨v, k, hv⟩
      · rw [k] at h; cases h; exact .inl rfl
      · rw [k] at h; cases h

/-- C54: what is accepted has at least two points, and matrices as they have to be. -/
theorem minDistance_refuses {items : List (Item σ μ)} (h : MinDistance.install level xs z D Q root = .ok items) : 2 ≤ xs.length ∧ Distances D ∧ ∀ q, Q = some q → Requirements xs.length q := by
  have good : ¬ BadDistance xs D Q := fun bad => by
    rcases minDistance_bad (σ := σ) (μ := μ) (z := z) (root := root) (level := level) bad with (k | ⟨_, _, k⟩) | k
    · rw [k] at h; cases h
    · exact k
    · rw [k] at h; cases h
  exact ⟨Nat.not_lt.1 fun h => good (.inl h), Classical.byContradiction fun h => good (.inr (.inl h)), fun q e => Classical.byContradiction fun h => good (.inr (.inr ⟨q, e, h⟩))⟩

end

namespace MinDistance.Demo

/-- Four sites on a line, at 0, 1, 3 and 7. -/
def D : List (List Int) := [[0, 1, 3, 7], [1, 0, 2, 6], [3, 2, 0, 4], [7, 6, 4, 0]]

/-- Only the last two points have a requirement, and nothing below the diagonal matters. -/
def Q : List (List Int) := [[0, 0, 0], [-5, 0, 4], [0, 0, 0]]

/-- Three points: one may be outside of the matrix, one is the view `3 - x` of it, and the last is free. -/
def root : Doms := [[(-1, 4)], [(0, 3)], [(2, 9)]]
def xs : List VarId := [.simple 0, .view 0 true 3, .simple 1]
def z : VarId := .simple 2

example (level : Level) : (Posted.mk (install (μ := Unit) level xs z D (some Q)) (fun a => Spread D (some Q) (xs.map (·.eval a)) (z.eval a)) (xs ++ [z])).Serves 3 0 (· = .overflow) root ([] : List Unit) (fun _ => False) :=
  (minDistance_right (R := (· = .overflow)) (root := root) (xs := xs) (z := z) (D := D) (Q := some Q) rfl (by decide +kernel) (by decide +kernel) (by decide +kernel) (by decide +kernel) (by rintro q ⟨⟩; decide +kernel)).1

/-- The solutions are the same at every level. Without the requirement there is one more. -/
example (level : Level) : Run.run root [install (μ := Unit) level xs z D (some Q)] = some ([[[(0, 0)], [(2, 2)], [(3, 3)]], [[(1, 1)], [(3, 3)], [(2, 2)]], [[(2, 2)], [(3, 3)], [(2, 2)]]], true) := by cases level <;> decide +kernel
example (level : Level) : Run.run root [install (μ := Unit) level xs z D none] =
    some ([[[(0, 0)], [(2, 2)], [(3, 3)]], [[(1, 1)], [(3, 3)], [(2, 2)]], [[(2, 2)], [(3, 3)], [(2, 2)]], [[(3, 3)], [(2, 2)], [(3, 3)]]], true) := by cases level <;> decide +kernel

/-- A point may be chosen twice, at distance 0. -/
example : Spread D none [1, 3, 1] 0 := by
  refine ⟨by decide, fun i j x y hij h1 h2 => ?_, ⟨0, 2, 1, 1, by decide, rfl, rfl, rfl⟩, fun q h => nomatch h⟩
  have hj : j < 3 := (List.getElem?_eq_some_iff.1 h2).1
  have : (i = 0 ∧ j = 1) ∨ (i = 0 ∧ j = 2) ∨ (i = 1 ∧ j = 2) := by omega
  rcases this with ⟨rfl, rfl⟩ | ⟨rfl, rfl⟩ | ⟨rfl, rfl⟩ <;> (cases h1; cases h2; decide)

/-- What is refused: one point, no symmetry, a distance from a site to itself, a negative distance, and a requirement of the wrong size or that is negative. -/
example : (install (σ := Unit) (μ := Unit) .forwardBound [.simple 1] z D none root).map List.length = .error .invalidProblem := by decide +kernel
example : (install (σ := Unit) (μ := Unit) .forwardBound xs z [[0, 1], [2, 0]] none root).map List.length = .error .invalidProblem := by decide +kernel
example : (install (σ := Unit) (μ := Unit) .forwardBound xs z [[0, 1], [1, 1]] none root).map List.length = .error .invalidProblem := by decide +kernel
example : (install (σ := Unit) (μ := Unit) .forwardBound xs z [[0, -1], [-1, 0]] none root).map List.length = .error .invalidProblem := by decide +kernel
example : (install (σ := Unit) (μ := Unit) .forwardBound xs z D (some D) root).map List.length = .error .invalidProblem := by decide +kernel
example : (install (σ := Unit) (μ := Unit) .forwardBound xs z D (some [[0, 1, -1], [0, 0, 0], [0, 0, 0]]) root).map List.length = .error .invalidProblem := by decide +kernel

end MinDistance.Demo
end Gcs
