import Verif.Lemmas.Cons.SortProp
import Verif.Props.Cons.Run

/-!
# C56: Sort
-/

namespace Gcs
open IntervalSet

section
variable {σ μ : Type} {m : Nat} {R : Err → Prop} {root : Doms} {x y : List VarId}

theorem Sort.enforces (ho : R .overflow) (hv : ∀ v ∈ x ++ y, v.Valid root.length) (hlen : x.length = y.length) :
    Enforces root.length m R root (fun a => Sorts (x.map (·.eval a)) (y.map (·.eval a))) (x ++ y) ((Sort.sortedness x y).bind fun _ => (pure PState.enable : Prog σ μ PState)) := by
  intro d hd hl
  refine ver_seq (S := fun _ => False) hd hl (fun _ h => h) (Sort.ver_sortedness (J := { n := root.length, m, R, C := fun a => Within root a ∧ Sorts (x.map (·.eval a)) (y.map (·.eval a)) }) ho hd hl hv hlen fun a _ hc => hc.2) fun _ d' _ _ _ hq => ?_
  exact Enforced.intro (fun hk a ha _ => hq hk a ha) nofun nofun

/-- C56: `Sort(x, y)`: what is installed is right, whatever is repeated and whatever the domains are. It throws only if something is not a 64-bit integer: it never fails to find what it looks for to explain
what it has inferred, and never reads out of bounds. Posting throws exactly if there are not as many of one as of the other. -/
theorem sort_right (ho : R .overflow) (hv : ∀ v ∈ x ++ y, v.Valid root.length) :
    (Posted.mk (Sort.install (σ := σ) (μ := μ) x y) (fun a => Sorts (x.map (·.eval a)) (y.map (·.eval a))) (x ++ y)).Right root.length m R root (fun e => e = .invalidProblem ∧ x.length ≠ y.length) := by
  by_cases hlen : x.length = y.length
  · by_cases hx : x = []
    · have hy : y = [] := List.eq_nil_of_length_eq_zero (by rw [← hlen, hx]; rfl)
      subst hx hy
      refine ⟨fun items h => ?_, fun e h => ?_⟩
      · have h : Sort.install (σ := σ) (μ := μ) [] [] root = .ok items := h
        cases h
        exact Posts.nil fun a _ => ⟨.nil, .nil⟩
      · have h : Sort.install (σ := σ) (μ := μ) [] [] root = .error e := h
        cases h
    · have e : Sort.install (σ := σ) (μ := μ) x y root = .ok [Sort.propagator x y] := by rw [Sort.install, if_neg (by simpa using hlen), if_neg hx]
      have key := right_one (σ := σ) (μ := μ) (m := m) (inst := Sort.install x y) e (Sort.enforces (m := m) ho hv hlen) (wakes_mem fun z hz => .inr (.inl hz)) rfl
      exact ⟨key.1, fun e h => (key.2 e h).elim⟩
  · have e : Sort.install (σ := σ) (μ := μ) x y root = .error .invalidProblem := by rw [Sort.install, if_pos hlen]
    refine ⟨fun items h => ?_, fun e' h => ?_⟩
    · have h : Sort.install (σ := σ) (μ := μ) x y root = .ok items := h
      rw [e] at h; cases h
    · have h : Sort.install (σ := σ) (μ := μ) x y root = .error e' := h
      rw [e] at h; cases h
      exact ⟨rfl, hlen⟩

/-- C56: what is accepted has as many of one as of the other. -/
theorem sort_refuses {items : List (Item σ μ)} (h : Sort.install x y root = .ok items) : x.length = y.length := Classical.byContradiction fun hn => by
  rw [Sort.install, if_pos hn] at h
  cases h

end

namespace Sort.Demo

/-- A variable twice, its negation, and something to sort to. -/
def root : Doms := [[(1, 4)], [(2, 2), (4, 5)], [(-9, 9)], [(0, 2)], [(3, 4)]]
def x : List VarId := [.simple 0, .simple 1, .view 0 true 0]
def y : List VarId := [.simple 2, .simple 3, .simple 4]

example : (Posted.mk (install (σ := Unit) (μ := Unit) x y) (fun a => Sorts (x.map (·.eval a)) (y.map (·.eval a))) (x ++ y)).Right 5 0 (· = .overflow) root (fun e => e = .invalidProblem ∧ x.length ≠ y.length) :=
  sort_right (R := (· = .overflow)) (root := root) rfl (by decide +kernel)

/-- The solutions: the first variable is between the other two, or above both. -/
example : Run.run root [install (μ := Unit) x y] = some ([[[(3, 3)], [(2, 2)], [(-3, -3)], [(2, 2)], [(3, 3)]], [[(4, 4)], [(2, 2)], [(-4, -4)], [(2, 2)], [(4, 4)]],
    [[(1, 1)], [(4, 4)], [(-1, -1)], [(1, 1)], [(4, 4)]], [[(2, 2)], [(4, 4)], [(-2, -2)], [(2, 2)], [(4, 4)]]], true) := by decide +kernel

/-- Three numbers for three places, where two of them have to be in the first two: then the third has to be in the last, which is only explained by a set of two. -/
def tight : Snap := ⟨3, fun i => [0, 0, 0].getD i 0, fun i => [2, 2, 9].getD i 0, fun j => [0, 1, 5].getD j 0, fun j => [1, 2, 9].getD j 0⟩
example : (tight.lo 2, tight.hi 2) = (0, 3) ∧ tight.near (fun v => [0, 0, 1, 0, 0, 1].getD v 0) 2 = [2] ∧ findBand 3 tight.lo (Gac.put tight.hi 2 2) = some [0, 1, 2] ∧ tight.fromOK 2 2 = true ∧ tight.fromOK 1 1 = false := by decide +kernel

example : Sorts [3, 1, 3] [1, 3, 3] ∧ ¬ Sorts [3, 1, 1] [1, 3, 3] := by
  refine ⟨⟨by decide, by decide⟩, fun h => absurd (h.1.count_eq 3) (by decide)⟩

example : (install (σ := Unit) (μ := Unit) x (y ++ y) root).map List.length = .error .invalidProblem := by decide +kernel

end Sort.Demo
end Gcs
