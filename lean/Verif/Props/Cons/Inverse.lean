import Verif.Lemmas.Cons.Inverse
import Verif.Props.Cons.Run

/-!
# C39, C41: SymmetricAllDifferent and Inverse
-/

namespace Gcs

section
variable {σ μ : Type} {m : Nat} {R : Err → Prop} {root : Doms} {vars x y : List VarId} {start : Int} {old : Nat → List (Option Nat)} {z0 : List σ}

/-- C39: `SymmetricAllDifferent(vars, start)`: what is installed is right. Posting throws only if a number is not a 64-bit integer. -/
theorem symmetricAllDifferent_right (ho : R .overflow) (hd : DomsOK root) (hs : InI64 start) (hv : ∀ v ∈ vars, v.Valid root.length) (hold : ∀ k, Gac.Injective (old k)) :
    (Posted.mk (SymmetricAllDifferent.install (σ := σ) (μ := μ) vars start old) (Inverses vars vars start start) vars).Serves root.length m R root z0 (fun _ => False) ∧
    ∀ e, SymmetricAllDifferent.install (σ := σ) (μ := μ) vars start old root = .error e → e = .overflow := by
  have key := SymmetricAllDifferent.install_ok (μ := μ) (m := m) (z0 := z0) ho hd hs hv hold
  exact ⟨fun items e => key.value e, fun e he => by rcases key with k | ⟨_, k, _⟩ <;> rw [k] at he <;> cases he; rfl⟩

/-- What SymmetricAllDifferent means does imply that the variables have different values. -/
theorem symmetric_different {a : Asg} (h : Inverses vars vars start start a) : (vars.map (·.eval a)).Nodup := by
  rw [List.Nodup, List.pairwise_iff_getElem]
  intro i j hi hj hij e
  rw [List.length_map] at hi hj
  simp only [List.getElem_map] at e
  exact absurd (Inverse.differ h i j _ _ (List.getElem?_eq_getElem hi) (List.getElem?_eq_getElem hj) (by omega) e) (by simp)

/-- C41: `Inverse(x, y, start, start)`: what is installed is right. Posting throws if the lists are of different lengths or have a variable twice, or a number is not a 64-bit integer. Missing: lists with
different starting indices, for which the code loses solutions (`Inverse.loses_solutions`). -/
theorem inverse_right_partial (ho : R .overflow) (hd : DomsOK root) (hs : InI64 start) (hx : ∀ v ∈ x, v.Valid root.length) (hy : ∀ v ∈ y, v.Valid root.length) (hold : ∀ k, Gac.Injective (old k)) :
    (Posted.mk (Inverse.install (σ := σ) (μ := μ) x y start start old) (Inverses x y start start) (x ++ y)).Serves root.length m R root z0 (fun _ => False) ∧
    ∀ e, Inverse.install (σ := σ) (μ := μ) x y start start old root = .error e → e = .overflow ∨ e = .invalidProblem ∧ (x.length ≠ y.length ∨ Inverse.hasDup x = true ∨ Inverse.hasDup y = true) := by
  by_cases h : x.length = y.length ∧ Inverse.hasDup x = false ∧ Inverse.hasDup y = false
  · have key := Inverse.install_ok (μ := μ) (m := m) (z0 := z0) ho hd hs hx hy hold h.1 h.2.1 h.2.2
    exact ⟨fun items e => key.value e, fun e he => by rcases key with k | ⟨_, k, _⟩ <;> rw [k] at he <;> cases he; exact .inl rfl⟩
  · have hb : x.length ≠ y.length ∨ Inverse.hasDup x = true ∨ Inverse.hasDup y = true := by
      by_cases h1 : x.length = y.length
      · by_cases h2 : Inverse.hasDup x = true
        · exact .inr (.inl h2)
        · exact .inr (.inr (by simpa [h1, h2] using h))
      · exact .inl h1
    have e : Inverse.install (σ := σ) (μ := μ) x y start start old root = .error .invalidProblem := by
      unfold Inverse.install
      split
      · rfl
      · rename_i hh
        rw [Bool.or_eq_true, not_or] at hh
        rw [if_pos (hb.resolve_right fun h' => h'.elim hh.1 hh.2)]; rfl
    refine ⟨fun items e' => ?_, fun e' he => ?_⟩
    · dsimp only at e'; rw [e] at e'; cases e'
    · rw [e] at he; cases he; exact .inr ⟨rfl, hb⟩

end

namespace Inverse

/-- Where posting throws, there are no solutions to be lost, unless the lists are of different lengths. -/
theorem dup_unsat : ∀ {x y : List VarId} {xStart yStart : Int} {a : Asg}, hasDup x = true → ¬ Inverses x y xStart yStart a := by
  have key : ∀ x : List VarId, hasDup x = true → ∃ (i j : Nat) (v : VarId), i ≠ j ∧ x[i]? = some v ∧ x[j]? = some v := by
    intro x
    induction x with
    | nil => intro h; cases h
    | cons v vs ih =>
      intro h
      have h' : v ∈ vs ∨ hasDup vs = true := by cases v <;> simp [hasDup] at h <;> simp [h]
      rcases h' with hm | h
      · obtain ⟨j, hj⟩ := List.mem_iff_getElem?.1 hm
        exact ⟨0, j + 1, v, by omega, rfl, hj⟩
      · obtain ⟨i, j, w, h1, h2, h3⟩ := ih h
        exact ⟨i + 1, j + 1, w, by omega, h2, h3⟩
  intro x y xStart yStart a h hc
  obtain ⟨i, j, v, h1, h2, h3⟩ := key x h
  exact absurd (differ hc i j v v h2 h3 h1 rfl) (by simp)

/-! `x` and `y` with two elements each. -/
def x : List VarId := [.simple 0, .simple 1]
def y : List VarId := [.simple 2, .simple 3]
/-- `x[0] = 1`, `x[1] = 2`, `y[1] = 0`, `y[2] = 1`. -/
def sol : Asg := fun i => [1, 2, 0, 1].getD i 0
def root : Doms := [[(1, 2)], [(1, 2)], [(0, 1)], [(0, 1)]]

/-- If the lists are indexed from different numbers on, the code loses solutions: with `x` indexed from 0 and `y` from 1 there are two solutions, of which none is reported. The values given to the matching
algorithm are indices of `x`, while the values of `x` are indices of `y`. -/
theorem loses_solutions : (Within root sol ∧ Inverses x y 0 1 sol) ∧ Run.run root [install x y 0 1 fun _ => []] = some ([], true) := by
  refine ⟨⟨?_, ⟨by decide, by decide, ?_⟩⟩, by decide +kernel⟩
  · intro i s hs
    rcases i with _ | _ | _ | _ | i <;> simp [root] at hs <;> subst hs <;> simp [IntervalSet.Mem, sol]
  · intro i j v w hi hj
    rcases i with _ | _ | i <;> rcases j with _ | _ | j <;> simp [x, y] at hi hj <;> subst hi hj <;> decide

/-- With the same starting index everything is found. -/
example : Run.run [[(1, 2)], [(1, 2)], [(1, 2)], [(1, 2)]] [install x y 1 1 fun _ => []] =
    some ([[[(1, 1)], [(2, 2)], [(1, 1)], [(2, 2)]], [[(2, 2)], [(1, 1)], [(2, 2)], [(1, 1)]]], true) := by decide +kernel
/-- Bounds come from the constraint. -/
example : Run.run [[(0, 9)], [(2, 7)], [(-3, 1)], [(0, 2)]] [install x y 1 1 fun _ => []] = some ([[[(1, 1)], [(2, 2)], [(1, 1)], [(2, 2)]]], true) := by decide +kernel
/-- The hypotheses are met. -/
example : (Posted.mk (install (σ := Unit) (μ := Unit) x y 1 1 fun _ => []) (Inverses x y 1 1) (x ++ y)).Serves 4 0 (· = .overflow) root [] (fun _ => False) :=
  (inverse_right_partial (R := (· = .overflow)) rfl (by decide +kernel) (by decide) (by decide) (by decide) fun _ i j r hi => by simp at hi).1

end Inverse

namespace SymmetricAllDifferent

/-- Four people in pairs, or alone: the second and the fourth are not alone, and not with each other. -/
def people : List VarId := [.simple 0, .simple 1, .simple 2, .view 3 false 1]
example : Run.run [[(1, 4)], [(1, 1), (3, 3)], [(0, 9)], [(0, 0), (2, 2)]] [install people 1 fun _ => []] =
    some ([[[(2, 2)], [(1, 1)], [(4, 4)], [(2, 2)]], [[(4, 4)], [(3, 3)], [(2, 2)], [(0, 0)]]], true) := by decide +kernel
example : Run.run [[(1, 4)], [(1, 4)]] [install [.simple 0, .simple 1, .simple 0] 1 fun _ => []] = some ([], true) := by decide +kernel
example : (Posted.mk (install (σ := Unit) (μ := Unit) people 1 fun _ => []) (Inverses people people 1 1) people).Serves 4 0 (· = .overflow) [[(1, 4)], [(1, 1), (3, 3)], [(0, 9)], [(0, 0), (2, 2)]] [] (fun _ => False) :=
  (symmetricAllDifferent_right (R := (· = .overflow)) rfl (by decide +kernel) (by decide) (by decide) fun _ i j r hi => by simp at hi).1

end SymmetricAllDifferent
end Gcs
