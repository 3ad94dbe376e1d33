import Verif.Lemmas.Cons.KnapsackInstall
import Verif.Props.Cons.Run
import Verif.Props.Stateful

/-!
# C55: Knapsack
-/

namespace Gcs
open IntervalSet

section
variable {σ μ : Type} {m : Nat} {R : Err → Prop} {root : Doms} {coeffs : List (List Int)} {vars totals : List VarId} {z0 : List σ} {s : Knapsack.Strategy}

theorem part_zip {a : Asg} {x : Nat} : ∀ (i : Nat) (row : List Int) (vs : List VarId), (coeffs.getD x []).drop i = row → vars.drop i = vs → vs.length ≤ row.length →
    Knapsack.part coeffs vars a x (List.range' i vs.length) = (List.zipWith (· * ·) row (vs.map (·.eval a))).sum
  | _, row, [], _, _, _ => by simp [Knapsack.part]
  | _, [], v :: vs, _, _, h => by simp at h
  | i, c :: row, v :: vs, h1, h2, h3 => by
    have hi : i < (coeffs.getD x []).length := Nat.not_le.1 fun hn => by rw [List.drop_eq_nil_of_le hn] at h1; cases h1
    have e1 : (coeffs.getD x []).drop (i + 1) = row ∧ Knapsack.cf coeffs x i = c := by
      rw [List.drop_eq_getElem_cons hi] at h1
      obtain ⟨k1, k2⟩ := List.cons.inj h1
      exact ⟨k2, by rw [Knapsack.cf, List.getD_eq_getElem?_getD (l := coeffs.getD x []), List.getElem?_eq_getElem hi, k1]; rfl⟩
    obtain ⟨_, e2, e3, _⟩ := Knapsack.drop_cons h2
    rw [List.length_cons, List.range'_succ, Knapsack.part, part_zip (i + 1) row vs e1.1 e2 (by simpa using h3), e3, e1.2, List.map_cons, List.zipWith_cons_cons, List.sum_cons, Int.mul_comm]
    omega

theorem means_packs {a : Asg} (hl : coeffs.length = totals.length) (hr : ∀ row ∈ coeffs, vars.length ≤ row.length) : Packs coeffs (vars.map (·.eval a)) (totals.map (·.eval a)) ↔ Knapsack.Means coeffs vars totals a := by
  have key : ∀ x (hx : x < coeffs.length), Knapsack.part coeffs vars a x (List.range vars.length) = (List.zipWith (· * ·) coeffs[x] (vars.map (·.eval a))).sum := fun x hx => by
    have := part_zip (coeffs := coeffs) (vars := vars) (a := a) (x := x) 0 _ _ rfl rfl (by simpa [hx] using hr _ (List.getElem_mem hx))
    rw [List.drop_zero, ← List.range_eq_range'] at this
    rw [List.drop_zero] at this
    rw [this]
    simp [hx]
  constructor
  · intro h x hx
    have hx' : x < coeffs.length := by omega
    have := h x _ _ (List.getElem?_eq_getElem hx') (by rw [List.getElem?_map, List.getElem?_eq_getElem hx]; rfl)
    rw [key x hx', this]
    simp [Knapsack.vl, hx]
  · intro h x row t h1 h2
    obtain ⟨hx, rfl⟩ := List.getElem?_eq_some_iff.1 h1
    have hx' : x < totals.length := by omega
    rw [← key x hx, ← h x hx']
    simpa [Knapsack.vl, hx'] using h2

/-- What is wrong with the arguments of a Knapsack (gcs/constraints/knapsack/knapsack.hh:36-37). -/
def BadKnapsack (coeffs : List (List Int)) (vars totals : List VarId) (root : Doms) : Prop :=
  ¬ Items coeffs vars.length totals.length ∨ ∃ v ∈ vars ++ totals, ∃ a, Within root a ∧ v.eval a < 0

/-- C55: `Knapsack(coeffs, vars, totals).with_proof_strategy(s)`: what is installed is right with either strategy, whatever is repeated and whatever the domains are, provided that, with the default one, no row has fewer
coefficients than there are variables (of longer rows, the beginning counts). It keeps no constraint state. Posting throws only if the arguments are not as they have to be, or something is not a 64-bit integer. -/
theorem knapsack_right_partial (ho : R .overflow) (hd : DomsOK root) (hv : ∀ v ∈ vars ++ totals, v.Valid root.length) (hc : ∀ row ∈ coeffs, ∀ c ∈ row, InI64 c) (hr : s = .perCall → ∀ row ∈ coeffs, vars.length ≤ row.length) :
    (Posted.mk (Knapsack.install (σ := σ) (μ := μ) s coeffs vars totals) (fun a => Packs coeffs (vars.map (·.eval a)) (totals.map (·.eval a))) (vars ++ totals)).Serves root.length m R root z0 (fun _ => False) ∧
    ∀ e, Knapsack.install (σ := σ) (μ := μ) s coeffs vars totals root = .error e → e = .overflow ∨ (e = .invalidProblem ∧ BadKnapsack coeffs vars totals root) := by
  by_cases acc : Knapsack.Accepted s coeffs vars totals root
  · have hlong : ∀ row ∈ coeffs, vars.length ≤ row.length := by
      cases s with
      | perCall => exact hr rfl
      | upfront => exact fun row hrow => Nat.le_of_eq (acc.long rfl row hrow).symm
    have key := Knapsack.install_ok (σ := σ) (μ := μ) (m := m) (R := R) (z0 := z0) ho hd hv hc hlong acc
    have same : (fun a => Packs coeffs (vars.map (·.eval a)) (totals.map (·.eval a))) = Knapsack.Means coeffs vars totals := funext fun a => propext (means_packs acc.len hlong)
    refine ⟨fun items h => ?_, fun e h => ?_⟩
    · have h : Knapsack.install (σ := σ) (μ := μ) s coeffs vars totals root = .ok items := h
      rcases key with k | ⟨_, k, hk⟩
      · rw [k] at h; cases h
      · rw [k] at h; cases h
        show ∃ I es, _ ∧ Served _ _ _ _ _ _ _ (fun a => Packs coeffs (vars.map (·.eval a)) (totals.map (·.eval a))) _ _
        rw [same]; exact hk
    · rcases key with k | ⟨_, k, _⟩
      · rw [k] at h; cases h; exact .inl rfl
      · rw [k] at h; cases h
  · have bad : Knapsack.install (σ := σ) (μ := μ) s coeffs vars totals root = .error .overflow ∨ Knapsack.install (σ := σ) (μ := μ) s coeffs vars totals root = .error .invalidProblem := by
      unfold Knapsack.install
      rcases Knapsack.refused_roo (s := s) (coeffs := coeffs) hd hv with e | ⟨b, e, hb⟩
      · left; rw [e]; rfl
      · right; rw [e, hb.2 acc]; rfl
    refine ⟨fun items h => ?_, fun e h => ?_⟩
    · have h : Knapsack.install (σ := σ) (μ := μ) s coeffs vars totals root = .ok items := h
      rcases bad with k | k <;> (rw [k] at h; cases h)
    · rcases bad with k | k
      · rw [k] at h; cases h; exact .inl rfl
      · rw [k] at h; cases h
        refine .inr ⟨rfl, Classical.byContradiction fun hn => acc ?_⟩
        have it : Items coeffs vars.length totals.length := Classical.byContradiction fun h => hn (.inl h)
        exact ⟨it.rows, it.some, fun r h1 r' h2 => (it.long r h1).trans (it.long r' h2).symm, fun _ => it.long, it.nonneg, fun v hm a ha => Int.not_lt.1 fun h => hn (.inr ⟨v, hm, a, ha, h⟩)⟩

/-- C55: what is accepted has a row for every total, no negative coefficients, and nothing that may be negative; with the strategy that is not the default one, rows are also as long as there are variables. -/
theorem knapsack_refuses {items : List (Item σ μ)} (hd : DomsOK root) (hv : ∀ v ∈ vars ++ totals, v.Valid root.length) (h : Knapsack.install s coeffs vars totals root = .ok items) :
    coeffs.length = totals.length ∧ coeffs ≠ [] ∧ (∀ row ∈ coeffs, ∀ c ∈ row, 0 ≤ c) ∧ (∀ v ∈ vars ++ totals, ∀ a, Within root a → 0 ≤ v.eval a) ∧ (s = .upfront → Items coeffs vars.length totals.length) := by
  have acc : Knapsack.Accepted s coeffs vars totals root := Classical.byContradiction fun hn => by
    unfold Knapsack.install at h
    rcases Knapsack.refused_roo (s := s) (coeffs := coeffs) hd hv with e | ⟨b, e, hb⟩
    · rw [e] at h; cases h
    · rw [e, hb.2 hn] at h; cases h
  exact ⟨acc.len, acc.some, acc.coeffs, acc.nonneg, fun e => ⟨acc.len, acc.some, acc.long e, acc.coeffs⟩⟩

/-- C55: with the default strategy, a row that is too short is accepted, and the first propagation goes beyond its end (`.at` throws `std::out_of_range`). The other strategy refuses it. -/
theorem knapsack_short_wrong : ∃ (root : Doms) (coeffs : List (List Int)) (vars totals : List VarId), ¬ Items coeffs vars.length totals.length ∧
    (Knapsack.install (σ := Unit) (μ := Unit) .perCall coeffs vars totals root).map List.length = .ok 1 ∧ Run.thrown root [Knapsack.install .perCall coeffs vars totals] = some .ub ∧
    (Knapsack.install (σ := Unit) (μ := Unit) .upfront coeffs vars totals root).map List.length = .error .invalidProblem :=
  ⟨[[(0, 1)], [(0, 1)], [(0, 2)]], [[1]], [.simple 0, .simple 1], [.simple 2], fun h => absurd (h.long [1] (by simp)) (by decide), by decide +kernel, by decide +kernel, by decide +kernel⟩

end

namespace Knapsack.Demo

/-- Weights and profits for three items, one of them given twice, one that there are up to two of, and one that is a view. -/
def root : Doms := [[(0, 2)], [(0, 1)], [(3, 5)], [(0, 9)]]
def coeffs : List (List Int) := [[2, 3, 0, 1], [1, 4, 2, 2]]
def vars : List VarId := [.simple 0, .simple 1, .simple 0, .view 1 true 1]
def totals : List VarId := [.simple 2, .simple 3]

example (s : Strategy) : (Posted.mk (install (μ := Unit) s coeffs vars totals) (fun a => Packs coeffs (vars.map (·.eval a)) (totals.map (·.eval a))) (vars ++ totals)).Serves 4 0 (· = .overflow) root ([] : List Unit) (fun _ => False) :=
  (knapsack_right_partial (R := (· = .overflow)) (root := root) (coeffs := coeffs) (vars := vars) (totals := totals) rfl (by decide +kernel) (by decide +kernel) (by decide +kernel) (fun _ => by decide +kernel)).1

/-- The solutions, with both strategies. -/
example : Run.run root [install (μ := Unit) .perCall coeffs vars totals] =
    some ([[[(1, 1)], [(0, 0)], [(3, 3)], [(5, 5)]], [[(2, 2)], [(0, 0)], [(5, 5)], [(8, 8)]], [[(0, 0)], [(1, 1)], [(3, 3)], [(4, 4)]], [[(1, 1)], [(1, 1)], [(5, 5)], [(7, 7)]]], true) := by decide +kernel
example : Run.run root [install (μ := Unit) .upfront coeffs vars totals] = Run.run root [install (μ := Unit) .perCall coeffs vars totals] := by decide +kernel

/-- Of a row that is too long, the beginning counts. -/
example : Run.run [[(0, 1)], [(0, 2)]] [install (μ := Unit) .perCall [[1, 5]] [.simple 0] [.simple 1]] = some ([[[(0, 0)], [(0, 0)]], [[(1, 1)], [(1, 1)]]], true) := by decide +kernel

/-- Negative coefficients, and variables that may be negative, are refused. -/
example (s : Strategy) : (install (σ := Unit) (μ := Unit) s [[-1]] [.simple 0] [.simple 1] root).map List.length = .error .invalidProblem := by cases s <;> decide +kernel
example (s : Strategy) : (install (σ := Unit) (μ := Unit) s [[1]] [.view 0 false (-1)] [.simple 1] root).map List.length = .error .invalidProblem := by cases s <;> decide +kernel

end Knapsack.Demo
end Gcs
