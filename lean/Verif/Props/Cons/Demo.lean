import Verif.Props.Problem
import Verif.Props.Heuristics
import Verif.Props.Cons.Comparison
import Verif.Props.Cons.Equals

/-!
# A whole problem

`x` and `y` between 0 and 3, `b` between 0 and 1, with `x < y`, `y ≠ x + 1`, and `y = x + 2` exactly if `b = 1`: the hypotheses of the theorems in `Props/Problem.lean` are met, and what they say about the run.
-/

namespace Gcs.ProblemDemo
open IntervalSet

def x : VarId := .simple 0
def y : VarId := .simple 1
def b : VarId := .simple 2

def root : Doms := [[(0, 3)], [(0, 3)], [(0, 1)]]

section
variable {μ : Type}

def less : Posted Unit μ := ⟨Comparison.lessThan x y, fun a => x.eval a < y.eval a, [x, y]⟩
def equal : Posted Unit μ := ⟨Equals.install y (.view 0 false 2) (.iffCond (Cond.eq b 1)),
  fun a => Reif.holds (fun a => y.eval a = (VarId.view 0 false 2).eval a) a (.iffCond (Cond.eq b 1)), [y, .view 0 false 2] ++ (Reif.iffCond (Cond.eq b 1)).vars⟩

def different : Posted Unit μ := ⟨Equals.notEquals y (.view 0 false 1), fun a => y.eval a ≠ (VarId.view 0 false 1).eval a, [y, .view 0 false 1]⟩

def cs : List (Posted Unit μ) := [less, equal, different]

/-- The propagators installed for the constraints. -/
def S : Setup Unit μ := (Setup.create root 0 (cs.map (·.install)) Setup.empty).toOption.getD Setup.empty

def E : Engine Unit μ := S.engine

theorem vars_valid : ∀ v ∈ [x, y, b], v.Valid 3 := by decide

def branch : Nat → Sys Unit μ → Chk (List Cond) := fun _ s => branchWith (dom [x, y, b]) largestFirst s.doms

theorem branches (V : SearchEnv Unit μ) (h : V.branch = branch) : BranchesOn 3 0 V [x, y, b] where
  valid := vars_valid
  shape := fun _ s hs => by
    have hl : s.doms.length = 3 := hs.call.domsLen
    rw [h]
    refine ⟨_, _, rfl, (dom_chooses hs.call.domsOK (by rw [hl]; exact vars_valid)).mono fun _ h => h.picked, fun v hv ho => ?_, largestFirst_guesses⟩
    exact (largestFirst_branches hs.call.domsOK (by rw [hl]; exact vars_valid v hv) ho).mono fun _ h => h.1

/-- What may be thrown. -/
def Bad (e : Err) : Prop := e = .overflow ∨ e = .ub

theorem constraints : ∀ c ∈ cs (μ := μ), c.OK 3 0 Bad root := by
  intro c hc
  simp only [cs, List.mem_cons, List.not_mem_nil, or_false] at hc
  rcases hc with rfl | rfl | rfl
  · exact (lessThan_right (R := Bad) (root := root) (n := 3) (v1 := x) (v2 := y) (.inl rfl) (by decide +kernel) rfl (by decide) (by decide)).1
  · exact (equals_right (R := Bad) (root := root) (n := 3) (v1 := y) (v2 := .view 0 false 2) (r := .iffCond (Cond.eq b 1)) (.inl rfl) (by decide +kernel) rfl (by decide) (by decide) (by decide)).1
  · exact (notEquals_right (R := Bad) (root := root) (n := 3) (v1 := y) (v2 := .view 0 false 1) (.inl rfl) (by decide +kernel) rfl (by decide) (by decide)).1

theorem problem (V : SearchEnv Unit μ) (h1 : V.branch = branch) (h2 : V.minimise = none ∨ V.minimise = some (.view 0 true 0)) (h3 : V.abort = fun _ => false) :
    ProblemOK 3 0 Bad root cs S V [x, y, b] where
  domsOK := by decide +kernel
  domsLen := rfl
  constraints := constraints
  created := rfl
  branches := branches V h1
  covered := by
    intro c hc v hv i hi
    have : i = 0 ∨ i = 1 ∨ i = 2 := by
      simp only [cs, List.mem_cons, List.not_mem_nil, or_false] at hc
      rcases hc with rfl | rfl | rfl
      · simp only [less, List.mem_cons, List.not_mem_nil, or_false] at hv
        rcases hv with rfl | rfl <;> cases hi <;> simp
      · simp only [equal, Reif.vars, List.mem_append, List.mem_cons, List.not_mem_nil, or_false] at hv
        rcases hv with (rfl | rfl) | rfl <;> cases hi <;> simp
      · simp only [different, List.mem_cons, List.not_mem_nil, or_false] at hv
        rcases hv with rfl | rfl <;> cases hi <;> simp
    rcases this with rfl | rfl | rfl
    · exact ⟨x, by simp, rfl⟩
    · exact ⟨y, by simp, rfl⟩
    · exact ⟨b, by simp, rfl⟩
  objective := by
    intro o ho
    rcases h2 with h2 | h2
    · rw [h2] at ho; cases ho
    · rw [h2] at ho; cases ho
      exact ⟨by decide, fun v hv => by cases hv; exact ⟨x, by simp, rfl⟩⟩
  monotone := by rw [h3]; intro i j _ h; cases h

end

/-! Enumerating, and minimising `-x`. -/

def env : SearchEnv Unit Unit where
  engine := E
  abort := fun _ => false
  branch := branch
  solution := fun _ _ => true
  trace := fun _ _ => true
  minimise := none
  learn := none

def best : SearchEnv Unit Unit := { env with minimise := some (.view 0 true 0) }

def start : Sys Unit Unit := Sys.start root [] () (S (μ := Unit)).watches

def solutions : List Doms := [[[(1, 1)], [(3, 3)], [(1, 1)]], [[(0, 0)], [(2, 2)], [(1, 1)]], [[(0, 0)], [(3, 3)], [(0, 0)]]]

theorem runs : ∃ res has s' t, solve env S 12 1 none start = .ok ((res, has, s', t), true) ∧ t.found = solutions := by
  have h : (match solve env S 12 1 none start with
    | .ok ((_, _, _, t), true) => decide (t.found = solutions)
    | _ => false) = true := by decide +kernel
  split at h
  · exact ⟨_, _, _, _, by assumption, of_decide_eq_true h⟩
  · cases h

/-- So there are no other solutions. -/
example : ∀ a, (∀ c ∈ cs (μ := Unit), c.holds a) ∧ Within root a → ∃ d ∈ solutions, Within d a := by
  obtain ⟨res, has, s', t, h, hf⟩ := runs
  intro a ha
  obtain ⟨i, d, hd, hw, _⟩ := ((problem_enumerates (problem env rfl (.inl rfl) rfl) rfl rfl rfl (depthFuel := 12) (fuel := 1) (by decide) (by decide) rfl h).1 a).1 ha
  rw [hf] at hd
  exact ⟨d, List.mem_of_getElem? hd, hw⟩

theorem best_runs : ∃ res has s' t, solve best S 12 1 none start = .ok ((res, has, s', t), true) ∧ t.found.getLast? = some [[(1, 1)], [(3, 3)], [(1, 1)]] := by
  have h : (match solve best S 12 1 none start with
    | .ok ((_, _, _, t), true) => decide (t.found.getLast? = some [[(1, 1)], [(3, 3)], [(1, 1)]])
    | _ => false) = true := by decide +kernel
  split at h
  · exact ⟨_, _, _, _, by assumption, of_decide_eq_true h⟩
  · cases h

/-- No solution has a greater `x`. -/
example : ∀ a, (∀ c ∈ cs (μ := Unit), c.holds a) → Within root a → a 0 ≤ 1 := by
  obtain ⟨res, has, s', t, h, hf⟩ := best_runs
  rcases problem_optimises (problem best rfl (.inr rfl) rfl) rfl rfl rfl (depthFuel := 12) (fuel := 1) (by decide) (by decide) rfl h with ⟨h1, _⟩ | ⟨d, v, h1, ⟨a, ha⟩, h2, h3⟩
  · rw [h1] at hf; cases hf
  · rw [hf] at h1; cases h1
    have e := (h2 a ha).2.2
    have := ha 0 _ rfl
    have : a 0 = 1 := by simp [Mem] at this; omega
    have e : -(a 0) + 0 = v := e
    intro b hb hw
    have h4 : v ≤ -(b 0) + 0 := h3 b hb hw
    omega

/-! With restarts and learned nogoods. -/

def cell : Cell NogoodMem NogoodMem := ⟨id, fun v _ => v, fun _ _ => rfl⟩

def restarting : SearchEnv Unit NogoodMem where
  engine := E.install 2 (Nogoods.scan cell) { onChange := [x, y, b] }
  abort := fun _ => false
  branch := branch
  solution := fun _ _ => true
  trace := fun _ _ => true
  minimise := none
  learn := some fun g x => cell.set ((cell.get x).add g) x

def startRestarting : Sys Unit NogoodMem := Sys.start root [] {} (S (μ := NogoodMem)).watches

theorem restarts_run : ∃ res has s' t, solve restarting S 12 200 (some ⟨1, 1⟩) startRestarting = .ok ((res, has, s', t), true) ∧ t.found.length = 3 ∧ 0 < s'.mem.store.length := by
  have h : (match solve restarting S 12 200 (some ⟨1, 1⟩) startRestarting with
    | .ok ((_, _, s', t), true) => decide (t.found.length = 3 ∧ 0 < s'.mem.store.length)
    | _ => false) = true := by decide +kernel
  split at h
  · exact ⟨_, _, _, _, by assumption, of_decide_eq_true h⟩
  · cases h

example : ∃ found : List Doms, found.length = 3 ∧ found.Pairwise (Distinguished [x, y, b]) ∧ ∀ a, (∀ c ∈ cs (μ := NogoodMem), c.holds a) → Within root a → ∃ d ∈ found, Within d a := by
  obtain ⟨res, has, s', t, h, hf, _⟩ := restarts_run
  have := problem_restarts (n := 3) (m := 0) (cell := cell) (problem restarting rfl (.inl rfl) rfl) (Nogoods.scan_ok cell (.inl rfl) (.inr rfl)).safe rfl (fun x hx => hx) rfl rfl rfl rfl rfl rfl
    ⟨by decide, by decide, fun r hr => by cases hr; exact ⟨rfl, rfl, 127, by decide, by decide, by decide +kernel⟩⟩ rfl h
  exact ⟨t.found, hf, this.1, this.2.2 rfl⟩

end Gcs.ProblemDemo
