import Verif.Lemmas.Cons.Lex
import Verif.Lemmas.Cons.Loops
import Verif.Props.Cons.Run
import Verif.Props.Cons.Demo
import Verif.Props.Stateful

/-!
# C41: lexicographic comparison
-/

namespace Gcs
open Lex

section
variable {σ μ : Type} {n m : Nat} {R : Err → Prop} {root : Doms} {B : Kind σ Nat} {h : Nat} {xs ys : List VarId} {r : Reif} {oe : Bool} {z0 : List σ}

theorem stored_swap (d : Doms) (z : List σ) : Stored B h (xs.zip ys) d z ↔ Stored B h (ys.zip xs) d z := by
  have key : ∀ {us vs : List VarId}, Stored B h (us.zip vs) d z → Stored B h (vs.zip us) d z := by
    rintro us vs ⟨k, h1, h2, h3⟩
    have e : ∀ us vs : List VarId, us.zip vs = (vs.zip us).map Prod.swap := by
      intro us
      induction us with
      | nil => simp
      | cons u us ih => intro vs; cases vs <;> simp [ih]
    rw [e] at h2 h3
    refine ⟨k, h1, by simpa using h2, fun p hp a ha => ?_⟩
    exact (h3 p.swap (by rw [← List.map_take]; exact List.mem_map_of_mem hp) a ha).symm
  exact ⟨key, key⟩

/-- C41, C47: the lexicographic comparisons, reified or not: the values of `xs`, as a list, come after those of `ys`, or may be equal if `oe`. The lists need not have the same length. The constraint state
with the handle `h` starts as the code leaves it. Posting throws only if a value is not a 64-bit integer. (`LexLessThan` and its relatives swap the lists: lex.hh:185-254.) -/
theorem lex_right (ho : R .overflow) (hd : DomsOK root) (hl : root.length = n) (hx : ∀ v ∈ xs, v.Valid n) (hy : ∀ v ∈ ys, v.Valid n) (hr : r.Valid n) (hz : z0[h]? = some (B.put 0)) :
    (Posted.mk (Lex.install (μ := μ) B h xs ys r oe) (fun a => r.holds (fun a => LexGreater oe (xs.map (·.eval a)) (ys.map (·.eval a))) a) (xs ++ ys ++ r.vars)).Serves n m R root z0 (· = h) ∧
    ∀ e, Lex.install (σ := σ) (μ := μ) B h xs ys r oe root = .error e → e = .overflow := by
  have hP : ∀ a, ¬ LexGreater oe (xs.map (·.eval a)) (ys.map (·.eval a)) ↔ LexGreater (!oe) (ys.map (·.eval a)) (xs.map (·.eval a)) := fun a => lexGreater_not ..
  refine ⟨fun items hi => ?_, fun e he => ?_⟩
  · simp only [Lex.install, bind, Except.bind, pure, Except.pure] at hi
    cases hev : r.test root with
    | error e => rw [hev] at hi; cases hi
    | ok e =>
      rw [hev] at hi
      cases hi
      refine ⟨Stored B h (xs.zip ys), dispatcher_served (P := fun a => LexGreater oe (xs.map (·.eval a)) (ys.map (·.eval a))) ho hd hl hr ?_ ?_ ?_ ?_ ?_ ?_ ?_ rfl hev⟩
      · rintro d d' z hs ⟨k, h1, h2, h3⟩
        exact ⟨k, h1, h2, fun p hp a ha => h3 p hp a (hs a ha)⟩
      · rintro d z z' e ⟨k, h1, h2, h3⟩
        exact ⟨k, by rw [e h rfl, h1], h2, h3⟩
      · exact fun d => ⟨0, hz, Nat.zero_le _, by simp [Level]⟩
      · exact stage_enforces ho hx hy (fun _ h => h) (fun _ _ => Iff.rfl) fun _ => Iff.rfl
      · exact stage_enforces ho hy hx (fun v hv => by simpa [or_comm] using hv) stored_swap hP
      · intro d hd' hl'
        rintro s rfl
        rcases judge_roo (eqs := equalSatisfies xs ys oe) hd' (xs.zip ys) (fun p hp => hl'.symm ▸ ⟨hx _ (List.of_mem_zip hp).1, hy _ (List.of_mem_zip hp).2⟩) with k | ⟨v, k, hv⟩
        · dsimp only; rw [k]; exact ho
        dsimp only; rw [k]
        refine ⟨rfl, fun e a ha _ => (after_iff oe a xs ys).1 (hv.1 e a ha), fun e a ha _ h => hv.2.1 e a ha ((after_iff oe a xs ys).2 h), fun e hk => absurd (known_pairs hk) (hv.2.2 e)⟩
      · exact wakes_mem fun v hv => .inr (.inl hv)
  · simp only [Lex.install, bind, Except.bind, pure, Except.pure] at he
    rcases reif_test_spec hd hl hr with k | ⟨v, k, _⟩ <;> rw [k] at he <;> cases he
    rfl

end

/-! Concrete cases of the hypotheses, and runs. -/

namespace Lex

def kind : Kind Nat Nat := ⟨id, some, fun _ => rfl⟩

/-- Strictly after. -/
example : Run.runWith [0] [[(0, 1)], [(0, 1)], [(0, 1)], [(0, 1)]] [install kind 0 [.simple 0, .simple 1] [.simple 2, .simple 3] .mustHold false] =
    some ([[[(0, 0)], [(1, 1)], [(0, 0)], [(0, 0)]], [[(1, 1)], [(0, 0)], [(0, 0)], [(0, 0)]], [[(1, 1)], [(0, 0)], [(0, 0)], [(1, 1)]], [[(1, 1)], [(1, 1)], [(0, 0)], [(0, 0)]],
      [[(1, 1)], [(1, 1)], [(0, 0)], [(1, 1)]], [[(1, 1)], [(1, 1)], [(1, 1)], [(0, 0)]]], true) := by decide +kernel
/-- A list that is shorter than the other has to be greater where both have elements. -/
example : Run.runWith [0] [[(0, 1)], [(0, 1)], [(0, 1)]] [install kind 0 [.simple 0] [.view 1 true 1, .simple 2] .mustHold true] =
    some ([[[(1, 1)], [(1, 1)], [(0, 0)]], [[(1, 1)], [(1, 1)], [(1, 1)]]], true) := by decide +kernel
/-- A call moves on past the first pair, which is equal, and remembers that. -/
example : (runProg ⟨0, []⟩ (stage (μ := Unit) kind 0 [.simple 0, .simple 1] [.simple 2, .simple 3] false) (Sys.start [[(4, 4)], [(0, 5)], [(4, 4)], [(2, 9)]] [0] () (Run.setup [] []).watches)).toOption.map (fun p => (p.1, p.2.doms, p.2.top)) =
    some (.val .enable, [[(4, 4)], [(3, 5)], [(4, 4)], [(2, 4)]], [1]) := by decide +kernel

/-! A problem with a reified comparison of lists in which variables are repeated: the hypotheses of the theorems in `Props/Stateful.lean` are met. -/
namespace Problem

def root : Doms := [[(0, 2)], [(0, 1)], [(0, 1)]]
def xs : List VarId := [.simple 0, .view 1 false 0]
def ys : List VarId := [.simple 1, .simple 0, .const 7]
def r : Reif := .iffCond (Cond.eq (.simple 2) 1)
def sts : List Nat := [0]
def comparison : Posted Nat Unit := ⟨install kind 0 xs ys r false, fun a => r.holds (fun a => LexGreater false (xs.map (·.eval a)) (ys.map (·.eval a))) a, xs ++ ys ++ r.vars⟩
def different : Posted Nat Unit := ⟨Comparison.lessThan (.simple 2) (.simple 0), fun a => (VarId.simple 2).eval a < (VarId.simple 0).eval a, [.simple 2, .simple 0]⟩
def cs : List (Posted Nat Unit) := [different, comparison]
def own (i k : Nat) : Prop := i = 1 ∧ k = 0
def S : Setup Nat Unit := (Setup.create root 0 (cs.map (·.install)) Setup.empty).toOption.getD Setup.empty

def env : SearchEnv Nat Unit where
  engine := S.engine
  abort := fun _ => false
  branch := fun _ s => branchWith (dom [.simple 0, .simple 1, .simple 2]) largestFirst s.doms
  solution := fun _ _ => true
  trace := fun _ _ => true
  minimise := none
  learn := none

theorem valid : ∀ v ∈ [VarId.simple 0, .simple 1, .simple 2], v.Valid 3 := by decide

theorem problem : ProblemServed 3 1 (· = .overflow) root cs sts own S env [.simple 0, .simple 1, .simple 2] where
  domsOK := by decide +kernel
  domsLen := rfl
  statesLen := rfl
  overflow := rfl
  constraints i c hc := by
    rcases i with _ | _ | i
    · cases hc
      exact (lessThan_right (R := (· = .overflow)) (root := root) (n := 3) (v1 := .simple 2) (v2 := .simple 0) rfl (by decide +kernel) rfl (by decide) (by decide)).1.serves _ _
    · cases hc
      have := (lex_right (μ := Unit) (n := 3) (m := 1) (R := (· = .overflow)) (root := root) (xs := xs) (ys := ys) (r := r) (oe := false) (B := kind) (h := 0) (z0 := sts) rfl (by decide +kernel) rfl (by decide +kernel) (by decide +kernel)
        (by decide +kernel) rfl).1
      have e : own 1 = (· = 0) := by funext k; simp [own]
      rw [e]; exact this
    · cases hc
  apart i j k h1 h2 := h1.1.trans h2.1.symm
  created := rfl
  branches := ⟨valid, fun _ s hs => by
    have hl : s.doms.length = 3 := hs.call.domsLen
    refine ⟨_, _, rfl, (dom_chooses hs.call.domsOK (by rw [hl]; exact valid)).mono fun _ h => h.picked, fun v hv ho => ?_, largestFirst_guesses⟩
    exact (largestFirst_branches hs.call.domsOK (by rw [hl]; exact valid v hv) ho).mono fun _ h => h.1⟩
  covered c hc x hx v hv := by
    have : v = 0 ∨ v = 1 ∨ v = 2 := by
      simp only [cs, List.mem_cons, List.not_mem_nil, or_false] at hc
      rcases hc with rfl | rfl
      · simp only [different, List.mem_cons, List.not_mem_nil, or_false] at hx
        rcases hx with rfl | rfl <;> cases hv <;> simp
      · simp only [comparison, xs, ys, r, Reif.vars, List.cons_append, List.nil_append, List.mem_cons, List.not_mem_nil, or_false] at hx
        rcases hx with rfl | rfl | rfl | rfl | rfl | rfl <;> cases hv <;> simp
    rcases this with rfl | rfl | rfl
    · exact ⟨.simple 0, by simp, rfl⟩
    · exact ⟨.simple 1, by simp, rfl⟩
    · exact ⟨.simple 2, by simp, rfl⟩
  objective o ho := nomatch ho
  monotone i j _ h := nomatch h

def solutions : List Doms := [[[(2, 2)], [(1, 1)], [(1, 1)]], [[(2, 2)], [(0, 0)], [(1, 1)]], [[(1, 1)], [(1, 1)], [(0, 0)]]]

theorem runs : ∃ res has s' t, solve env S 12 1 none (Sys.start root sts () S.watches) = .ok ((res, has, s', t), true) ∧ t.found = solutions := by
  have h : (match solve env S 12 1 none (Sys.start root sts () S.watches) with
    | .ok ((_, _, _, t), true) => decide (t.found = solutions)
    | _ => false) = true := by decide +kernel
  split at h
  · exact ⟨_, _, _, _, by assumption, of_decide_eq_true h⟩
  · cases h

/-- So there are no other solutions. -/
example : ∀ a, (∀ c ∈ cs, c.holds a) ∧ Within root a → ∃ d ∈ solutions, Within d a := by
  obtain ⟨res, has, s', t, h, hf⟩ := runs
  intro a ha
  obtain ⟨i, d, hd, hw, _⟩ := ((stateful_enumerates problem rfl rfl (depthFuel := 12) (fuel := 1) (by decide) (by decide) rfl h).1 a).1 ha
  rw [hf] at hd
  exact ⟨d, List.mem_of_getElem? hd, hw⟩

end Problem
end Lex
end Gcs
