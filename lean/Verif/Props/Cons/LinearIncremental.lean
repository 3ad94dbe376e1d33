import Verif.Lemmas.Cons.LinearIncremental
import Verif.Lemmas.Cons.SparseSet
import Verif.Props.Cons.Linear
import Verif.Props.Cons.Demo
import Verif.Props.Stateful

/-!
# C38: linear equations and inequalities, with the incremental propagator

Sums with at least 8 terms (`default_linear_incremental_threshold`, gcs/constraints/linear/propagate.cc:371-379) are kept in a constraint state, from which terms are left out when they have a value, which is sound only as long as
the state is restored on backtracking. The theorems are for sums of any number of terms, and for a state in any of the places in which the code may have one.
-/

namespace Gcs
open IntervalSet Linear

section
variable {σ μ : Type} {n m : Nat} {R : Err → Prop} {root : Doms} {terms : List WTerm} {value : Int} {z0 : List σ} {i j : Option (Inc σ)}

/-- The form in which the following theorems are proved. -/
theorem serves_of_ok {c : Posted σ μ} {own : Nat → Prop}
    (h : RightOrOverflow (c.install root) fun items => ∃ I es, es.map (·.1) = items ∧ Served n m R root z0 I own c.holds c.about es) :
    c.Serves n m R root z0 own ∧ ∀ e, c.install root = .error e → e = .overflow := by
  refine ⟨fun items hi => h.value hi, fun e he => ?_⟩
  rcases h with k | ⟨v, k, _⟩ <;> rw [k] at he <;> cases he
  rfl

/-- C38, C47: `LinearEquality`. The constraint state with the handle of `i` starts with all terms. -/
theorem linearEqualityInc_right (ho : R .overflow) (hd : DomsOK root) (hl : root.length = n) (ht : TermsOK n terms) (hv : InI64 value) (hi : Fresh z0 terms i) :
    (Posted.mk (equalityInc (μ := μ) i terms value .mustHold) (fun a => wsum terms a = value) ((varsOf terms).map .simple)).Serves n m R root z0 (Owns i) ∧
    ∀ e, equalityInc (μ := μ) i terms value .mustHold root = .error e → e = .overflow := by
  have := equalityInc_ok (μ := μ) (m := m) (r := .mustHold) ho hd hl ht hv trivial hi (by rintro ⟨c, h | h⟩ <;> cases h)
  rw [show about terms .mustHold = (varsOf terms).map .simple from List.append_nil _] at this
  exact serves_of_ok (c := Posted.mk _ _ _) this

/-- C38, C47: `LinearNotEquals`. -/
theorem linearNotEqualsInc_right (ho : R .overflow) (hd : DomsOK root) (hl : root.length = n) (ht : TermsOK n terms) (hv : InI64 value) (hi : Fresh z0 terms i) :
    (Posted.mk (equalityInc (μ := μ) i terms value .mustNotHold) (fun a => wsum terms a ≠ value) ((varsOf terms).map .simple)).Serves n m R root z0 (Owns i) ∧
    ∀ e, equalityInc (μ := μ) i terms value .mustNotHold root = .error e → e = .overflow := by
  have := equalityInc_ok (μ := μ) (m := m) (r := .mustNotHold) ho hd hl ht hv trivial hi (by rintro ⟨c, h | h⟩ <;> cases h)
  rw [show about terms .mustNotHold = (varsOf terms).map .simple from List.append_nil _] at this
  exact serves_of_ok (c := Posted.mk _ _ _) this

/-- C38, C47: `LinearNotEqualsIf`, for a condition on a variable. -/
theorem linearNotEqualsIfInc_right (ho : R .overflow) (hd : DomsOK root) (hl : root.length = n) (ht : TermsOK n terms) (hv : InI64 value) (hi : Fresh z0 terms i) {c : Cond} (hc : (Lit.cond c).Valid n) (hr : (Lit.cond c).RangeOK) :
    (Posted.mk (equalityInc (μ := μ) i terms value (literalToReif .notIf (.cond c))) (fun a => c.holds a → wsum terms a ≠ value) ((varsOf terms).map .simple ++ [c.var])).Serves n m R root z0 (Owns i) ∧
    ∀ e, equalityInc (μ := μ) i terms value (literalToReif .notIf (.cond c)) root = .error e → e = .overflow :=
  serves_of_ok (c := Posted.mk _ _ _) (equalityInc_ok (r := .notIf c) ho hd hl ht hv ⟨hc, hr⟩ hi (by rintro ⟨c, h | h⟩ <;> cases h))

/-- C38, C47: `LinearEqualityIf`, for a condition on a variable. Missing: sums that are constant, whatever the values of the variables, and less than `value`; for them this is false, see
`linearEqualityIf_wrong` (the incremental propagator treats empty sums as the other one does). -/
theorem linearEqualityIfInc_partial (ho : R .overflow) (hd : DomsOK root) (hl : root.length = n) (ht : TermsOK n terms) (hv : InI64 value) (hi : Fresh z0 terms i) {c : Cond} (hc : (Lit.cond c).Valid n) (hr : (Lit.cond c).RangeOK)
    (hx : ∃ a, value ≤ wsum terms a) :
    (Posted.mk (equalityInc (μ := μ) i terms value (literalToReif .ifCond (.cond c))) (fun a => c.holds a → wsum terms a = value) ((varsOf terms).map .simple ++ [c.var])).Serves n m R root z0 (Owns i) ∧
    ∀ e, equalityInc (μ := μ) i terms value (literalToReif .ifCond (.cond c)) root = .error e → e = .overflow :=
  serves_of_ok (c := Posted.mk _ _ _) (equalityInc_ok (r := .ifCond c) ho hd hl ht hv ⟨hc, hr⟩ hi fun _ => hx)

/-- C38, C47: `LinearEqualityIff`, for a condition on a variable. Missing: as for `linearEqualityIfInc_partial`. -/
theorem linearEqualityIffInc_partial (ho : R .overflow) (hd : DomsOK root) (hl : root.length = n) (ht : TermsOK n terms) (hv : InI64 value) (hi : Fresh z0 terms i) {c : Cond} (hc : (Lit.cond c).Valid n) (hr : (Lit.cond c).RangeOK)
    (hx : ∃ a, value ≤ wsum terms a) :
    (Posted.mk (equalityInc (μ := μ) i terms value (literalToReif .iffCond (.cond c))) (fun a => c.holds a ↔ wsum terms a = value) ((varsOf terms).map .simple ++ [c.var])).Serves n m R root z0 (Owns i) ∧
    ∀ e, equalityInc (μ := μ) i terms value (literalToReif .iffCond (.cond c)) root = .error e → e = .overflow :=
  serves_of_ok (c := Posted.mk _ _ _) (equalityInc_ok (r := .iffCond c) ho hd hl ht hv ⟨hc, hr⟩ hi fun _ => hx)

/-- C38, C47: `LinearLessThanEqual`, `LinearLessThanEqualIf` and `LinearLessThanEqualIff`. There may be a state for the sum, and another one for the negated sum. -/
theorem linearLessThanEqualInc_right (ho : R .overflow) (hd : DomsOK root) (hl : root.length = n) (ht : TermsOK n terms) (hv : InI64 value) {r : Reif} (hr : r.Valid n)
    (hi : Fresh z0 terms i) (hj : ∀ nt, negate terms = .ok nt → Fresh z0 nt j) (hij : ∀ k, Owns i k → ¬ Owns j k) :
    (Posted.mk (inequalityInc (μ := μ) i j terms value r) (fun a => r.holds (fun a => wsum terms a ≤ value) a) ((varsOf terms).map .simple ++ r.vars)).Serves n m R root z0 (fun k => Owns i k ∨ Owns j k) ∧
    ∀ e, inequalityInc (μ := μ) i j terms value r root = .error e → e = .overflow :=
  serves_of_ok (c := Posted.mk _ _ _) (inequalityInc_ok ho hd hl ht hv hr hi hj hij)

/-- C38, C47: `LinearGreaterThanEqual`, `LinearGreaterThanEqualIf` and `LinearGreaterThanEqualIff`. -/
theorem linearGreaterThanEqualInc_right (ho : R .overflow) (hd : DomsOK root) (hl : root.length = n) (ht : TermsOK n terms) (hv : InI64 value) {r : Reif} (hr : r.Valid n)
    (hi : ∀ nt, negate terms = .ok nt → Fresh z0 nt i) (hj : ∀ nt nnt, negate terms = .ok nt → negate nt = .ok nnt → Fresh z0 nnt j) (hij : ∀ k, Owns i k → ¬ Owns j k) :
    (Posted.mk (greaterEqualInc (μ := μ) i j terms value r) (fun a => r.holds (fun a => wsum terms a ≥ value) a) ((varsOf terms).map .simple ++ r.vars)).Serves n m R root z0 (fun k => Owns i k ∨ Owns j k) ∧
    ∀ e, greaterEqualInc (μ := μ) i j terms value r root = .error e → e = .overflow := by
  refine serves_of_ok (c := Posted.mk _ _ _) ?_
  refine (negate_roo ht).bindEq fun nt ent hnt => (neg_roo hv).bind fun nv hnv => (inequalityInc_ok (m := m) ho hd hl hnt.1 hnv.2 hr (hi nt ent) (fun nnt e => hj nt nnt ent e) hij).mono fun items h => ?_
  have e1 : about nt r = about terms r := by
    have : ∀ ts : List WTerm, varsOf ts = (ts.map (·.2)).filterMap VarId.underlyingIndex := fun ts => by simp [varsOf, List.filterMap_map]; rfl
    unfold about; rw [this, this, hnt.2.2]
  have e2 : (fun a => wsum nt a ≤ nv) = fun a => wsum terms a ≥ value := funext fun a => propext (by rw [hnt.2.1 a, hnv.1]; omega)
  rw [e1, e2] at h
  exact h

end

/-! ## The vector of terms -/

section
variable {α : Type}

/-- C38, C16: when an entry is taken out of the vector, what is left in front is what the list in the model becomes, in the same order. -/
theorem sparseSet_remove {s s' : SparseSet α} {k : Nat} (h : s.counts.headD 0 ≤ s.vec.length) (e : s.step (.remove k) = some s') : s'.active = AllDifferent.takeOut s.active k := by
  obtain ⟨v, cs⟩ := s
  cases cs with
  | nil => cases e
  | cons c cs =>
    cases c with
    | zero => cases e
    | succ c =>
      simp only [SparseSet.step] at e
      split at e
      · cases e
        exact SparseSet.swap_take (by assumption) h
      · cases e

/-- C38, C16: although the vector is shared by all epochs and never restored, the entries that matter are always those that the model keeps, in some order: in all histories in which epochs are entered and
left, and entries removed, a list of entries for each epoch that is restored on backtracking does the same. -/
theorem sparseSet_refines {s s' : SparseSet α} {os : List SparseSet.Op} {v : List α} (h : s = ⟨v, [v.length]⟩) (e : s.run os = some s') :
    ∃ l ls, SparseSet.AbsRun [v] os (l :: ls) ∧ s'.active.Perm l := by
  have key : ∀ (os : List SparseSet.Op) (s : SparseSet α) (ls : List (List α)), SparseSet.Rel s.vec s.counts ls → ls ≠ [] → s.run os = some s' → ∃ l ls', SparseSet.AbsRun ls os (l :: ls') ∧ s'.active.Perm l := by
    intro os
    induction os with
    | nil =>
      intro s ls h h0 e
      cases e
      cases ls with
      | nil => exact absurd rfl h0
      | cons l ls =>
        obtain ⟨c, cs, e⟩ : ∃ c cs, s'.counts = c :: cs := by
          cases e : s'.counts with
          | nil => rw [e] at h; exact h.elim
          | cons c cs => exact ⟨c, cs, rfl⟩
        rw [e] at h
        refine ⟨l, ls, .nil _, ?_⟩
        unfold SparseSet.active; rw [e]; exact h.2.2.1
    | cons o os ih =>
      intro s ls h h0 e
      simp only [SparseSet.run, Option.bind_eq_some_iff] at e
      obtain ⟨s1, e1, e2⟩ := e
      obtain ⟨ls1, a1, r1⟩ := h.step e1
      have h1 : ls1 ≠ [] := by
        rintro rfl
        obtain ⟨v, cs⟩ := s
        cases cs with
        | nil => cases o <;> cases e1
        | cons c cs => cases ls with
          | nil => exact h0 rfl
          | cons l ls => cases o with
            | save => cases a1
            | remove k => obtain ⟨_, _, e⟩ := a1; cases e
            | restore =>
              cases a1
              cases cs with
              | nil => cases e1
              | cons => exact h.2.2.2.elim
      obtain ⟨l, ls', a2, p⟩ := ih s1 ls1 r1 h1 e2
      exact ⟨l, ls', .cons a1 a2, p⟩
  subst h
  exact key os ⟨v, [v.length]⟩ [v] (show SparseSet.Rel v [v.length] [v] from ⟨Nat.le_refl _, by simp, by rw [List.take_length], trivial⟩) (by simp) e

end

/-! Concrete cases, and runs. -/

namespace Linear.Incremental

/-- Entries 1 and 3 are taken out in an epoch and the next one; then, after both are left, entry 0. The vector is not what it was. -/
example : (SparseSet.mk [10, 11, 12, 13] [4]).run [.save, .remove 1, .save, .remove 1, .restore, .restore, .remove 0] = some ⟨[11, 12, 13, 10], [3]⟩ := by decide +kernel

def kind : Kind Fold Fold := ⟨id, some, fun _ => rfl⟩
/-- Every other call visits the terms in reverse. -/
def inc (h : Nat) : Inc Fold := ⟨kind, h, fun k ts => if k % 2 = 0 then ts else ts.reverse⟩

theorem inc_ok (h : Nat) : (inc h).OK := fun k ts => by
  show (if _ then _ else _ : List Term).Perm ts
  split
  · exact .refl _
  · exact List.reverse_perm ts

theorem fresh {z0 : List Fold} {terms : List WTerm} {h : Nat} {x : List Term × Int} (hx : tidy terms = .ok x) (hz : z0[h]? = some ⟨x.1, 0⟩) : Fresh z0 terms (some (inc h)) := by
  rintro _ ⟨⟩
  refine ⟨inc_ok h, fun t ht => ?_⟩
  rw [hx] at ht; cases ht
  exact hz

def doms : Doms := [[(4, 4)], [(0, 5)], [(2, 3)], [(-1, 7)]]
def ts : List Term := [⟨2, 0⟩, ⟨-1, 1⟩, ⟨3, 2⟩, ⟨1, 3⟩]

/-- A call leaves out the first term, which has the value 8, and then what is last (here, `w`) is first. -/
example : (runProg ⟨0, []⟩ (incremental (μ := Unit) (inc 0) false ts 9) (Sys.start doms [⟨ts, 0⟩] () (Run.setup doms []).watches)).toOption.map (fun p => (p.1, p.2.doms, p.2.top)) =
    some (.val .enableButIdempotent, [[(4, 4)], [(4, 5)], [(2, 2)], [(-1, 0)]], [⟨[⟨1, 3⟩, ⟨-1, 1⟩], 14⟩]) := by decide +kernel

/-! A problem with an equation, and an inequality that is equivalent to `b = 1`, which has a state for either direction: the hypotheses of the theorems in `Props/Stateful.lean` are met. -/
namespace Problem

def root : Doms := [[(0, 2)], [(0, 2)], [(0, 3)], [(0, 1)]]
def sum : List WTerm := [(1, .simple 0), (2, .simple 1), (-1, .simple 2), (1, .const 1)]
def other : List WTerm := [(1, .simple 0), (1, .view 1 true 2), (1, .simple 2)]
def r : Reif := .iffCond (Cond.eq (.simple 3) 1)
def sts : List Fold := [⟨[⟨1, 0⟩, ⟨2, 1⟩, ⟨-1, 2⟩], 0⟩, ⟨[⟨1, 0⟩, ⟨-1, 1⟩, ⟨1, 2⟩], 0⟩, ⟨[⟨-1, 0⟩, ⟨1, 1⟩, ⟨-1, 2⟩], 0⟩]
def equation : Posted Fold Unit := ⟨equalityInc (some (inc 0)) sum 2 .mustHold, fun a => wsum sum a = 2, (varsOf sum).map .simple⟩
def bounded : Posted Fold Unit := ⟨inequalityInc (some (inc 1)) (some (inc 2)) other 2 r, fun a => r.holds (fun a => wsum other a ≤ 2) a, (varsOf other).map .simple ++ r.vars⟩
def cs : List (Posted Fold Unit) := [equation, bounded]
def own (i k : Nat) : Prop := (i = 0 ∧ Owns (some (inc 0)) k) ∨ (i = 1 ∧ (Owns (some (inc 1)) k ∨ Owns (some (inc 2)) k))
def S : Setup Fold Unit := (Setup.create root 0 (cs.map (·.install)) Setup.empty).toOption.getD Setup.empty
def vars : List VarId := [.simple 0, .simple 1, .simple 2, .simple 3]

def env : SearchEnv Fold Unit where
  engine := S.engine
  abort := fun _ => false
  branch := fun _ s => branchWith (dom vars) largestFirst s.doms
  solution := fun _ _ => true
  trace := fun _ _ => true
  minimise := none
  learn := none

theorem valid : ∀ v ∈ vars, v.Valid 4 := by decide

theorem owns {h k : Nat} : Owns (some (inc h)) k ↔ k = h := ⟨fun ⟨_, e, h'⟩ => by cases e; exact h', fun h => ⟨_, rfl, h⟩⟩

theorem problem : ProblemServed 4 3 (· = .overflow) root cs sts own S env vars where
  domsOK := by decide +kernel
  domsLen := rfl
  statesLen := rfl
  overflow := rfl
  constraints i c hc := by
    rcases i with _ | _ | i
    · cases hc
      have := (linearEqualityInc_right (μ := Unit) (n := 4) (m := 3) (R := (· = .overflow)) (root := root) (z0 := sts) (terms := sum) (value := 2) (i := some (inc 0)) rfl (by decide +kernel) rfl
        (by unfold TermsOK sum; decide) (by decide) (fresh (x := ([⟨1, 0⟩, ⟨2, 1⟩, ⟨-1, 2⟩], -1)) (by decide +kernel) rfl)).1
      have e : own 0 = Owns (some (inc 0)) := by funext k; simp [own]
      rw [e]; exact this
    · cases hc
      have := (linearLessThanEqualInc_right (μ := Unit) (n := 4) (m := 3) (R := (· = .overflow)) (root := root) (z0 := sts) (terms := other) (value := 2) (r := r) (i := some (inc 1)) (j := some (inc 2)) rfl (by decide +kernel) rfl
        (by unfold TermsOK other; decide) (by decide) (by decide +kernel) (fresh (x := ([⟨1, 0⟩, ⟨-1, 1⟩, ⟨1, 2⟩], -2)) (by decide +kernel) rfl)
        (fun nt e => by
          have e' : negate other = .ok [(-1, .simple 0), (-1, .view 1 true 2), (-1, .simple 2)] := by decide +kernel
          rw [e'] at e
          cases e
          exact fresh (x := ([⟨-1, 0⟩, ⟨1, 1⟩, ⟨-1, 2⟩], 2)) (by decide +kernel) rfl)
        (fun k h1 h2 => by rw [owns] at h1 h2; omega)).1
      have e : own 1 = fun k => Owns (some (inc 1)) k ∨ Owns (some (inc 2)) k := by funext k; simp [own]
      rw [e]; exact this
    · cases hc
  apart i j k h1 h2 := by
    simp only [own, owns] at h1 h2
    omega
  created := rfl
  branches := ⟨valid, fun _ s hs => by
    have hl : s.doms.length = 4 := hs.call.domsLen
    refine ⟨_, _, rfl, (dom_chooses hs.call.domsOK (by rw [hl]; exact valid)).mono fun _ h => h.picked, fun v hv ho => ?_, largestFirst_guesses⟩
    exact (largestFirst_branches hs.call.domsOK (by rw [hl]; exact valid v hv) ho).mono fun _ h => h.1⟩
  covered c hc x hx v hv := by
    have : v = 0 ∨ v = 1 ∨ v = 2 ∨ v = 3 := by
      simp only [cs, List.mem_cons, List.not_mem_nil, or_false] at hc
      rcases hc with rfl | rfl
      · have hx : x ∈ [VarId.simple 0, .simple 1, .simple 2] := hx
        simp only [List.mem_cons, List.not_mem_nil, or_false] at hx
        rcases hx with rfl | rfl | rfl <;> cases hv <;> simp
      · have hx : x ∈ [VarId.simple 0, .simple 1, .simple 2, .simple 3] := hx
        simp only [List.mem_cons, List.not_mem_nil, or_false] at hx
        rcases hx with rfl | rfl | rfl | rfl <;> cases hv <;> simp
    rcases this with rfl | rfl | rfl | rfl
    · exact ⟨.simple 0, by simp [vars], rfl⟩
    · exact ⟨.simple 1, by simp [vars], rfl⟩
    · exact ⟨.simple 2, by simp [vars], rfl⟩
    · exact ⟨.simple 3, by simp [vars], rfl⟩
  objective o ho := nomatch ho
  monotone i j _ h := nomatch h

def solutions : List Doms := [[[(0, 0)], [(1, 1)], [(1, 1)], [(1, 1)]], [[(2, 2)], [(1, 1)], [(3, 3)], [(0, 0)]], [[(2, 2)], [(0, 0)], [(1, 1)], [(0, 0)]], [[(1, 1)], [(1, 1)], [(2, 2)], [(0, 0)]],
  [[(1, 1)], [(0, 0)], [(0, 0)], [(0, 0)]], [[(0, 0)], [(2, 2)], [(3, 3)], [(0, 0)]]]

theorem runs : ∃ res has s' t, solve env S 14 1 none (Sys.start root sts () S.watches) = .ok ((res, has, s', t), true) ∧ t.found = solutions := by
  have h : (match solve env S 14 1 none (Sys.start root sts () S.watches) with
    | .ok ((_, _, _, t), true) => decide (t.found = solutions)
    | _ => false) = true := by decide +kernel
  split at h
  · exact ⟨_, _, _, _, by assumption, of_decide_eq_true h⟩
  · cases h

/-- So there are no other solutions. -/
example : ∀ a, (∀ c ∈ cs, c.holds a) ∧ Within root a → ∃ d ∈ solutions, Within d a := by
  obtain ⟨res, has, s', t, h, hf⟩ := runs
  intro a ha
  obtain ⟨i, d, hd, hw, _⟩ := ((stateful_enumerates problem rfl rfl (depthFuel := 14) (fuel := 1) (by decide) (by decide) rfl h).1 a).1 ha
  rw [hf] at hd
  exact ⟨d, List.mem_of_getElem? hd, hw⟩

end Problem
end Linear.Incremental
end Gcs
