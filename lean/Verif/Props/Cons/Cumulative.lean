import Verif.Spec.Cumulative
import Verif.Lemmas.Cons.CumulativePost
import Verif.Props.Cons.Run
import Verif.Props.Stateful

/-!
# C61: Cumulative
-/

namespace Gcs
open IntervalSet

/-- Whether the task `i` is there, given the presences if there are any. -/
def attends (ps : Option (List VarId)) (a : Asg) (i : Nat) : Bool := ps.all fun ps => decide ((ps.getD i (.const 1)).eval a = 1)

/-- The tasks that are there: the one at `i` starts at `ss[i]`, takes `ls[i]` and uses `hs[i]`. -/
def activities (ss ls hs : List VarId) (ps : Option (List VarId)) (a : Asg) : List Activity :=
  ((List.range ss.length).filter (attends ps a)).map fun i => ⟨(ss.getD i (.const 0)).eval a, (ls.getD i (.const 0)).eval a, (hs.getD i (.const 0)).eval a⟩

/-- The presences, or none. -/
def optional (ss : List VarId) (ps : Option (List VarId)) : List (Option VarId) := (ps.map (·.map some)).getD (ss.map fun _ => none)

section
variable {σ μ : Type} {m : Nat} {R : Err → Prop} {root : Doms} {ss ls hs : List VarId} {ps : Option (List VarId)} {capacity : VarId} {z0 : List σ} {rules : Cumulative.Rules}

open Cumulative (Task tot use Low)

theorem usage_tasks {a : Asg} {u : Int} : ∀ {ss ls hs : List VarId} {po : List (Option VarId)} {f : Nat → Bool}, ss.length = ls.length → ss.length = hs.length → ss.length = po.length →
    (∀ i, i < ss.length → (f i = true ↔ ∀ p, po.getD i none = some p → p.eval a = 1)) →
    usage (((List.range ss.length).filter f).map fun i => ⟨(ss.getD i (.const 0)).eval a, (ls.getD i (.const 0)).eval a, (hs.getD i (.const 0)).eval a⟩) u = tot (use a u) (Cumulative.tasks ss ls hs po)
  | [], _, _, _, _, _, _, _, _ => by simp [Cumulative.tasks, usage]
  | s :: ss, [], _, _, _, h, _, _, _ => by simp at h
  | s :: ss, _ :: _, [], _, _, _, h, _, _ => by simp at h
  | s :: ss, _ :: _, _ :: _, [], _, _, _, h, _ => by simp at h
  | s :: ss, l :: ls, h :: hs, p :: po, f, h1, h2, h3, hf => by
    have ih := usage_tasks (a := a) (u := u) (ss := ss) (ls := ls) (hs := hs) (po := po) (f := fun i => f (i + 1)) (by simpa using h1) (by simpa using h2) (by simpa using h3)
      fun i hi => hf (i + 1) (by simpa using hi)
    have h0 := hf 0 (by simp)
    rw [Cumulative.tasks, Cumulative.tot_cons, ← ih, List.length_cons, List.range_succ_eq_map, List.filter_cons, List.filter_map]
    have e : use a u ⟨s, l, h, p⟩ = if f 0 = true ∧ (⟨s.eval a, l.eval a, h.eval a⟩ : Activity).Runs u then h.eval a else 0 := by
      unfold use Activity.Runs
      by_cases k : f 0 = true ∧ s.eval a ≤ u ∧ u < s.eval a + l.eval a
      · rw [if_pos k, if_pos ⟨h0.1 k.1, k.2⟩]
      · rw [if_neg k, if_neg fun k' => k ⟨h0.2 k'.1, k'.2⟩]
    rw [e]
    have tail : ∀ x : List Activity, usage (x ++ ((((List.range ss.length).filter fun i => f (i + 1)).map Nat.succ).map fun i => ⟨((s :: ss).getD i (.const 0)).eval a, ((l :: ls).getD i (.const 0)).eval a, ((h :: hs).getD i (.const 0)).eval a⟩)) u =
        usage x u + usage (((List.range ss.length).filter fun i => f (i + 1)).map fun i => ⟨(ss.getD i (.const 0)).eval a, (ls.getD i (.const 0)).eval a, (hs.getD i (.const 0)).eval a⟩) u := fun x => by
      rw [List.map_map]
      simp only [usage, List.filter_append, List.map_append, List.sum_append]
      rfl
    cases h' : f 0 with
    | true =>
      rw [if_pos rfl]
      refine (tail [⟨s.eval a, l.eval a, h.eval a⟩]).trans ?_
      congr 1
      by_cases k : (⟨s.eval a, l.eval a, h.eval a⟩ : Activity).Runs u
      · rw [if_pos ⟨rfl, k⟩]; simp [usage, k]
      · rw [if_neg fun h => k h.2]; simp [usage, k]
    | false =>
      rw [if_neg (by decide), if_neg (by simp)]
      exact tail []

theorem mem_tasks {t : Task} : ∀ {ss ls hs : List VarId} {po : List (Option VarId)}, t ∈ Cumulative.tasks ss ls hs po → t.start ∈ ss ∧ t.length ∈ ls ∧ t.height ∈ hs ∧ t.presence ∈ po
  | s :: ss, l :: ls, h :: hs, p :: po, ht => by
    rw [Cumulative.tasks] at ht
    rcases List.mem_cons.1 ht with rfl | ht
    · simp
    · have := mem_tasks ht
      exact ⟨List.mem_cons_of_mem _ this.1, List.mem_cons_of_mem _ this.2.1, List.mem_cons_of_mem _ this.2.2.1, List.mem_cons_of_mem _ this.2.2.2⟩
  | [], _, _, _, ht => by simp [Cumulative.tasks] at ht
  | _ :: _, [], _, _, ht => by simp [Cumulative.tasks] at ht
  | _ :: _, _ :: _, [], _, ht => by simp [Cumulative.tasks] at ht
  | _ :: _, _ :: _, _ :: _, [], ht => by simp [Cumulative.tasks] at ht

theorem mem_optional {p : VarId} : some p ∈ optional ss ps ↔ ∃ l, ps = some l ∧ p ∈ l := by
  cases ps with
  | none => simp [optional]
  | some l => simp [optional]

/-- As many of everything. -/
def SameSize (ss ls hs : List VarId) (ps : Option (List VarId)) : Prop := ss.length = ls.length ∧ ss.length = hs.length ∧ ∀ l, ps = some l → ss.length = l.length

theorem optional_length (h : SameSize ss ls hs ps) : ss.length = (optional ss ps).length := by
  cases ps with
  | none => simp [optional]
  | some l => simpa [optional] using h.2.2 l rfl

theorem low_fits (h : SameSize ss ls hs ps) : Low (Cumulative.tasks ss ls hs (optional ss ps)) capacity = fun a => Supplied (activities ss ls hs ps a) (capacity.eval a) := by
  funext a
  have key : ∀ u, usage (activities ss ls hs ps a) u = tot (use a u) (Cumulative.tasks ss ls hs (optional ss ps)) := fun u => by
    refine usage_tasks h.1 h.2.1 (optional_length h) fun i hi => ?_
    cases ps with
    | none => simp [attends, optional, List.getD_eq_getElem?_getD, hi]
    | some l =>
      have hl : i < l.length := by have := h.2.2 l rfl; omega
      simp [attends, optional, List.getD_eq_getElem?_getD, hl]
  simp only [Low, Supplied, key]

theorem install_eq (h : SameSize ss ls hs ps) : Cumulative.install (σ := σ) (μ := μ) rules ss ls hs ps capacity root = Cumulative.installTasks rules (Cumulative.tasks ss ls hs (optional ss ps)) capacity root := by
  unfold Cumulative.install
  rw [if_neg]
  · rfl
  · rintro (k | k | k)
    · exact k h.1
    · exact k h.2.1
    · cases ps with
      | none => cases k
      | some l => exact of_decide_eq_true k (h.2.2 l rfl)

theorem install_size (h : ¬ SameSize ss ls hs ps) : Cumulative.install (σ := σ) (μ := μ) rules ss ls hs ps capacity root = .error .invalidProblem := by
  unfold Cumulative.install
  rw [if_pos]
  refine Classical.byContradiction fun k => h ⟨?_, ?_, fun l e => ?_⟩
  · exact Classical.byContradiction fun k' => k (.inl k')
  · exact Classical.byContradiction fun k' => k (.inr (.inl k'))
  · subst e
    exact Classical.byContradiction fun k' => k (.inr (.inr (decide_eq_true k')))

theorem tasks_valid (hv : ∀ v ∈ ss ++ ls ++ hs ++ ps.getD [], v.Valid root.length) : ∀ t ∈ Cumulative.tasks ss ls hs (optional ss ps), t.Valid root.length := fun t ht => by
  have := mem_tasks ht
  refine ⟨hv _ (by simp [this]), hv _ (by simp [this]), hv _ (by simp [this]), fun p hp => ?_⟩
  rw [hp] at this
  obtain ⟨l, e, hl⟩ := mem_optional.1 this.2.2.2
  exact hv _ (by simp [e, hl])

/-- C61: `Cumulative(starts, lengths, heights, capacity)`, and `Cumulative(starts, lengths, heights, presences, capacity)` where some tasks may not be there, with the overload check and its use of the profile
on or off: what is installed is right, whatever is repeated. At no time, even outside of what the domains say, do the tasks there use more than the capacity. It keeps no constraint state. Posting throws only if there are not as many of everything, or a length, a
height or the capacity may be negative, or a presence may be something else than 0 and 1, or something is not a 64-bit integer. What is missing: the seven rules that are off by default, and `time_table = false`, for which
this does not hold (`Cumulative.Demo.needs_timeTable`). -/
theorem cumulative_right_partial (ho : R .overflow) (hd : DomsOK root) (hv : ∀ v ∈ ss ++ ls ++ hs ++ ps.getD [], v.Valid root.length) (hc : capacity.Valid root.length) (hT : rules.timeTable = true) :
    (Posted.mk (Cumulative.install (σ := σ) (μ := μ) rules ss ls hs ps capacity) (fun a => Supplied (activities ss ls hs ps a) (capacity.eval a)) (ss ++ ls ++ hs ++ ps.getD [] ++ [capacity])).Serves root.length m R root z0 (fun _ => False) ∧
    ∀ e, Cumulative.install (σ := σ) (μ := μ) rules ss ls hs ps capacity root = .error e → e = .overflow ∨
      (e = .invalidProblem ∧ (¬ SameSize ss ls hs ps ∨ (∃ v ∈ ls ++ hs ++ [capacity], ∃ a, Within root a ∧ v.eval a < 0) ∨ ∃ p ∈ ps.getD [], ∃ a, Within root a ∧ ¬ (p.eval a = 0 ∨ p.eval a = 1))) := by
  by_cases hlen : SameSize ss ls hs ps
  · have e := install_eq (σ := σ) (μ := μ) (rules := rules) (capacity := capacity) (root := root) hlen
    have key := Cumulative.installTasks_ok (σ := σ) (μ := μ) (m := m) (R := R) (z0 := z0) ho hd (tasks_valid hv) hc hT
    rw [← e] at key
    refine ⟨fun items h => ?_, fun e' h => ?_⟩
    · have h : Cumulative.install (σ := σ) (μ := μ) rules ss ls hs ps capacity root = .ok items := h
      rw [h] at key
      rcases key with k | ⟨k, _⟩ | ⟨items', k, ⟨I, es, h1, h2⟩, _⟩
      · cases k
      · cases k
      · cases k
        refine ⟨I, es, h1, ?_⟩
        show Served _ _ _ _ _ _ _ (fun a => Supplied (activities ss ls hs ps a) (capacity.eval a)) _ _
        rw [← low_fits hlen]
        refine h2.about fun x hx => ?_
        rcases List.mem_append.1 hx with hx | hx
        · obtain ⟨t, ht, hx⟩ := List.mem_flatMap.1 hx
          have := mem_tasks ht
          simp only [Cumulative.Task.vars, List.mem_append, List.mem_cons, List.not_mem_nil, or_false, Option.mem_toList] at hx
          rcases hx with (rfl | rfl | rfl) | hx
          · simp [this]
          · simp [this]
          · simp [this]
          · rw [hx] at this
            obtain ⟨l, e, hl⟩ := mem_optional.1 this.2.2.2
            simp [e, hl]
        · simp [List.mem_singleton.1 hx]
    · rw [h] at key
      rcases key with k | ⟨k, k'⟩ | ⟨_, k, _⟩
      · cases k; exact .inl rfl
      · cases k
        refine .inr ⟨rfl, .inr ?_⟩
        rcases k' with ⟨t, ht, a, ha, hn⟩ | ⟨a, ha, hn⟩ | ⟨t, ht, p, a, hp, ha, hn⟩
        · have := mem_tasks ht
          rcases hn with hn | hn
          · exact .inl ⟨t.length, by simp [this], a, ha, hn⟩
          · exact .inl ⟨t.height, by simp [this], a, ha, hn⟩
        · exact .inl ⟨capacity, by simp, a, ha, hn⟩
        · have := mem_tasks ht
          rw [hp] at this
          obtain ⟨l, e, hl⟩ := mem_optional.1 this.2.2.2
          exact .inr ⟨p, by simp [e, hl], a, ha, by omega⟩
      · cases k
  · have e := install_size (σ := σ) (μ := μ) (rules := rules) (capacity := capacity) (root := root) hlen
    refine ⟨fun items h => ?_, fun e' h => ?_⟩
    · have h : Cumulative.install (σ := σ) (μ := μ) rules ss ls hs ps capacity root = .ok items := h
      rw [e] at h; cases h
    · rw [e] at h; cases h
      exact .inr ⟨rfl, .inl hlen⟩

/-- C61: what is accepted has vectors of the same size, lengths, heights and a capacity that cannot be negative, and presences that are 0 or 1. -/
theorem cumulative_refuses {items : List (Item σ μ)} (hd : DomsOK root) (hv : ∀ v ∈ ss ++ ls ++ hs ++ ps.getD [], v.Valid root.length) (hc : capacity.Valid root.length) (hT : rules.timeTable = true)
    (h : Cumulative.install rules ss ls hs ps capacity root = .ok items) :
    SameSize ss ls hs ps ∧ (∀ v ∈ ls ++ hs ++ [capacity], ∀ a, Within root a → 0 ≤ v.eval a) ∧ ∀ p ∈ ps.getD [], ∀ a, Within root a → p.eval a = 0 ∨ p.eval a = 1 := by
  by_cases hlen : SameSize ss ls hs ps
  · have key := Cumulative.installTasks_ok (σ := σ) (μ := μ) (m := 0) (R := fun _ => True) (z0 := []) trivial hd (tasks_valid hv) hc hT
    rw [← install_eq hlen, h] at key
    rcases key with k | ⟨k, _⟩ | ⟨items', _, _, k1, k2⟩
    · cases k
    · cases k
    · have l3 := optional_length hlen
      refine ⟨hlen, fun v hm a ha => ?_, fun p hp a ha => ?_⟩
      · rcases List.mem_append.1 hm with hm | hm
        · obtain ⟨t, ht, e⟩ : ∃ t ∈ Cumulative.tasks ss ls hs (optional ss ps), v = t.length ∨ v = t.height := by
            rcases List.mem_append.1 hm with hm' | hm'
            · exact exists_size hlen.1 hlen.2.1 l3 (.inl hm')
            · exact exists_size hlen.1 hlen.2.1 l3 (.inr hm')
          have : ¬ (t.length.eval a < 0 ∨ t.height.eval a < 0) := fun h => (k1 t ht).1 ⟨a, ha, h⟩
          rcases e with rfl | rfl <;> omega
        · rw [List.mem_singleton.1 hm]; exact k2 a ha
      · cases ps with
        | none => cases hp
        | some l =>
          obtain ⟨t, ht, e⟩ := exists_presence hlen.1 hlen.2.1 l3 (mem_optional.2 ⟨l, rfl, hp⟩)
          refine Classical.byContradiction fun hn => (k1 t ht).2 ⟨p, a, e, ha, by omega⟩
  · rw [install_size hlen] at h; cases h
where
  exists_size {v : VarId} : ∀ {ss ls hs : List VarId} {po : List (Option VarId)}, ss.length = ls.length → ss.length = hs.length → ss.length = po.length → v ∈ ls ∨ v ∈ hs → ∃ t ∈ Cumulative.tasks ss ls hs po, v = t.length ∨ v = t.height
    | [], [], [], [], _, _, _, hm => by simp at hm
    | s :: ss, l :: ls, h :: hs, p :: po, h1, h2, h3, hm => by
      rw [Cumulative.tasks]
      by_cases e : v = l ∨ v = h
      · exact ⟨_, List.mem_cons_self, e⟩
      · have e1 : v ≠ l := fun h => e (.inl h)
        have e2 : v ≠ h := fun h => e (.inr h)
        obtain ⟨r, hr, h⟩ := exists_size (v := v) (ss := ss) (ls := ls) (hs := hs) (po := po) (by simpa using h1) (by simpa using h2) (by simpa using h3) (by simpa [e1, e2] using hm)
        exact ⟨r, List.mem_cons_of_mem _ hr, h⟩
  exists_presence {v : VarId} : ∀ {ss ls hs : List VarId} {po : List (Option VarId)}, ss.length = ls.length → ss.length = hs.length → ss.length = po.length → some v ∈ po → ∃ t ∈ Cumulative.tasks ss ls hs po, t.presence = some v
    | [], [], [], [], _, _, _, hm => by simp at hm
    | s :: ss, l :: ls, h :: hs, p :: po, h1, h2, h3, hm => by
      rw [Cumulative.tasks]
      by_cases e : p = some v
      · exact ⟨_, List.mem_cons_self, e⟩
      · have e1 : some v ≠ p := fun h => e h.symm
        obtain ⟨r, hr, h⟩ := exists_presence (v := v) (ss := ss) (ls := ls) (hs := hs) (po := po) (by simpa using h1) (by simpa using h2) (by simpa using h3) (by simpa [e1] using hm)
        exact ⟨r, List.mem_cons_of_mem _ hr, h⟩

end

namespace Cumulative.Demo

/-- Three tasks: the second need not be there and has a variable length, and the start of the third is a view of the start of the first. -/
def root : Doms := [[(0, 2)], [(0, 1)], [(1, 2)]]
def ss : List VarId := [.simple 0, .const 1, .view 0 true 2]
def ls : List VarId := [.const 2, .simple 2, .const 1]
def hs : List VarId := [.const 2, .const 1, .const 1]
def ps : List VarId := [.const 1, .simple 1, .const 1]

example (overload profile : Bool) : (Posted.mk (install (μ := Unit) { overload, profile } ss ls hs (some ps) (.const 2)) (fun a => Supplied (activities ss ls hs (some ps) a) 2) (ss ++ ls ++ hs ++ ps ++ [.const 2])).Serves 3 0 (· = .overflow) root ([] : List Unit) (fun _ => False) :=
  (cumulative_right_partial (R := (· = .overflow)) (root := root) (ss := ss) (ls := ls) (hs := hs) (ps := some ps) (capacity := .const 2) (rules := { overload, profile }) rfl (by decide +kernel) (by decide +kernel) (by decide +kernel) rfl).1

/-- The solutions, where the second one may not be there, and where it is. -/
example : Run.run root [install (μ := Unit) {} ss ls hs (some ps) (.const 2)] =
    some ([[[(0, 0)], [(0, 0)], [(1, 1)]], [[(2, 2)], [(0, 0)], [(1, 1)]], [[(0, 0)], [(0, 0)], [(2, 2)]], [[(2, 2)], [(0, 0)], [(2, 2)]], [[(2, 2)], [(1, 1)], [(1, 1)]]], true) := by decide +kernel
example : Run.run root [install (μ := Unit) {} ss ls hs none (.const 2)] = some ([[[(2, 2)], [(0, 0)], [(1, 1)]], [[(2, 2)], [(1, 1)], [(1, 1)]]], true) := by decide +kernel

/-- What is wrong with the other starts. -/
example : ¬ Supplied [⟨1, 2, 2⟩, ⟨1, 1, 1⟩] 2 := fun h => absurd (h 1) (by decide)

/-- C61: "turning one off weakens propagation but never changes the solutions found" is wrong. Two tasks of length and height 1, a capacity of 1, where the second one starts at 0: without the time table, both may start at 0. -/
theorem needs_timeTable :
    Run.run [[(0, 1)]] [install (μ := Unit) {} [.simple 0, .const 0] [.const 1, .const 1] [.const 1, .const 1] none (.const 1)] = some ([[[(1, 1)]]], true) ∧
    Run.run [[(0, 1)]] [install (μ := Unit) { timeTable := false } [.simple 0, .const 0] [.const 1, .const 1] [.const 1, .const 1] none (.const 1)] = some ([[[(0, 0)]], [[(1, 1)]]], true) ∧
    ¬ Supplied (activities [.simple 0, .const 0] [.const 1, .const 1] [.const 1, .const 1] none (fun _ => 0)) 1 :=
  ⟨by decide +kernel, by decide +kernel, fun h => absurd (h 0) (by decide)⟩

/-- The overload check finds what the time table does not: three tasks between 0 and 4 that need five units of time. -/
example : Run.run [[(0, 2)], [(0, 2)], [(0, 3)]] [install (μ := Unit) {} [.simple 0, .simple 1, .simple 2] [.const 2, .const 2, .const 1] [.const 1, .const 1, .const 1] none (.const 1)] = some ([], true) := by decide +kernel

/-- Vectors of different sizes, a capacity that may be negative, and presences that may be 2 are refused. -/
example : (install (σ := Unit) (μ := Unit) {} ss ls hs (some [.const 1]) (.const 2) root).map List.length = .error .invalidProblem := by decide +kernel
example : (install (σ := Unit) (μ := Unit) {} ss ls hs none (.view 0 true 1) root).map List.length = .error .invalidProblem := by decide +kernel
example : (install (σ := Unit) (μ := Unit) {} ss ls hs (some [.const 1, .simple 2, .const 1]) (.const 2) root).map List.length = .error .invalidProblem := by decide +kernel

end Cumulative.Demo
end Gcs
