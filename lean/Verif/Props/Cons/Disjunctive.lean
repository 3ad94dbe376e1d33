import Verif.Spec.Disjunctive
import Verif.Lemmas.Cons.DisjunctiveInstall
import Verif.Props.Cons.Cumulative

/-!
# C62: Disjunctive
-/

namespace Gcs
open IntervalSet

/-- The tasks that are there: the one at `i` starts at `ss[i]` and takes `ls[i]`. -/
def stretches (ss ls : List VarId) (ps : Option (List VarId)) (a : Asg) : List Stretch :=
  ((List.range ss.length).filter (attends ps a)).map fun i => ⟨(ss.getD i (.const 0)).eval a, (ls.getD i (.const 0)).eval a⟩

/-- As many starts as lengths, and presences if there are any. -/
def SameCount (ss ls : List VarId) (ps : Option (List VarId)) : Prop := ss.length = ls.length ∧ ∀ l, ps = some l → ss.length = l.length

namespace Disjunctive
section
variable {σ μ : Type} {m : Nat} {R : Err → Prop} {root : Doms} {ss ls : List VarId} {ps : Option (List VarId)} {z0 : List σ} {rules : Rules} {strict : Bool}

open Cumulative (Task)

/-- The heights. -/
abbrev ones (ls : List VarId) : List VarId := ls.map fun _ => .const 1

theorem SameCount.size (h : SameCount ss ls ps) : SameSize ss ls (ones ls) ps := ⟨h.1, by simpa using h.1, h.2⟩

/-- Whether it is there. -/
def here (a : Asg) (t : Task) : Bool := t.presence.all fun p => decide (p.eval a = 1)

theorem here_iff {a : Asg} {t : Task} : here a t = true ↔ t.Here a := by
  unfold here Task.Here
  cases t.presence <;> simp

theorem stretches_tasks {a : Asg} : ∀ {ss ls : List VarId} {po : List (Option VarId)} {f : Nat → Bool}, ss.length = ls.length → ss.length = po.length →
    (∀ i, i < ss.length → f i = (po.getD i none).all fun p => decide (p.eval a = 1)) →
    ((List.range ss.length).filter f).map (fun i => (⟨(ss.getD i (.const 0)).eval a, (ls.getD i (.const 0)).eval a⟩ : Stretch)) =
      ((Cumulative.tasks ss ls (ones ls) po).filter (here a)).map fun t => ⟨t.start.eval a, t.length.eval a⟩
  | [], _, _, _, _, _, _ => by simp [Cumulative.tasks]
  | s :: ss, [], _, _, h, _, _ => by simp at h
  | s :: ss, _ :: _, [], _, _, h, _ => by simp at h
  | s :: ss, l :: ls, p :: po, f, h1, h2, hf => by
    have ih := stretches_tasks (a := a) (ss := ss) (ls := ls) (po := po) (f := fun i => f (i + 1)) (by simpa using h1) (by simpa using h2) fun i hi => hf (i + 1) (by simpa using hi)
    have h0 : f 0 = p.all fun p => decide (p.eval a = 1) := hf 0 (by simp)
    have e : here a ⟨s, l, .const 1, p⟩ = f 0 := h0.symm
    have tail : (((List.range ss.length).filter fun i => f (i + 1)).map Nat.succ).map (fun i => (⟨((s :: ss).getD i (.const 0)).eval a, ((l :: ls).getD i (.const 0)).eval a⟩ : Stretch)) =
        ((Cumulative.tasks ss ls (ones ls) po).filter (here a)).map fun t => ⟨t.start.eval a, t.length.eval a⟩ := by
      rw [List.map_map, ← ih]
      rfl
    rw [ones, List.map_cons, Cumulative.tasks, List.length_cons, List.range_succ_eq_map, List.filter_cons, List.filter_map, List.filter_cons, e]
    cases f 0 with
    | true =>
      rw [if_pos rfl, if_pos rfl, List.map_cons, List.map_cons]
      exact congrArg _ tail
    | false =>
      rw [if_neg (by decide), if_neg (by decide)]
      exact tail

theorem alone_iff (h : SameCount ss ls ps) : Alone strict (Cumulative.tasks ss ls (ones ls) (optional ss ps)) = fun a => OneAtATime strict (stretches ss ls ps a) := by
  funext a
  have e : stretches ss ls ps a = _ := stretches_tasks h.1 (optional_length (SameCount.size h)) fun i hi => by
    cases ps with
    | none => simp [attends, optional, List.getD_eq_getElem?_getD, hi]
    | some l =>
      have hl : i < l.length := by have := h.2 l rfl; omega
      simp [attends, optional, List.getD_eq_getElem?_getD, hl]
  rw [e]
  unfold OneAtATime Alone
  rw [List.pairwise_map, List.pairwise_filter]
  have same : Sep strict a = fun s t : Task => here a s = true → here a t = true →
      (strict = false ∧ (s.length.eval a = 0 ∨ t.length.eval a = 0)) ∨ (⟨s.start.eval a, s.length.eval a⟩ : Stretch).Apart ⟨t.start.eval a, t.length.eval a⟩ := by
    funext s t
    rw [here_iff, here_iff]
    rfl
  rw [same]

theorem install_eq (h : SameCount ss ls ps) : install (σ := σ) (μ := μ) strict rules ss ls ps root = installTasks strict rules (Cumulative.tasks ss ls (ones ls) (optional ss ps)) root := by
  unfold install
  rw [if_neg]
  · rfl
  · rintro (k | k)
    · exact k h.1
    · cases ps with
      | none => cases k
      | some l => exact of_decide_eq_true k (h.2 l rfl)

theorem install_size (h : ¬ SameCount ss ls ps) : install (σ := σ) (μ := μ) strict rules ss ls ps root = .error .invalidProblem := by
  unfold install
  rw [if_pos]
  refine Classical.byContradiction fun k => h ⟨?_, fun l e => ?_⟩
  · exact Classical.byContradiction fun k' => k (.inl k')
  · subst e
    exact Classical.byContradiction fun k' => k (.inr (decide_eq_true k'))

theorem plain_ones : Plain (Cumulative.tasks ss ls (ones ls) (optional ss ps)) := fun t ht => by
  obtain ⟨_, _, e⟩ := List.mem_map.1 (mem_tasks ht).2.2.1
  exact e.symm

theorem valid_ones (hv : ∀ v ∈ ss ++ ls ++ ps.getD [], v.Valid root.length) : ∀ t ∈ Cumulative.tasks ss ls (ones ls) (optional ss ps), t.Valid root.length := by
  refine tasks_valid fun v hm => ?_
  simp only [List.mem_append, List.mem_map] at hm
  rcases hm with ((hm | hm) | ⟨_, _, rfl⟩) | hm
  · exact hv v (by simp [hm])
  · exact hv v (by simp [hm])
  · exact (by decide : InI64 1)
  · exact hv v (by simp [hm])

end
end Disjunctive

section
variable {σ μ : Type} {m : Nat} {R : Err → Prop} {root : Doms} {ss ls : List VarId} {ps : Option (List VarId)} {z0 : List σ} {rules : Disjunctive.Rules} {strict : Bool}
open Disjunctive

/-- C62: `Disjunctive(starts, lengths)`, and `Disjunctive(starts, lengths, presences)` where some tasks may not be there, strict or not, with time tables and detectable precedences on or off: what is installed is right,
whatever is repeated. No two tasks that are there overlap; and unless it is strict, those that take no time do not count. It keeps no constraint state. Posting throws only if there are not as many of everything, or a
length may be negative, or a presence may be something else than 0 and 1, or something is not a 64-bit integer. What is missing: the rules that are off by default. -/
theorem disjunctive_right_partial (ho : R .overflow) (hd : DomsOK root) (hv : ∀ v ∈ ss ++ ls ++ ps.getD [], v.Valid root.length) :
    (Posted.mk (install (σ := σ) (μ := μ) strict rules ss ls ps) (fun a => OneAtATime strict (stretches ss ls ps a)) (ss ++ ls ++ ps.getD [])).Serves root.length m R root z0 (fun _ => False) ∧
    ∀ e, install (σ := σ) (μ := μ) strict rules ss ls ps root = .error e → e = .overflow ∨
      (e = .invalidProblem ∧ (¬ SameCount ss ls ps ∨ (∃ v ∈ ls, ∃ a, Within root a ∧ v.eval a < 0) ∨ ∃ p ∈ ps.getD [], ∃ a, Within root a ∧ ¬ (p.eval a = 0 ∨ p.eval a = 1))) := by
  by_cases hlen : SameCount ss ls ps
  · have key := installTasks_ok (σ := σ) (μ := μ) (m := m) (R := R) (z0 := z0) (strict := strict) (rules := rules) ho hd plain_ones (valid_ones hv)
    rw [← Disjunctive.install_eq hlen] at key
    refine ⟨fun items h => ?_, fun e' h => ?_⟩
    · have h : install (σ := σ) (μ := μ) strict rules ss ls ps root = .ok items := h
      rw [h] at key
      rcases key with k | ⟨k, _⟩ | ⟨items', k, ⟨I, es, h1, h2⟩, _⟩
      · cases k
      · cases k
      · cases k
        refine ⟨I, es, h1, ?_⟩
        show Served _ _ _ _ _ _ _ (fun a => OneAtATime strict (stretches ss ls ps a)) _ _
        rw [← alone_iff hlen]
        refine h2.about fun x hx => ?_
        obtain ⟨t, ht, hx⟩ := List.mem_flatMap.1 hx
        have := mem_tasks ht
        simp only [Disjunctive.vars, List.mem_append, List.mem_cons, List.not_mem_nil, or_false, Option.mem_toList] at hx
        rcases hx with (rfl | rfl) | hx
        · simp [this]
        · simp [this]
        · rw [hx] at this
          obtain ⟨l, e, hl⟩ := mem_optional.1 this.2.2.2
          simp [e, hl]
    · rw [h] at key
      rcases key with k | ⟨k, k'⟩ | ⟨_, k, _⟩
      · cases k; exact .inl rfl
      · cases k
        refine .inr ⟨rfl, .inr ?_⟩
        rcases k' with ⟨t, ht, a, ha, hn⟩ | ⟨t, ht, p, a, hp, ha, hn⟩
        · exact .inl ⟨t.length, (mem_tasks ht).2.1, a, ha, hn⟩
        · have := mem_tasks ht
          rw [hp] at this
          obtain ⟨l, e, hl⟩ := mem_optional.1 this.2.2.2
          exact .inr ⟨p, by simp [e, hl], a, ha, by omega⟩
      · cases k
  · have e := Disjunctive.install_size (σ := σ) (μ := μ) (rules := rules) (strict := strict) (root := root) hlen
    refine ⟨fun items h => ?_, fun e' h => ?_⟩
    · have h : install (σ := σ) (μ := μ) strict rules ss ls ps root = .ok items := h
      rw [e] at h; cases h
    · rw [e] at h; cases h
      exact .inr ⟨rfl, .inl hlen⟩
/-- C62: what is accepted has vectors of the same size, lengths that cannot be negative, and presences that are 0 or 1. -/
theorem disjunctive_refuses {items : List (Item σ μ)} (hd : DomsOK root) (hv : ∀ v ∈ ss ++ ls ++ ps.getD [], v.Valid root.length) (h : install strict rules ss ls ps root = .ok items) :
    SameCount ss ls ps ∧ (∀ v ∈ ls, ∀ a, Within root a → 0 ≤ v.eval a) ∧ ∀ p ∈ ps.getD [], ∀ a, Within root a → p.eval a = 0 ∨ p.eval a = 1 := by
  by_cases hlen : SameCount ss ls ps
  · have key := installTasks_ok (σ := σ) (μ := μ) (m := 0) (R := fun _ => True) (z0 := []) (strict := strict) (rules := rules) trivial hd plain_ones (valid_ones hv)
    rw [← Disjunctive.install_eq hlen, h] at key
    rcases key with k | ⟨k, _⟩ | ⟨items', _, _, k1⟩
    · cases k
    · cases k
    · have size := SameCount.size hlen
      have l3 := optional_length size
      refine ⟨hlen, fun v hm a ha => ?_, fun p hp a ha => ?_⟩
      · obtain ⟨t, ht, e⟩ := exists_length hlen.1 l3 hm
        have : ¬ t.length.eval a < 0 := fun h => (k1 t ht).1 ⟨a, ha, h⟩
        rw [e] at this
        omega
      · cases ps with
        | none => cases hp
        | some l =>
          obtain ⟨t, ht, e⟩ := cumulative_refuses.exists_presence size.1 size.2.1 l3 (mem_optional.2 ⟨l, rfl, hp⟩)
          refine Classical.byContradiction fun hn => (k1 t ht).2 ⟨p, a, e, ha, by omega⟩
  · rw [Disjunctive.install_size hlen] at h; cases h
where
  exists_length {v : VarId} : ∀ {ss ls : List VarId} {po : List (Option VarId)}, ss.length = ls.length → ss.length = po.length → v ∈ ls → ∃ t ∈ Cumulative.tasks ss ls (ones ls) po, t.length = v
    | [], [], [], _, _, hm => by simp at hm
    | s :: ss, l :: ls, p :: po, h1, h2, hm => by
      rw [ones, List.map_cons, Cumulative.tasks]
      rcases List.mem_cons.1 hm with rfl | hm
      · exact ⟨_, List.mem_cons_self, rfl⟩
      · obtain ⟨r, hr, h⟩ := exists_length (v := v) (ss := ss) (ls := ls) (po := po) (by simpa using h1) (by simpa using h2) hm
        exact ⟨r, List.mem_cons_of_mem _ hr, h⟩

end

namespace Disjunctive.Demo

/-- Three tasks: the second need not be there and has a variable length that may be 0, and the start of the third is a view of the start of the first. -/
def root : Doms := [[(0, 3)], [(0, 1)], [(0, 2)]]
def ss : List VarId := [.simple 0, .const 1, .view 0 true 3]
def ls : List VarId := [.const 2, .simple 2, .const 1]
def ps : List VarId := [.const 1, .simple 1, .const 1]

example (strict timeTable detectable : Bool) : (Posted.mk (install (μ := Unit) strict { timeTable, detectable } ss ls (some ps)) (fun a => OneAtATime strict (stretches ss ls (some ps) a)) (ss ++ ls ++ ps)).Serves 3 0 (· = .overflow) root ([] : List Unit) (fun _ => False) :=
  (disjunctive_right_partial (R := (· = .overflow)) (root := root) (ss := ss) (ls := ls) (ps := some ps) (strict := strict) (rules := { timeTable, detectable }) rfl (by decide +kernel) (by decide +kernel)).1

/-- What is there is nothing special: it is accepted. -/
example : (install (σ := Unit) (μ := Unit) true {} ss ls (some ps) root).map List.length = .ok 1 := by decide +kernel

/-- The solutions, if all are there: the second may take no time while the first is running, unless it is strict. -/
example : Run.run root [install (μ := Unit) false {} ss ls none] =
    some ([[[(0, 0)], [(0, 0)], [(0, 0)]], [[(2, 2)], [(0, 0)], [(0, 0)]], [[(3, 3)], [(0, 0)], [(0, 0)]], [[(3, 3)], [(0, 0)], [(1, 1)]], [[(3, 3)], [(0, 0)], [(2, 2)]],
      [[(0, 0)], [(1, 1)], [(0, 0)]], [[(2, 2)], [(1, 1)], [(0, 0)]], [[(3, 3)], [(1, 1)], [(0, 0)]], [[(3, 3)], [(1, 1)], [(1, 1)]], [[(3, 3)], [(1, 1)], [(2, 2)]]], true) := by decide +kernel
example : Run.run [[(0, 3)]] [install (μ := Unit) true {} [.simple 0, .const 1] [.const 2, .const 0] none] = some ([[[(1, 1)]], [[(2, 2)]], [[(3, 3)]]], true) := by decide +kernel
example : Run.run [[(0, 3)]] [install (μ := Unit) false {} [.simple 0, .const 1] [.const 2, .const 0] none] = some ([[[(0, 0)]], [[(1, 1)]], [[(2, 2)]], [[(3, 3)]]], true) := by decide +kernel

/-- What is wrong with starting at 0, and that it is right if it is not strict. -/
example : ¬ OneAtATime true [⟨0, 2⟩, ⟨1, 0⟩] := fun h => by
  have := (List.pairwise_cons.1 h).1 _ (List.mem_singleton.2 rfl)
  simp [Stretch.Apart] at this
example : OneAtATime false [⟨0, 2⟩, ⟨1, 0⟩] := by simp [OneAtATime]

/-- Without both rules, the solutions are the same: an overlap of what must be running is still noticed. -/
example : Run.run [[(0, 1)]] [install (μ := Unit) false { timeTable := false, detectable := false } [.simple 0, .const 0] [.const 1, .const 1] none] = some ([[[(1, 1)]]], true) := by decide +kernel

/-- Vectors of different sizes, a length that may be negative, and presences that may be 2 are refused. -/
example : (install (σ := Unit) (μ := Unit) false {} ss [.const 1] none root).map List.length = .error .invalidProblem := by decide +kernel
example : (install (σ := Unit) (μ := Unit) false {} ss [.const 1, .view 0 true 1, .const 1] none root).map List.length = .error .invalidProblem := by decide +kernel
example : (install (σ := Unit) (μ := Unit) false {} ss ls (some [.const 1, .simple 2, .const 1]) root).map List.length = .error .invalidProblem := by decide +kernel

end Disjunctive.Demo
end Gcs
