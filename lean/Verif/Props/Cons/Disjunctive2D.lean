import Verif.Lemmas.Cons.Disjunctive2DInstall
import Verif.Props.Cons.Run
import Verif.Props.Stateful

/-!
# C53: Disjunctive2D
-/

namespace Gcs
open IntervalSet

/-- Where the rectangles with corners `(xs[i], ys[i])` and sizes `(ws[i], hs[i])` are. -/
def boxes (xs ys ws hs : List VarId) (a : Asg) : List Box :=
  (List.range xs.length).map fun i => ⟨(xs.getD i (.const 0)).eval a, (ys.getD i (.const 0)).eval a, (ws.getD i (.const 0)).eval a, (hs.getD i (.const 0)).eval a⟩

section
variable {σ μ : Type} {m : Nat} {R : Err → Prop} {root : Doms} {xs ys ws hs : List VarId} {z0 : List σ} {strict : Bool}

theorem boxes_rects (a : Asg) : ∀ {xs ys ws hs : List VarId}, xs.length = ys.length → xs.length = ws.length → xs.length = hs.length →
    boxes xs ys ws hs a = (Disjunctive2D.rects xs ys ws hs).map (·.eval a)
  | [], _, _, _, _, _, _ => by simp [boxes, Disjunctive2D.rects]
  | x :: xs, [], _, _, h, _, _ => by simp at h
  | x :: xs, _ :: _, [], _, _, h, _ => by simp at h
  | x :: xs, _ :: _, _ :: _, [], _, _, h => by simp at h
  | x :: xs, y :: ys, w :: ws, h :: hs, h1, h2, h3 => by
    have ih := boxes_rects a (xs := xs) (ys := ys) (ws := ws) (hs := hs) (by simpa using h1) (by simpa using h2) (by simpa using h3)
    rw [Disjunctive2D.rects, List.map_cons, ← ih, boxes, List.length_cons, List.range_succ_eq_map, List.map_cons, List.map_map]
    rfl

theorem mem_rects {r : Disjunctive2D.Rect} : ∀ {xs ys ws hs : List VarId}, r ∈ Disjunctive2D.rects xs ys ws hs → r.x ∈ xs ∧ r.y ∈ ys ∧ r.w ∈ ws ∧ r.h ∈ hs
  | x :: xs, y :: ys, w :: ws, h :: hs, hr => by
    rw [Disjunctive2D.rects] at hr
    rcases List.mem_cons.1 hr with rfl | hr
    · simp
    · have := mem_rects hr
      exact ⟨List.mem_cons_of_mem _ this.1, List.mem_cons_of_mem _ this.2.1, List.mem_cons_of_mem _ this.2.2.1, List.mem_cons_of_mem _ this.2.2.2⟩
  | [], _, _, _, hr => by simp [Disjunctive2D.rects] at hr
  | _ :: _, [], _, _, hr => by simp [Disjunctive2D.rects] at hr
  | _ :: _, _ :: _, [], _, hr => by simp [Disjunctive2D.rects] at hr
  | _ :: _, _ :: _, _ :: _, [], hr => by simp [Disjunctive2D.rects] at hr

/-- C53: `Disjunctive2D(xs, ys, widths, heights).with_strict(strict)`: what is installed is right, whatever is repeated. It keeps no constraint state. Posting throws only if there are not as many of everything, or a
size may be negative, or something is not a 64-bit integer. -/
theorem disjunctive2D_right (ho : R .overflow) (hd : DomsOK root) (hv : ∀ v ∈ xs ++ ys ++ ws ++ hs, v.Valid root.length) :
    (Posted.mk (Disjunctive2D.install (σ := σ) (μ := μ) strict xs ys ws hs) (fun a => Packed strict (boxes xs ys ws hs a)) (xs ++ ys ++ ws ++ hs)).Serves root.length m R root z0 (fun _ => False) ∧
    ∀ e, Disjunctive2D.install (σ := σ) (μ := μ) strict xs ys ws hs root = .error e → e = .overflow ∨
      (e = .invalidProblem ∧ (¬ (xs.length = ys.length ∧ xs.length = ws.length ∧ xs.length = hs.length) ∨ ∃ v ∈ ws ++ hs, ∃ a, Within root a ∧ v.eval a < 0)) := by
  by_cases hlen : xs.length ≠ ys.length ∨ xs.length ≠ ws.length ∨ xs.length ≠ hs.length
  · have e : Disjunctive2D.install (σ := σ) (μ := μ) strict xs ys ws hs root = .error .invalidProblem := by rw [Disjunctive2D.install, if_pos hlen]
    refine ⟨fun items h => ?_, fun e' h => ?_⟩
    · have h : Disjunctive2D.install (σ := σ) (μ := μ) strict xs ys ws hs root = .ok items := h
      rw [e] at h; cases h
    · rw [e] at h; cases h
      exact .inr ⟨rfl, .inl (by omega)⟩
  · have e : Disjunctive2D.install (σ := σ) (μ := μ) strict xs ys ws hs root = Disjunctive2D.installRects strict (Disjunctive2D.rects xs ys ws hs) root := by rw [Disjunctive2D.install, if_neg hlen]
    have l1 : xs.length = ys.length := by omega
    have l2 : xs.length = ws.length := by omega
    have l3 : xs.length = hs.length := by omega
    have sub : ∀ r ∈ Disjunctive2D.rects xs ys ws hs, ∀ x ∈ r.vars, x ∈ xs ++ ys ++ ws ++ hs := fun r hr x hx => by
      have := mem_rects hr
      simp only [Disjunctive2D.Rect.vars, List.mem_cons, List.not_mem_nil, or_false] at hx
      rcases hx with rfl | rfl | rfl | rfl <;> simp [this]
    have val : ∀ r ∈ Disjunctive2D.rects xs ys ws hs, r.Valid root.length := fun r hr =>
      have k := fun x hx => hv x (sub r hr x hx)
      ⟨k _ (by simp [Disjunctive2D.Rect.vars]), k _ (by simp [Disjunctive2D.Rect.vars]), k _ (by simp [Disjunctive2D.Rect.vars]), k _ (by simp [Disjunctive2D.Rect.vars])⟩
    have key := Disjunctive2D.installRects_ok (σ := σ) (μ := μ) (m := m) (R := R) (strict := strict) (z0 := z0) ho hd val
    have same : (fun a => Packed strict (boxes xs ys ws hs a)) = fun a => (Disjunctive2D.rects xs ys ws hs).Pairwise (Disjunctive2D.Fine strict a) := by
      funext a
      rw [boxes_rects a l1 l2 l3, Packed, List.pairwise_map]
      rfl
    refine ⟨fun items h => ?_, fun e' h => ?_⟩
    · have h : Disjunctive2D.install (σ := σ) (μ := μ) strict xs ys ws hs root = .ok items := h
      obtain ⟨I, es, h1, h2⟩ := key.1 items (e ▸ h)
      refine ⟨I, es, h1, ?_⟩
      show Served _ _ _ _ _ _ _ (fun a => Packed strict (boxes xs ys ws hs a)) _ _
      rw [same]
      exact h2.about fun x hx => by obtain ⟨r, hr, hx⟩ := List.mem_flatMap.1 hx; exact sub r hr x hx
    · rcases key.2 e' (e ▸ h) with h | ⟨h, r, hr, a, ha, hn⟩
      · exact .inl h
      · refine .inr ⟨h, .inr ?_⟩
        have := mem_rects hr
        rcases hn with hn | hn
        · exact ⟨r.w, by simp [this], a, ha, hn⟩
        · exact ⟨r.h, by simp [this], a, ha, hn⟩

theorem exists_rects {v : VarId} : ∀ {xs ys ws hs : List VarId}, xs.length = ys.length → xs.length = ws.length → xs.length = hs.length → v ∈ ws ++ hs → ∃ r ∈ Disjunctive2D.rects xs ys ws hs, v = r.w ∨ v = r.h
  | [], [], [], [], _, _, _, hm => by simp at hm
  | x :: xs, y :: ys, w :: ws, h :: hs, h1, h2, h3, hm => by
    rw [Disjunctive2D.rects]
    by_cases e : v = w ∨ v = h
    · exact ⟨_, List.mem_cons_self, e⟩
    · have e1 : v ≠ w := fun h => e (.inl h)
      have e2 : v ≠ h := fun h => e (.inr h)
      obtain ⟨r, hr, h⟩ := exists_rects (v := v) (xs := xs) (ys := ys) (ws := ws) (hs := hs) (by simpa using h1) (by simpa using h2) (by simpa using h3) (by simpa [e1, e2] using hm)
      exact ⟨r, List.mem_cons_of_mem _ hr, h⟩

/-- C53: what is accepted has vectors of the same size, and sizes that cannot be negative. -/
theorem disjunctive2D_refuses {items : List (Item σ μ)} (hd : DomsOK root) (hv : ∀ v ∈ xs ++ ys ++ ws ++ hs, v.Valid root.length) (h : Disjunctive2D.install strict xs ys ws hs root = .ok items) :
    xs.length = ys.length ∧ xs.length = ws.length ∧ xs.length = hs.length ∧ ∀ v ∈ ws ++ hs, ∀ a, Within root a → 0 ≤ v.eval a := by
  unfold Disjunctive2D.install at h
  split at h
  · cases h
  · have l1 : xs.length = ys.length := by omega
    have l2 : xs.length = ws.length := by omega
    have l3 : xs.length = hs.length := by omega
    refine ⟨l1, l2, l3, fun v hm a ha => ?_⟩
    obtain ⟨r, hr, e⟩ := exists_rects l1 l2 l3 hm
    have val : ∀ r ∈ Disjunctive2D.rects xs ys ws hs, r.Valid root.length := fun r hr =>
      have := mem_rects hr
      ⟨hv _ (by simp [this]), hv _ (by simp [this]), hv _ (by simp [this]), hv _ (by simp [this])⟩
    have key := Disjunctive2D.installRects_nonneg hd val h r hr
    have : ¬ (r.w.eval a < 0 ∨ r.h.eval a < 0) := fun h => key ⟨a, ha, h⟩
    rcases e with rfl | rfl <;> omega

end

namespace Disjunctive2D.Demo

/-- Three rectangles: the first has a variable width, the second may be without area, and the corner of the third is a view of the same variable as the one of the first. -/
def root : Doms := [[(0, 2)], [(1, 2)], [(0, 1)]]
def xs : List VarId := [.simple 0, .const 1, .view 0 true 2]
def ys : List VarId := [.const 0, .const 1, .const 1]
def ws : List VarId := [.simple 1, .const 1, .const 1]
def hs : List VarId := [.const 2, .simple 2, .const 1]

example (strict : Bool) : (Posted.mk (install (μ := Unit) strict xs ys ws hs) (fun a => Packed strict (boxes xs ys ws hs a)) (xs ++ ys ++ ws ++ hs)).Serves 3 0 (· = .overflow) root ([] : List Unit) (fun _ => False) :=
  (disjunctive2D_right (R := (· = .overflow)) (root := root) (xs := xs) (ys := ys) (ws := ws) (hs := hs) rfl (by decide +kernel) (by decide +kernel)).1

/-- The solutions. If it is not strict, there is one more, with the second one without area, inside of the first one. -/
example : Run.run root [install (μ := Unit) true xs ys ws hs] =
    some ([[[(0, 0)], [(1, 1)], [(0, 0)]], [[(2, 2)], [(1, 1)], [(0, 0)]], [[(0, 0)], [(1, 1)], [(1, 1)]], [[(2, 2)], [(1, 1)], [(1, 1)]], [[(2, 2)], [(2, 2)], [(0, 0)]], [[(2, 2)], [(2, 2)], [(1, 1)]]], true) := by decide +kernel
example : Run.run root [install (μ := Unit) false xs ys ws hs] =
    some ([[[(0, 0)], [(1, 1)], [(0, 0)]], [[(2, 2)], [(1, 1)], [(0, 0)]], [[(0, 0)], [(1, 1)], [(1, 1)]], [[(2, 2)], [(1, 1)], [(1, 1)]], [[(0, 0)], [(2, 2)], [(0, 0)]], [[(2, 2)], [(2, 2)], [(0, 0)]], [[(2, 2)], [(2, 2)], [(1, 1)]]], true) := by decide +kernel

/-- A point inside of a rectangle is a problem only if it is strict; a point on its corner is not. -/
example : ¬ Packed true [⟨0, 0, 2, 2⟩, ⟨1, 1, 0, 0⟩] := fun h => by
  have := (List.pairwise_cons.1 h).1 _ (List.mem_singleton.2 rfl)
  rcases this with ⟨h, _⟩ | h | h | h | h <;> revert h <;> decide
example : Packed false [⟨0, 0, 2, 2⟩, ⟨1, 1, 0, 0⟩] := List.pairwise_cons.2 ⟨fun s hs => .inl ⟨rfl, .inr (.inl (by rw [List.mem_singleton.1 hs]))⟩, List.pairwise_singleton ..⟩
example : Packed true [⟨0, 0, 2, 2⟩, ⟨2, 2, 0, 0⟩] := List.pairwise_cons.2 ⟨fun s hs => .inr (.inl (by rw [List.mem_singleton.1 hs]; decide)), List.pairwise_singleton ..⟩

/-- Vectors of different sizes, and sizes that may be negative, are refused. -/
example : (install (σ := Unit) (μ := Unit) true xs ys ws [.const 2] root).map List.length = .error .invalidProblem := by decide +kernel
example : (install (σ := Unit) (μ := Unit) true [.const 0] [.const 0] [.view 0 false (-1)] [.const 2] root).map List.length = .error .invalidProblem := by decide +kernel

end Disjunctive2D.Demo
end Gcs
