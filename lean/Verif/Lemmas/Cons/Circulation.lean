import Verif.Lemmas.Cons.Flow
import Verif.Lemmas.Cons.Components
import Verif.Model.Cons.GlobalCardinalityGac

/-!
# Flows with lower bounds
-/

namespace Gcs.GlobalCardinality.Gac
open Flow
open Gcs.Gac (Reach)

/-! ## Sums -/

theorem sum_add {α : Type} (f g : α → Int) : ∀ l : List α, (l.map fun x => f x + g x).sum = (l.map f).sum + (l.map g).sum
  | [] => rfl
  | x :: l => by simp only [List.map_cons, List.sum_cons, sum_add f g l]; omega

theorem sum_sub {α : Type} (f g : α → Int) : ∀ l : List α, (l.map fun x => f x - g x).sum = (l.map f).sum - (l.map g).sum
  | [] => rfl
  | x :: l => by simp only [List.map_cons, List.sum_cons, sum_sub f g l]; omega

theorem sum_mul {α : Type} (c : Int) (f : α → Int) : ∀ l : List α, (l.map fun x => f x * c).sum = (l.map f).sum * c
  | [] => by simp
  | x :: l => by simp only [List.map_cons, List.sum_cons, sum_mul c f l]; rw [Int.add_mul]

theorem sum_congr {α : Type} {f g : α → Int} {l : List α} (h : ∀ x ∈ l, f x = g x) : (l.map f).sum = (l.map g).sum := by rw [List.map_congr_left h]

theorem sum_zero {α : Type} {f : α → Int} {l : List α} (h : ∀ x ∈ l, f x = 0) : (l.map f).sum = 0 := by
  induction l with
  | nil => rfl
  | cons x l ih => simp only [List.map_cons, List.sum_cons, h x (by simp), ih fun y hy => h y (by simp [hy])]; rfl

theorem sum_nonneg {α : Type} {f : α → Int} {l : List α} (h : ∀ x ∈ l, 0 ≤ f x) : 0 ≤ (l.map f).sum := by
  induction l with
  | nil => exact Int.le_refl _
  | cons x l ih =>
    have := h x (by simp); have := ih fun y hy => h y (by simp [hy])
    simp only [List.map_cons, List.sum_cons]; omega

theorem sum_eq_zero {α : Type} {f : α → Int} {l : List α} (h : ∀ x ∈ l, 0 ≤ f x) (h0 : (l.map f).sum = 0) : ∀ x ∈ l, f x = 0 := by
  induction l with
  | nil => simp
  | cons x l ih =>
    have h1 := h x (by simp)
    have h2 := sum_nonneg fun y hy => h y (List.mem_cons_of_mem x hy)
    simp only [List.map_cons, List.sum_cons] at h0
    intro y hy
    rcases List.mem_cons.1 hy with rfl | hy
    · omega
    · exact ih (fun y hy => h y (by simp [hy])) (by omega) y hy

theorem sum_filter {α : Type} {P : α → Bool} {f : α → Int} : ∀ l : List α, ((l.filter P).map f).sum = (l.map fun x => if P x then f x else 0).sum
  | [] => rfl
  | x :: l => by
    simp only [List.map_cons, List.sum_cons, ← sum_filter l, List.filter_cons]
    split
    · simp
    · simp

theorem sum_single {c : Int} {k : Nat} : ∀ n : Nat, ((List.range n).map fun v => if k = v then c else 0).sum = if k < n then c else 0
  | 0 => rfl
  | n + 1 => by
    rw [List.range_succ, List.map_append, List.sum_append, sum_single n]
    simp only [List.map_cons, List.map_nil, List.sum_cons, List.sum_nil]
    by_cases h : k < n
    · rw [if_pos h, if_neg (by omega), if_pos (by omega)]; omega
    · rw [if_neg h]
      by_cases h' : k = n
      · rw [if_pos h', if_pos (by omega)]; omega
      · rw [if_neg h', if_neg (by omega)]; rfl

/-- The net flows into the vertices, weighted, are the flows on the edges with the differences of the weights. -/
theorem net_weight {n : Nat} (w : Nat → Int) : ∀ g : List Edge, InRange n g → ((List.range n).map fun v => w v * net g v).sum = (g.map fun e => e.flow * (w e.dst - w e.src)).sum
  | [], _ => sum_zero fun v _ => by simp [net]
  | e :: g, h => by
    have he := h e (by simp)
    have e1 : ∀ v, w v * net (e :: g) v = ((if e.dst = v then e.flow * w e.dst else 0) - (if e.src = v then e.flow * w e.src else 0)) + w v * net g v := fun v => by
      simp only [net, List.map_cons, List.sum_cons]
      rw [Int.mul_add]
      congr 1
      rw [Int.mul_sub]
      by_cases h1 : e.dst = v <;> by_cases h2 : e.src = v <;> simp only [h1, h2, ↓reduceIte, Int.mul_zero] <;> grind
    rw [sum_congr fun v _ => e1 v, sum_add, sum_sub, sum_single, sum_single, if_pos he.1, if_pos he.2, net_weight w g fun e he => h e (by simp [he]), List.map_cons, List.sum_cons, Int.mul_sub]

/-! ## Feasible flows -/

def Orig.edge (e : Orig) : Edge := ⟨e.src, e.dst, 0, e.lo⟩

theorem excess_net (es : List Orig) (v : Nat) : excess es v = net (es.map Orig.edge) v := by
  unfold excess net
  rw [List.map_map]; rfl

def OrigOK (n : Nat) (es : List Orig) : Prop := ∀ e ∈ es, e.src < n ∧ e.dst < n ∧ e.lo ≤ e.hi

theorem excess_weight {n : Nat} {es : List Orig} (h : OrigOK n es) (w : Nat → Int) : ((List.range n).map fun v => w v * excess es v).sum = (es.map fun e => e.lo * (w e.dst - w e.src)).sum := by
  rw [sum_congr fun v _ => by rw [excess_net], net_weight (n := n) w (es.map Orig.edge), List.map_map]
  · rfl
  · intro e he
    obtain ⟨x, hx, rfl⟩ := List.mem_map.1 he
    exact ⟨(h x hx).1, (h x hx).2.1⟩

theorem excess_sum {n : Nat} {es : List Orig} (h : OrigOK n es) : ((List.range n).map fun v => excess es v).sum = 0 := by
  have := excess_weight h fun _ => 1
  rw [sum_congr (f := fun v => 1 * excess es v) fun v _ => Int.one_mul _, sum_zero (l := es) fun e _ => by omega] at this
  exact this

theorem mem_balance {es : List Orig} {n : Nat} {e : Edge} : e ∈ balance es n ↔ ∃ v < n, (0 < excess es v ∧ e = ⟨n, v, excess es v, 0⟩) ∨ (excess es v < 0 ∧ e = ⟨v, n + 1, - excess es v, 0⟩) := by
  simp only [balance, List.mem_flatMap, List.mem_range]
  refine exists_congr fun v => and_congr_right fun _ => ?_
  split
  · rename_i h
    simp [h, show ¬ excess es v < 0 by omega]
  · split
    · rename_i h1 h2
      simp [h2, show ¬ 0 < excess es v by omega]
    · rename_i h1 h2
      simp [h2, show ¬ 0 < excess es v by omega]

/-- A sum over the edges of the super source and sink. -/
theorem sum_balance {es : List Orig} (f : Edge → Int) {n : Nat} : ((balance es n).map f).sum =
    ((List.range n).map fun v => if excess es v > 0 then f ⟨n, v, excess es v, 0⟩ else if excess es v < 0 then f ⟨v, n + 1, - excess es v, 0⟩ else 0).sum := by
  unfold balance
  generalize List.range n = l
  induction l with
  | nil => rfl
  | cons v l ih =>
    rw [List.flatMap_cons, List.map_append, List.sum_append, ih, List.map_cons, List.sum_cons]
    congr 1
    split
    · simp
    · split <;> simp

/-- The flow on the original edges keeps to the bounds, and what flows into a set of nodes flows out of it. -/
structure Circ (es : List Orig) (fl : List Int) : Prop where
  len : fl.length = es.length
  between : ∀ p ∈ es.zip fl, p.1.lo ≤ p.2 ∧ p.2 ≤ p.1.hi
  even : ∀ w : Nat → Int, ((es.zip fl).map fun p => p.2 * (w p.1.dst - w p.1.src)).sum = 0

/-- The network given to `max_flow`. -/
def start (es : List Orig) (n : Nat) : List Edge := es.map (fun e => ⟨e.src, e.dst, e.hi - e.lo, 0⟩) ++ balance es n

theorem start_ok {es : List Orig} {n : Nat} (h : OrigOK n es) : InRange (n + 2) (start es n) ∧ ∀ e ∈ start es n, e.flow = 0 ∧ 0 ≤ e.cap := by
  have key : ∀ e ∈ start es n, (e.src < n + 2 ∧ e.dst < n + 2) ∧ e.flow = 0 ∧ 0 ≤ e.cap := by
    intro e he
    rcases List.mem_append.1 he with he | he
    · obtain ⟨x, hx, rfl⟩ := List.mem_map.1 he
      have := h x hx
      dsimp only; omega
    · obtain ⟨v, hv, ⟨h1, rfl⟩ | ⟨h1, rfl⟩⟩ := mem_balance.1 he
      · dsimp only; omega
      · dsimp only; omega
  exact ⟨fun e he => (key e he).1, fun e he => (key e he).2⟩

/-- What the flow looks like on the original edges, and on the others. -/
theorem split_flow {es : List Orig} {n s t : Nat} {g : List Edge} {flow : Int} (h : IsFlow s t (start es n) g flow) :
    ∃ g1 g2, g = g1 ++ g2 ∧ g1.map Edge.shape = es.map (fun e => (e.src, e.dst, e.hi - e.lo)) ∧ g2.map Edge.shape = (balance es n).map Edge.shape := by
  have := h.same
  rw [start, List.map_append, List.map_map] at this
  obtain ⟨g1, g2, e, h1, h2⟩ := List.map_eq_append_iff.1 this
  exact ⟨g1, g2, e, h1, h2⟩

theorem zipWith_left {es : List Orig} {g1 g2 : List Edge} (h : g1.length = es.length) : List.zipWith (fun (e : Orig) (f : Edge) => e.lo + f.flow) es (g1 ++ g2) = List.zipWith (fun (e : Orig) (f : Edge) => e.lo + f.flow) es g1 := by
  induction es generalizing g1 with
  | nil => simp
  | cons e es ih =>
    cases g1 with
    | nil => simp at h
    | cons x g1 => simp only [List.cons_append, List.zipWith_cons_cons, ih (g1 := g1) (by simpa using h)]

theorem sum_flows (w : Nat → Int) : ∀ {es : List Orig} {g1 : List Edge}, g1.map Edge.shape = es.map (fun e => (e.src, e.dst, e.hi - e.lo)) →
    ((es.zip (List.zipWith (fun (e : Orig) (f : Edge) => e.lo + f.flow) es g1)).map fun p => p.2 * (w p.1.dst - w p.1.src)).sum = (es.map fun e => e.lo * (w e.dst - w e.src)).sum + (g1.map fun e => e.flow * (w e.dst - w e.src)).sum
  | [], [], _ => rfl
  | [], _ :: _, h => by simp at h
  | _ :: _, [], h => by simp at h
  | e :: es, x :: g1, h => by
    simp only [List.map_cons, List.cons.injEq, Prod.mk.injEq] at h
    simp only [List.zipWith_cons_cons, List.zip_cons_cons, List.map_cons, List.sum_cons, sum_flows w h.2, h.1.1, h.1.2.1, Int.add_mul]
    omega

theorem flows_between : ∀ {es : List Orig} {g1 : List Edge}, g1.map Edge.shape = es.map (fun e => (e.src, e.dst, e.hi - e.lo)) → Bounded g1 →
    ∀ p ∈ es.zip (List.zipWith (fun (e : Orig) (f : Edge) => e.lo + f.flow) es g1), p.1.lo ≤ p.2 ∧ p.2 ≤ p.1.hi
  | [], [], _, _, p, hp => by simp at hp
  | [], _ :: _, h, _, _, _ => by simp at h
  | _ :: _, [], h, _, _, _ => by simp at h
  | e :: es, x :: g1, h, hb, p, hp => by
    simp only [List.map_cons, List.cons.injEq, Prod.mk.injEq] at h
    simp only [List.zipWith_cons_cons, List.zip_cons_cons, List.mem_cons] at hp
    rcases hp with rfl | hp
    · have := hb x (by simp)
      dsimp only; omega
    · exact flows_between h.2 (fun e he => hb e (by simp [he])) p hp

theorem need_eq {es : List Orig} {n : Nat} (h : OrigOK n es) : ((balance es n).map fun e => e.cap).sum = 2 * need es n := by
  rw [sum_balance]
  have e1 : ∀ v ∈ List.range n, (if excess es v > 0 then excess es v else if excess es v < 0 then - excess es v else 0) = (if excess es v > 0 then excess es v else 0) * 2 - excess es v := fun v _ => by split <;> (try split) <;> omega
  dsimp only
  rw [sum_congr e1, sum_sub, sum_mul, excess_sum h, need]; omega

theorem shape_caps {g g' : List Edge} (h : g.map Edge.shape = g'.map Edge.shape) : (g.map fun e => e.cap).sum = (g'.map fun e => e.cap).sum := by
  have e : ∀ l : List Edge, (l.map fun e => e.cap) = (l.map Edge.shape).map fun s => s.2.2 := fun l => by rw [List.map_map]; rfl
  rw [e, e, h]

/-- If the edges of the super source and sink are full, their sum is known. -/
theorem full_sum {w : Nat → Int} : ∀ {l g2 : List Edge}, g2.map Edge.shape = l.map Edge.shape → (∀ e ∈ g2, e.flow = e.cap) → (g2.map fun e => e.flow * (w e.dst - w e.src)).sum = (l.map fun e => e.cap * (w e.dst - w e.src)).sum
  | [], [], _, _ => rfl
  | [], _ :: _, h, _ => by simp at h
  | _ :: _, [], h, _ => by simp at h
  | e :: l, x :: g2, h, hf => by
    simp only [List.map_cons, List.cons.injEq, Prod.mk.injEq] at h
    simp only [List.map_cons, List.sum_cons, full_sum (w := w) h.2 fun e he => hf e (by simp [he]), hf x (by simp), h.1.1, h.1.2.1, h.1.2.2]

theorem balance_shape {es : List Orig} {n : Nat} {g2 : List Edge} (h : g2.map Edge.shape = (balance es n).map Edge.shape) {e : Edge} (he : e ∈ g2) :
    ∃ v < n, (0 < excess es v ∧ e.src = n ∧ e.dst = v ∧ e.cap = excess es v) ∨ (excess es v < 0 ∧ e.src = v ∧ e.dst = n + 1 ∧ e.cap = - excess es v) := by
  have : e.shape ∈ (balance es n).map Edge.shape := h ▸ List.mem_map.2 ⟨e, he, rfl⟩
  obtain ⟨e', he', hs⟩ := List.mem_map.1 this
  simp only [Edge.shape, Prod.mk.injEq] at hs
  obtain ⟨v, hv, ⟨h1, rfl⟩ | ⟨h1, rfl⟩⟩ := mem_balance.1 he'
  · exact ⟨v, hv, .inl ⟨h1, hs.1.symm, hs.2.1.symm, hs.2.2.symm⟩⟩
  · exact ⟨v, hv, .inr ⟨h1, hs.1.symm, hs.2.1.symm, hs.2.2.symm⟩⟩

theorem orig_shape {es : List Orig} {n : Nat} {g1 : List Edge} (hes : OrigOK n es) (h : g1.map Edge.shape = es.map (fun e => (e.src, e.dst, e.hi - e.lo))) {e : Edge} (he : e ∈ g1) : e.src < n ∧ e.dst < n := by
  have : e.shape ∈ es.map (fun e => (e.src, e.dst, e.hi - e.lo)) := h ▸ List.mem_map.2 ⟨e, he, rfl⟩
  obtain ⟨e', he', hs⟩ := List.mem_map.1 this
  simp only [Edge.shape, Prod.mk.injEq] at hs
  have := hes e' he'
  omega

/-- The size of the flow, seen at the edges of the super source and sink. -/
theorem size_eq {es : List Orig} {n : Nat} {g1 g2 : List Edge} {flow : Int} (hes : OrigOK n es) (h : IsFlow n (n + 1) (start es n) (g1 ++ g2) flow) (h1 : g1.map Edge.shape = es.map (fun e => (e.src, e.dst, e.hi - e.lo)))
    (h2 : g2.map Edge.shape = (balance es n).map Edge.shape) : (g2.map fun e => e.flow).sum = 2 * flow := by
  have hr : InRange (n + 2) (g1 ++ g2) := inRange_congr h.same (start_ok hes).1
  have key : ∀ w : Nat → Int, w n * net (g1 ++ g2) n + w (n + 1) * net (g1 ++ g2) (n + 1) = ((g1 ++ g2).map fun e => e.flow * (w e.dst - w e.src)).sum := fun w => by
    rw [← net_weight w _ hr, List.range_succ, List.range_succ, List.map_append, List.map_append, List.sum_append, List.sum_append, sum_zero fun v hv => ?_]
    · simp
    · have := List.mem_range.1 hv
      rw [h.even v (by omega) (by omega), Int.mul_zero]
  have k1 := key fun _ => 1
  have k2 := key fun v => if v = n + 1 then 1 else if v = n then -1 else 0
  rw [sum_zero fun e _ => by omega] at k1
  have z : (g1.map fun e => e.flow * ((if e.dst = n + 1 then 1 else if e.dst = n then -1 else 0) - if e.src = n + 1 then 1 else if e.src = n then -1 else 0)).sum = 0 := sum_zero fun e he => by
    have := orig_shape hes h1 he
    rw [if_neg (by omega), if_neg (by omega), if_neg (by omega), if_neg (by omega)]; omega
  have z' : (g2.map fun e => e.flow * ((if e.dst = n + 1 then 1 else if e.dst = n then -1 else 0) - if e.src = n + 1 then 1 else if e.src = n then -1 else 0)).sum = (g2.map fun e => e.flow).sum := sum_congr fun e he => by
    obtain ⟨v, hv, ⟨_, e1, e2, _⟩ | ⟨_, e1, e2, _⟩⟩ := balance_shape h2 he
    · rw [e1, e2]; simp only [show ¬ v = n + 1 by omega, show ¬ v = n by omega, show ¬ n = n + 1 by omega, ↓reduceIte]; omega
    · rw [e1, e2]; simp only [show ¬ v = n + 1 by omega, show ¬ v = n by omega, ↓reduceIte]; omega
  rw [List.map_append, List.sum_append, z, z'] at k2
  have hs := h.size
  simp only [↓reduceIte, show ¬ n = n + 1 by omega] at k2
  omega

theorem feasible_spec {es : List Orig} {n : Nat} (hes : OrigOK n es) : ∃ b fl, feasible es n = .ok (b, fl) ∧ ∃ flow g1 g2, IsFlow n (n + 1) (start es n) (g1 ++ g2) flow ∧ Closed n (n + 1) (g1 ++ g2) ∧
    g1.map Edge.shape = es.map (fun e => (e.src, e.dst, e.hi - e.lo)) ∧ g2.map Edge.shape = (balance es n).map Edge.shape ∧
    fl = List.zipWith (fun (e : Orig) (f : Edge) => e.lo + f.flow) es g1 ∧ (b = true ↔ flow = need es n) := by
  obtain ⟨flow, g, r, h, hc⟩ := maxFlow_spec (n := n + 2) (s := n) (t := n + 1) (by omega) (by omega) (start_ok hes).1 (start_ok hes).2
  obtain ⟨g1, g2, rfl, h1, h2⟩ := split_flow h
  have hlen : g1.length = es.length := by simpa using congrArg List.length h1
  refine ⟨decide (flow = need es n), _, ?_, flow, g1, g2, h, hc, h1, h2, rfl, by simp⟩
  rw [feasible]
  rw [start] at r
  rw [r]
  simp only [bind, Except.bind, pure, Except.pure]
  rw [zipWith_left hlen]

theorem feasible_circ {es : List Orig} {n : Nat} (hes : OrigOK n es) {fl : List Int} (h : feasible es n = .ok (true, fl)) : Circ es fl := by
  obtain ⟨b, fl', r, flow, g1, g2, hf, _, h1, h2, hfl, hb⟩ := feasible_spec hes
  rw [h] at r; cases r
  have hneed := hb.1 rfl
  have hbd : ∀ e ∈ g1 ++ g2, 0 ≤ e.flow ∧ e.flow ≤ e.cap := hf.bounded
  have hlen : g1.length = es.length := by simpa using congrArg List.length h1
  have hsat : ∀ e ∈ g2, e.flow = e.cap := by
    have h0 : (g2.map fun e => e.cap - e.flow).sum = 0 := by rw [sum_sub, shape_caps h2, need_eq hes, size_eq hes hf h1 h2]; omega
    intro e he
    have := sum_eq_zero (fun e he => by have := hbd e (List.mem_append_right _ he); omega) h0 e he
    omega
  refine ⟨by rw [hfl]; simp [hlen], fun p hp => flows_between h1 (fun e he => hbd e (List.mem_append_left _ he)) p (hfl ▸ hp), fun w => ?_⟩
  rw [hfl, sum_flows w h1, ← excess_weight hes]
  have hr : InRange (n + 2) (g1 ++ g2) := inRange_congr hf.same (start_ok hes).1
  have key := net_weight (fun v => if v < n then w v else 0) _ hr
  rw [sum_zero (l := List.range (n + 2)) fun v hv => ?_, List.map_append, List.sum_append, full_sum (w := fun v => if v < n then w v else 0) h2 hsat, sum_balance] at key
  rotate_left
  · by_cases h : v < n
    · rw [hf.even v (by omega) (by omega), Int.mul_zero]
    · rw [if_neg h, Int.zero_mul]
  have e1 : (g1.map fun e => e.flow * (w e.dst - w e.src)).sum = (g1.map fun e => e.flow * ((if e.dst < n then w e.dst else 0) - if e.src < n then w e.src else 0)).sum := sum_congr fun e he => by
    have := orig_shape hes h1 he
    rw [if_pos this.1, if_pos this.2]
  rw [e1]
  rw [← sum_congr (l := List.range n) (f := fun v => w v * excess es v) fun v hv => ?_] at key
  · omega
  · have hv := List.mem_range.1 hv
    dsimp only
    simp only [hv, ↓reduceIte, show ¬ n < n by omega, show ¬ n + 1 < n by omega]
    split
    · rw [Int.sub_zero, Int.mul_comm]
    · split
      · rw [Int.zero_sub, Int.neg_mul_neg, Int.mul_comm]
      · rw [show excess es v = 0 by omega, Int.mul_zero]

/-- What flows between two components flows in every flow: an edge on which more flows in another flow has a way back. -/
theorem Circ.back {es : List Orig} {fl : List Int} (h : Circ es fl) {f : Orig → Int} (hb : ∀ e ∈ es, e.lo ≤ f e ∧ f e ≤ e.hi) (he : ∀ w : Nat → Int, (es.map fun e => f e * (w e.dst - w e.src)).sum = 0)
    {p : Orig × Int} (hp : p ∈ es.zip fl) (hlt : p.2 < f p.1) : Reach (residual es fl) p.1.dst p.1.src := by
  classical
  refine Classical.byContradiction fun hn => ?_
  have key := h.even fun v => if Reach (residual es fl) p.1.dst v then 1 else 0
  have key' := he fun v => if Reach (residual es fl) p.1.dst v then 1 else 0
  have hfst : (es.zip fl).map (·.1) = es := List.map_fst_zip (by rw [h.len]; exact Nat.le_refl _)
  have hmap : ∀ F : Orig → Int, (es.map F).sum = ((es.zip fl).map fun q => F q.1).sum := fun F => by
    have : es.map F = ((es.zip fl).map (·.1)).map F := by rw [hfst]
    rw [this, List.map_map]; rfl
  rw [hmap] at key'
  have hz := sum_eq_zero (l := es.zip fl) (f := fun q => f q.1 * ((if Reach (residual es fl) p.1.dst q.1.dst then 1 else 0) - (if Reach (residual es fl) p.1.dst q.1.src then 1 else 0)) -
      q.2 * ((if Reach (residual es fl) p.1.dst q.1.dst then 1 else 0) - (if Reach (residual es fl) p.1.dst q.1.src then 1 else 0))) (fun q hq => ?_) (by
    rw [sum_sub, key, Int.sub_zero]; exact key')
  · have := hz p hp
    rw [if_pos (Reach.refl _), if_neg hn] at this
    omega
  · have hq1 := h.between q hq
    have hq2 := hb q.1 (List.of_mem_zip hq).1
    by_cases h1 : Reach (residual es fl) p.1.dst q.1.dst <;> by_cases h2 : Reach (residual es fl) p.1.dst q.1.src
    · simp [h1, h2]
    · rw [if_pos h1, if_neg h2]
      by_cases hl : q.2 > q.1.lo
      · exact absurd (h1.trans (.one (List.mem_flatMap.2 ⟨q, hq, by simp [hl]⟩))) h2
      · omega
    · rw [if_neg h1, if_pos h2]
      by_cases hl : q.2 < q.1.hi
      · exact absurd (h2.trans (.one (List.mem_flatMap.2 ⟨q, hq, by simp [hl]⟩))) h1
      · omega
    · simp [h1, h2]

/-! ## What is known when there is no feasible flow -/

theorem closed_edges {s t : Nat} {g : List Edge} (h : Closed s t g) : ∃ Q : Nat → Prop, Q s ∧ ¬ Q t ∧ ∀ e ∈ g, (Q e.src → e.flow < e.cap → Q e.dst) ∧ (Q e.dst → 0 < e.flow → Q e.src) := by
  obtain ⟨Q, h1, h2, h3⟩ := h
  refine ⟨Q, h1, h2, fun e he => ?_⟩
  obtain ⟨k, hk, rfl⟩ := List.mem_iff_getElem.1 he
  have hk' := List.getElem?_eq_getElem hk
  refine ⟨fun hq hf => h3 _ ⟨k, true, g[k].dst⟩ hq (mem_arcs.2 ⟨_, hk', .inl ⟨rfl, rfl, rfl⟩⟩) ?_, fun hq hf => h3 _ ⟨k, false, g[k].src⟩ hq (mem_arcs.2 ⟨_, hk', .inr ⟨rfl, rfl, rfl⟩⟩) ?_⟩
  · simp only [left, hk', ↓reduceIte]; omega
  · simpa [left, hk'] using hf

theorem net_append (g1 g2 : List Edge) (v : Nat) : net (g1 ++ g2) v = net g1 v + net g2 v := by rw [net, List.map_append, List.sum_append]; rfl

section
variable {es : List Orig} {n : Nat} {g2 : List Edge} {v : Nat}

theorem sum_shape {g g' : List Edge} (h : g.map Edge.shape = g'.map Edge.shape) (F : Nat × Nat × Int → Int) : (g.map fun e => F e.shape).sum = (g'.map fun e => F e.shape).sum := by
  have e : ∀ l : List Edge, (l.map fun e => F e.shape) = (l.map Edge.shape).map F := fun l => by rw [List.map_map]; rfl
  rw [e, e, h]

/-- The capacity of what enters `v`. -/
theorem cap_in (h2 : g2.map Edge.shape = (balance es n).map Edge.shape) (hv : v < n) : (g2.map fun e => if e.dst = v then e.cap else 0).sum = if excess es v > 0 then excess es v else 0 := by
  have := sum_shape h2 fun s => if s.2.1 = v then s.2.2 else 0
  simp only [Edge.shape] at this
  rw [this, sum_balance, sum_congr (g := fun u => if v = u then (if excess es v > 0 then excess es v else 0) else 0) fun u hu => ?_, sum_single, if_pos hv]
  have hu := List.mem_range.1 hu
  dsimp only
  by_cases h : v = u
  · subst h
    simp only [↓reduceIte, show ¬ n + 1 = v by omega]
    split
    · rfl
    · simp
  · simp only [h, show ¬ u = v by omega, show ¬ n + 1 = v by omega, ↓reduceIte]
    split
    · rfl
    · simp

theorem cap_out (h2 : g2.map Edge.shape = (balance es n).map Edge.shape) (hv : v < n) : (g2.map fun e => if e.src = v then e.cap else 0).sum = if excess es v < 0 then - excess es v else 0 := by
  have := sum_shape h2 fun s => if s.1 = v then s.2.2 else 0
  simp only [Edge.shape] at this
  rw [this, sum_balance, sum_congr (g := fun u => if v = u then (if excess es v < 0 then - excess es v else 0) else 0) fun u hu => ?_, sum_single, if_pos hv]
  have hu := List.mem_range.1 hu
  dsimp only
  by_cases h : v = u
  · subst h
    simp only [↓reduceIte, show ¬ n = v by omega]
    split
    · rw [if_neg (by omega)]
    · rfl
  · simp only [h, show ¬ u = v by omega, show ¬ n = v by omega, ↓reduceIte]
    split
    · rfl
    · simp

theorem sum_le {α : Type} {f g : α → Int} {l : List α} (h : ∀ x ∈ l, f x ≤ g x) : (l.map f).sum ≤ (l.map g).sum := by
  have := sum_nonneg (l := l) (f := fun x => g x - f x) fun x hx => by have := h x hx; omega
  rw [sum_sub] at this; omega

/-- What the super source and sink give `v`. -/
theorem net_balance (h2 : g2.map Edge.shape = (balance es n).map Edge.shape) (hb : Bounded g2) (hv : v < n) : (0 ≤ excess es v → 0 ≤ net g2 v ∧ net g2 v ≤ excess es v) ∧ (excess es v ≤ 0 → excess es v ≤ net g2 v ∧ net g2 v ≤ 0) := by
  have e : net g2 v = (g2.map fun e => if e.dst = v then e.flow else 0).sum - (g2.map fun e => if e.src = v then e.flow else 0).sum := sum_sub _ _ _
  have hi0 : 0 ≤ (g2.map fun e => if e.dst = v then e.flow else 0).sum := sum_nonneg fun e he => by have := hb e he; split <;> omega
  have ho0 : 0 ≤ (g2.map fun e => if e.src = v then e.flow else 0).sum := sum_nonneg fun e he => by have := hb e he; split <;> omega
  have hi := sum_le (f := fun e => if e.dst = v then e.flow else 0) (g := fun e => if e.dst = v then e.cap else 0) fun e (he : e ∈ g2) => by have := hb e he; split <;> omega
  have ho := sum_le (f := fun e => if e.src = v then e.flow else 0) (g := fun e => if e.src = v then e.cap else 0) fun e (he : e ∈ g2) => by have := hb e he; split <;> omega
  rw [cap_in h2 hv] at hi
  rw [cap_out h2 hv] at ho
  constructor
  · intro hx
    rw [if_neg (by omega)] at ho
    split at hi <;> omega
  · intro hx
    rw [if_neg (by omega)] at hi
    split at ho <;> omega

theorem net_full (h2 : g2.map Edge.shape = (balance es n).map Edge.shape) (hv : v < n) (hf : ∀ e ∈ g2, e.dst = v ∨ e.src = v → e.flow = e.cap) : net g2 v = excess es v := by
  have e : net g2 v = (g2.map fun e => if e.dst = v then e.flow else 0).sum - (g2.map fun e => if e.src = v then e.flow else 0).sum := sum_sub _ _ _
  rw [e, sum_congr (g := fun e => if e.dst = v then e.cap else 0) fun e he => ?_, sum_congr (l := g2) (f := fun e : Edge => if e.src = v then e.flow else 0) (g := fun e : Edge => if e.src = v then e.cap else 0) fun e he => ?_, cap_in h2 hv, cap_out h2 hv]
  · split <;> split <;> omega
  · split
    · rename_i h; exact hf e he (.inr h)
    · rfl
  · split
    · rename_i h; exact hf e he (.inl h)
    · rfl

/-- If all nodes get what they are to get, the edges are full. -/
theorem flow_full (h2 : g2.map Edge.shape = (balance es n).map Edge.shape) (hes : OrigOK n es) (hf : ∀ v < n, net g2 v = excess es v) : (g2.map fun e => e.flow).sum = 2 * need es n := by
  have hr : InRange (n + 2) g2 := fun e he => by
    obtain ⟨v, hv, h | h⟩ := balance_shape h2 he
    · omega
    · omega
  have key := net_weight (fun v => if v < n then (if 0 < excess es v then 1 else -1) else 0) g2 hr
  rw [sum_congr (l := g2) (g := fun e => e.flow) fun e he => ?_, List.range_succ, List.range_succ, List.map_append, List.map_append, List.sum_append, List.sum_append,
    sum_congr (l := List.range n) (g := fun v => (if excess es v > 0 then excess es v else 0) * 2 - excess es v) fun v hv => ?_, sum_sub, sum_mul, excess_sum hes] at key
  · simp only [List.map_cons, List.map_nil, List.sum_cons, List.sum_nil, show ¬ n < n by omega, show ¬ n + 1 < n by omega, ↓reduceIte] at key
    rw [← key, need]; omega
  · have hv := List.mem_range.1 hv
    rw [if_pos hv, hf v hv]
    split <;> omega
  · obtain ⟨v, hv, ⟨x, e1, e2, _⟩ | ⟨x, e1, e2, _⟩⟩ := balance_shape h2 he
    · rw [e1, e2, if_pos hv, if_pos x, if_neg (by omega)]; omega
    · rw [e1, e2, if_pos hv, if_neg (by omega), if_neg (by omega)]; omega

end

/-- The flow when there is no feasible one: what is missing at each node, and a set of nodes that is not left. -/
structure Partial (es : List Orig) (fl : List Int) (n : Nat) (miss : Nat → Int) (Q : Nat → Prop) : Prop where
  len : fl.length = es.length
  between : ∀ p ∈ es.zip fl, p.1.lo ≤ p.2 ∧ p.2 ≤ p.1.hi
  even : ∀ w : Nat → Int, ((es.zip fl).map fun p => p.2 * (w p.1.dst - w p.1.src)).sum = ((List.range n).map fun v => w v * miss v).sum
  pos : ∀ v < n, 0 ≤ excess es v → 0 ≤ miss v
  neg : ∀ v < n, excess es v ≤ 0 → miss v ≤ 0
  short : ∃ v < n, 0 < miss v
  inside : ∀ v < n, 0 < miss v → Q v
  enough : ∀ v < n, Q v → 0 ≤ miss v
  forth : ∀ p ∈ es.zip fl, Q p.1.src → p.2 < p.1.hi → Q p.1.dst
  back : ∀ p ∈ es.zip fl, Q p.1.dst → p.1.lo < p.2 → Q p.1.src

theorem zip_flow : ∀ {es : List Orig} {g1 : List Edge}, g1.map Edge.shape = es.map (fun e => (e.src, e.dst, e.hi - e.lo)) →
    ∀ p ∈ es.zip (List.zipWith (fun (e : Orig) (f : Edge) => e.lo + f.flow) es g1), ∃ x ∈ g1, x.src = p.1.src ∧ x.dst = p.1.dst ∧ x.cap = p.1.hi - p.1.lo ∧ p.2 = p.1.lo + x.flow
  | [], [], _, p, hp => by simp at hp
  | [], _ :: _, h, _, _ => by simp at h
  | _ :: _, [], h, _, _ => by simp at h
  | e :: es, x :: g1, h, p, hp => by
    simp only [List.map_cons, List.cons.injEq, Prod.mk.injEq] at h
    simp only [List.zipWith_cons_cons, List.zip_cons_cons, List.mem_cons] at hp
    rcases hp with rfl | hp
    · exact ⟨x, by simp, h.1.1, h.1.2.1, h.1.2.2, rfl⟩
    · obtain ⟨y, hy, h'⟩ := zip_flow h.2 p hp
      exact ⟨y, List.mem_cons_of_mem _ hy, h'⟩

theorem feasible_partial {es : List Orig} {n : Nat} (hes : OrigOK n es) {fl : List Int} (h : feasible es n = .ok (false, fl)) : ∃ miss Q, Partial es fl n miss Q := by
  obtain ⟨b, fl', r, flow, g1, g2, hf, hcl, h1, h2, hfl, hb⟩ := feasible_spec hes
  rw [h] at r; cases r
  have hneed : flow ≠ need es n := fun e => Bool.false_ne_true (hb.2 e)
  have hbd : Bounded g2 := fun e he => hf.bounded e (List.mem_append_right _ he)
  obtain ⟨Q, hs, ht, hQ⟩ := closed_edges hcl
  have hlen : g1.length = es.length := by simpa using congrArg List.length h1
  have hev : ∀ w : Nat → Int, ((es.zip fl).map fun p => p.2 * (w p.1.dst - w p.1.src)).sum = ((List.range n).map fun v => w v * (excess es v - net g2 v)).sum := fun w => by
    rw [hfl, sum_flows w h1, ← excess_weight hes, ← net_weight (n := n) w g1 fun e he => orig_shape hes h1 he, ← sum_add]
    refine sum_congr fun v hv => ?_
    have hv := List.mem_range.1 hv
    have := hf.even v (by omega) (by omega)
    rw [net_append] at this
    rw [show net g1 v = - net g2 v by omega, ← Int.mul_add, Int.sub_eq_add_neg]
  refine ⟨fun v => excess es v - net g2 v, Q, ⟨by rw [hfl]; simp [hlen], fun p hp => flows_between h1 (fun e he => hf.bounded e (List.mem_append_left _ he)) p (hfl ▸ hp), hev, fun v hv hx => ?_, fun v hv hx => ?_, ?_, fun v hv hx => ?_,
    fun v hv hx => ?_, fun p hp hq hlt => ?_, fun p hp hq hlt => ?_⟩⟩
  · have := (net_balance h2 hbd hv).1 hx
    omega
  · have := (net_balance h2 hbd hv).2 hx
    omega
  · refine Classical.byContradiction fun hn => hneed ?_
    have hz := sum_eq_zero (l := List.range n) (f := fun v => - (excess es v - net g2 v)) (fun v hv => by
      have hv := List.mem_range.1 hv
      have : ¬ 0 < excess es v - net g2 v := fun h => hn ⟨v, hv, h⟩
      omega) (by
      have := hev fun _ => -1
      rw [sum_zero fun p _ => by omega, sum_congr (g := fun v => - (excess es v - net g2 v)) fun v _ => by omega] at this
      exact this.symm)
    have := flow_full h2 hes fun v hv => by have := hz v (List.mem_range.2 hv); omega
    have := size_eq hes hf h1 h2
    omega
  · refine Classical.byContradiction fun hn => ?_
    by_cases he : 0 ≤ excess es v
    · have := net_full h2 hv fun e he' hor => by
        obtain ⟨u, hu, ⟨_, e1, e2, _⟩ | ⟨x, e1, e2, _⟩⟩ := balance_shape h2 he'
        · have hlt : ¬ e.flow < e.cap := fun hlt => hn (by
            have := (hQ e (List.mem_append_right _ he')).1 (e1 ▸ hs) hlt
            rcases hor with h | h
            · exact h ▸ this
            · omega)
          have := hbd e he'; omega
        · rcases hor with h | h
          · omega
          · rw [h] at e1; subst e1; omega
      omega
    · have := (net_balance h2 hbd hv).2 (by omega)
      omega
  · by_cases he : excess es v < 0
    · have := net_full h2 hv fun e he' hor => by
        obtain ⟨u, hu, ⟨x, e1, e2, _⟩ | ⟨_, e1, e2, _⟩⟩ := balance_shape h2 he'
        · rcases hor with h | h
          · rw [h] at e2; subst e2; omega
          · omega
        · have hlt : ¬ e.flow < e.cap := fun hlt => ht (by
            rcases hor with h | h
            · omega
            · exact e2 ▸ (hQ e (List.mem_append_right _ he')).1 (h ▸ hx) hlt)
          have := hbd e he'; omega
      omega
    · have := (net_balance h2 hbd hv).1 (by omega)
      omega
  · rw [hfl] at hp
    obtain ⟨x, hx, e1, e2, e3, e4⟩ := zip_flow h1 p hp
    exact e2 ▸ (hQ x (List.mem_append_left _ hx)).1 (e1 ▸ hq) (by omega)
  · rw [hfl] at hp
    obtain ⟨x, hx, e1, e2, e3, e4⟩ := zip_flow h1 p hp
    exact e1 ▸ (hQ x (List.mem_append_left _ hx)).2 (e2 ▸ hq) (by omega)

end Gcs.GlobalCardinality.Gac
