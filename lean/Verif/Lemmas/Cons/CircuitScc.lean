import Verif.Model.Cons.Circuit
import Verif.Lemmas.Cons.Tour
import Verif.Lemmas.Cons.Inverse
import Verif.Lemmas.Cons.ValueConsistent

/-!
# Exploring the graph of possible successors
-/

namespace Gcs.Circuit
open IntervalSet AllDifferent Gac

/-- All values are nodes. -/
def Rng (succ : List VarId) (d : Doms) : Prop := ∀ x ∈ succ, ∀ a, Within d a → 0 ≤ x.eval a ∧ x.eval a < succ.length

theorem Rng.sub {succ : List VarId} {d d' : Doms} (h : Rng succ d) (hs : ∀ a, Within d' a → Within d a) : Rng succ d' := fun x hx a ha => h x hx a (hs a ha)

/-- Edges of the graph. -/
def E (succ : List VarId) (d : Doms) (u w : Nat) : Prop := ∃ x, succ[u]? = some x ∧ Poss d x (w : Int)

theorem E.sub {succ : List VarId} {d d' : Doms} (hs : ∀ a, Within d' a → Within d a) {u w : Nat} (h : E succ d' u w) : E succ d u w := by
  obtain ⟨x, hx, a, ha, e⟩ := h
  exact ⟨x, hx, a, hs a ha, e⟩

/-- The successors that an assignment gives. -/
def fn (succ : List VarId) (a : Asg) : Nat → Nat := next (succ.map (·.eval a))

theorem fn_eq {succ : List VarId} {a : Asg} {u : Nat} {x : VarId} (hx : succ[u]? = some x) : fn succ a u = (x.eval a).toNat := by
  rw [fn, next, List.getD_eq_getElem?_getD, List.getElem?_map, hx]; rfl

theorem fn_cast {succ : List VarId} {d : Doms} {a : Asg} (hr : Rng succ d) (ha : Within d a) {u : Nat} {x : VarId} (hx : succ[u]? = some x) : (fn succ a u : Int) = x.eval a := by
  rw [fn_eq hx, Int.toNat_of_nonneg (hr x (List.mem_of_getElem? hx) a ha).1]

theorem fn_edge {succ : List VarId} {d : Doms} {a : Asg} (hr : Rng succ d) (ha : Within d a) {u : Nat} (hu : u < succ.length) : E succ d u (fn succ a u) :=
  ⟨_, List.getElem?_eq_getElem hu, a, ha, (fn_cast hr ha (List.getElem?_eq_getElem hu)).symm⟩

theorem Rng.vals {succ : List VarId} {d : Doms} {a : Asg} (hr : Rng succ d) (ha : Within d a) : ∀ v ∈ succ.map (·.eval a), (0 : Int) ≤ v ∧ v < ((succ.map (·.eval a)).length : Nat) := by
  intro v hv
  obtain ⟨x, hx, rfl⟩ := List.mem_map.1 hv
  rw [List.length_map]; exact hr x hx a ha

theorem tour_loop {succ : List VarId} {a : Asg} (h : Tour (succ.map (·.eval a))) : Loop (fn succ a) succ.length := by
  have := Loop.of_tour h
  rwa [List.length_map] at this

theorem toNode_roo {n : Nat} {w : Int} (h : 0 ≤ w ∧ w < n) : toNode n w = .ok w.toNat := by rw [toNode, if_pos h]

/-- Paths. -/
inductive Path (G : Nat → Nat → Prop) : Nat → Nat → Prop
  | here (u : Nat) : Path G u u
  | on {u v w : Nat} : G u v → Path G v w → Path G u w

theorem Path.trans {G : Nat → Nat → Prop} {u v w : Nat} (h : Path G u v) (k : Path G v w) : Path G u w := by
  induction h with
  | here => exact k
  | on e _ ih => exact .on e (ih k)

theorem Path.one {G : Nat → Nat → Prop} {u v : Nat} (h : G u v) : Path G u v := .on h (.here v)

/-- Visit numbers are given out in order. -/
structure Num (n : Nat) (s : Scc) : Prop where
  lt : ∀ u k, s.visit u = some k → u < n ∧ k < s.count
  inj : ∀ u v k, s.visit u = some k → s.visit v = some k → u = v
  onto : ∀ k < s.count, ∃ u, s.visit u = some k
  root : s.visit 0 = some 0

section
variable {n : Nat} {s : Scc} (h : Num n s)
include h

theorem Num.pos : 0 < s.count := (h.lt 0 0 h.root).2

/-- The nodes in the order of their numbers. -/
theorem Num.order : ∃ l : List Nat, l.length = s.count ∧ l.Nodup ∧ ∀ u, u ∈ l ↔ ∃ k, s.visit u = some k := by
  classical
  refine ⟨(List.range s.count).map fun k => if hk : k < s.count then (h.onto k hk).choose else 0, by simp, ?_, fun u => ?_⟩
  · rw [List.nodup_iff_pairwise_ne, List.pairwise_map]
    refine List.Pairwise.imp_of_mem (R := (· < ·)) (fun {i j} hi hj hij e => ?_) List.pairwise_lt_range
    rw [List.mem_range] at hi hj
    rw [dif_pos hi, dif_pos hj] at e
    have h1 := (h.onto i hi).choose_spec
    have h2 := (h.onto j hj).choose_spec
    rw [e, h2] at h1
    cases h1
    omega
  · rw [List.mem_map]
    constructor
    · rintro ⟨k, hk, rfl⟩
      rw [List.mem_range] at hk
      rw [dif_pos hk]
      exact ⟨k, (h.onto k hk).choose_spec⟩
    · rintro ⟨k, hk⟩
      have hlt := (h.lt u k hk).2
      refine ⟨k, List.mem_range.2 hlt, ?_⟩
      rw [dif_pos hlt]
      exact h.inj _ _ k (h.onto k hlt).choose_spec hk

theorem Num.le : s.count ≤ n := by
  obtain ⟨l, h1, h2, h3⟩ := h.order
  have := length_le_of_subset l (List.range n) h2 fun u hu => by
    obtain ⟨k, hk⟩ := (h3 u).1 hu
    exact List.mem_range.2 (h.lt u k hk).1
  rwa [h1, List.length_range] at this

theorem Num.room {u : Nat} (hu : u < n) (hv : s.visit u = none) : s.count < n := by
  obtain ⟨l, h1, h2, h3⟩ := h.order
  have := length_le_of_subset (u :: l) (List.range n) (List.nodup_cons.2 ⟨fun hm => by obtain ⟨k, hk⟩ := (h3 u).1 hm; rw [hv] at hk; exact (nomatch hk), h2⟩) fun v hm => by
    rcases List.mem_cons.1 hm with rfl | hm
    · exact List.mem_range.2 hu
    · obtain ⟨k, hk⟩ := (h3 v).1 hm
      exact List.mem_range.2 (h.lt v k hk).1
  rw [List.length_cons, h1, List.length_range] at this
  omega

theorem Num.full (hc : s.count = n) {u : Nat} (hu : u < n) : ∃ k, s.visit u = some k := by
  cases e : s.visit u with
  | none => have := h.room hu e; omega
  | some k => exact ⟨k, rfl⟩

theorem Num.count_eq (ha : ∀ u < n, ∃ k, s.visit u = some k) : s.count = n := by
  obtain ⟨l, h1, h2, h3⟩ := h.order
  have := length_le_of_subset (List.range n) l List.nodup_range fun u hu => (h3 u).2 (ha u (List.mem_range.1 hu))
  rw [h1, List.length_range] at this
  have := h.le
  omega

theorem Num.enter {u : Nat} (hu : u < n) (hv : s.visit u = none) : Num n (s.enter u) where
  lt v k hk := by
    simp only [Scc.enter] at hk ⊢
    by_cases e : v = u
    · subst e; rw [put_same] at hk; cases hk; omega
    · rw [put_ne _ _ e] at hk; have := h.lt v k hk; omega
  inj v w k h1 h2 := by
    simp only [Scc.enter] at h1 h2
    by_cases e : v = u <;> by_cases e' : w = u
    · omega
    · subst e; rw [put_same] at h1; rw [put_ne _ _ e'] at h2; cases h1; have := h.lt w _ h2; omega
    · subst e'; rw [put_same] at h2; rw [put_ne _ _ e] at h1; cases h2; have := h.lt v _ h1; omega
    · rw [put_ne _ _ e] at h1; rw [put_ne _ _ e'] at h2; exact h.inj v w k h1 h2
  onto k hk := by
    simp only [Scc.enter] at hk ⊢
    by_cases e : k = s.count
    · subst e; exact ⟨u, put_same _ _ _⟩
    · obtain ⟨v, hv'⟩ := h.onto k (by omega)
      exact ⟨v, by rw [put_ne _ _ (by rintro rfl; rw [hv] at hv'; cases hv')]; exact hv'⟩
  root := by
    simp only [Scc.enter]
    rw [put_ne _ _ (by rintro rfl; rw [h.root] at hv; cases hv)]; exact h.root

end

theorem Num.lower {n : Nat} {s : Scc} (h : Num n s) (u k : Nat) : Num n (s.lower u k) := ⟨h.lt, h.inj, h.onto, h.root⟩

theorem Num.init {n : Nat} (hn : 0 < n) : Num n Scc.init := by
  have key : ∀ u k, Scc.init.visit u = some k → u = 0 ∧ k = 0 := by
    intro u k h
    simp only [Scc.init] at h
    by_cases e : u = 0
    · subst e; rw [put_same] at h; cases h; exact ⟨rfl, rfl⟩
    · rw [put_ne _ _ e] at h; cases h
  refine ⟨fun u k h => ?_, fun u v k h1 h2 => ?_, fun k hk => ?_, by simp only [Scc.init]; exact put_same _ _ _⟩
  · obtain ⟨rfl, rfl⟩ := key u k h; exact ⟨hn, Nat.one_pos⟩
  · rw [(key u k h1).1, (key v k h2).1]
  · simp only [Scc.init] at hk
    exact ⟨0, by rw [show k = 0 by omega]; simp only [Scc.init]; exact put_same _ _ _⟩

/-- What only adds numbers. -/
structure Grown (n : Nat) (s s' : Scc) : Prop where
  num : Num n s'
  keep : ∀ x k, s.visit x = some k → s'.visit x = some k
  old : ∀ x k, s'.visit x = some k → k < s.count → s.visit x = some k
  start : s'.startPrev = s.startPrev
  stop : s'.endPrev = s.endPrev
  count : s.count ≤ s'.count

theorem Grown.trans {n : Nat} {s s' s'' : Scc} (h : Grown n s s') (k : Grown n s' s'') : Grown n s s'' where
  num := k.num
  keep x i hi := k.keep x i (h.keep x i hi)
  old x i hi hl := h.old x i (k.old x i hi (Nat.lt_of_lt_of_le hl h.count)) hl
  start := k.start.trans h.start
  stop := k.stop.trans h.stop
  count := Nat.le_trans h.count k.count

theorem Grown.lower {n : Nat} {s s' : Scc} (h : Grown n s s') (u k : Nat) : Grown n s (s'.lower u k) := ⟨h.num.lower u k, h.keep, h.old, h.start, h.stop, h.count⟩

theorem Grown.enter {n : Nat} {s : Scc} (h : Num n s) {u : Nat} (hu : u < n) (hv : s.visit u = none) : Grown n s (s.enter u) where
  num := h.enter hu hv
  keep x k hk := by
    simp only [Scc.enter]
    rw [put_ne _ _ (by rintro rfl; rw [hv] at hk; cases hk)]; exact hk
  old x k hk hl := by
    simp only [Scc.enter] at hk
    by_cases e : x = u
    · subst e; rw [put_same] at hk; cases hk; omega
    · rw [put_ne _ _ e] at hk; exact hk
  start := rfl
  stop := rfl
  count := Nat.le_succ _

/-- No edges lead up from the numbers below `m`, except from the root. -/
def Below (succ : List VarId) (m : Nat) (s : Scc) (d : Doms) : Prop := ∀ x i, x ≠ 0 → s.visit x = some i → i < m → ∀ y, E succ d x y → ∃ j, s.visit y = some j ∧ j < m

theorem Below.sub {succ : List VarId} {m : Nat} {s : Scc} {d d' : Doms} (h : Below succ m s d) (hs : ∀ a, Within d' a → Within d a) : Below succ m s d' := fun x i hx hi hm y e => h x i hx hi hm y (e.sub hs)

theorem Below.grown {succ : List VarId} {m n : Nat} {s s' : Scc} {d : Doms} (h : Below succ m s d) (hg : Grown n s s') (hm : m ≤ s.count) : Below succ m s' d := by
  intro x i hx hi hlt y e
  obtain ⟨j, h1, h2⟩ := h x i hx (hg.old x i hi (by omega)) hlt y e
  exact ⟨j, hg.keep y j h1, h2⟩

/-- What is known about the subtrees that have been dealt with. -/
structure Subtrees (succ : List VarId) (s : Scc) (d : Doms) : Prop where
  lower : Below succ s.startPrev s d
  upper : Below succ (s.endPrev + 1) s d
  le : s.startPrev ≤ s.endPrev
  count : s.endPrev < s.count

theorem Subtrees.sub {succ : List VarId} {s : Scc} {d d' : Doms} (h : Subtrees succ s d) (hs : ∀ a, Within d' a → Within d a) : Subtrees succ s d' := ⟨h.lower.sub hs, h.upper.sub hs, h.le, h.count⟩

theorem Subtrees.grown {succ : List VarId} {n : Nat} {s s' : Scc} {d : Doms} (h : Subtrees succ s d) (hg : Grown n s s') : Subtrees succ s' d := by
  have h1 := h.le
  have h2 := h.count
  have h3 := hg.count
  refine ⟨?_, ?_, ?_, ?_⟩
  · rw [hg.start]; exact h.lower.grown hg (by omega)
  · rw [hg.stop]; exact h.upper.grown hg (by omega)
  · rw [hg.start, hg.stop]; exact h.le
  · rw [hg.stop]; omega

/-- A set of numbers that no edge leaves, except from the root, as a set of nodes. -/
theorem Below.closed {succ : List VarId} {m : Nat} {s : Scc} {d : Doms} (h : Below succ m s d) {a : Asg} (hr : Rng succ d) (ha : Within d a) :
    ∀ x < succ.length, x ≠ 0 → (∃ i, s.visit x = some i ∧ i < m) → ∃ i, s.visit (fn succ a x) = some i ∧ i < m := by
  rintro x hx h0 ⟨i, hi, hm⟩
  exact h x i h0 hi hm _ (fn_edge hr ha hx)

/-- Edges from later subtrees cannot skip the previous one. -/
theorem Subtrees.noSkip {succ : List VarId} {s : Scc} {d : Doms} (h : Subtrees succ s d) (hn : Num succ.length s) {a : Asg} (hr : Rng succ d) (ha : Within d a) (ht : Tour (succ.map (·.eval a))) {u : Nat} (hu : u < succ.length)
    (hup : ∀ k, s.visit u = some k → s.endPrev < k) : ∀ j, s.visit (fn succ a u) = some j → s.startPrev ≤ j := by
  intro j hj
  apply Nat.le_of_not_lt
  intro hlt
  have h1 := h.le
  have h2 := h.count
  obtain ⟨v, hv⟩ := hn.onto s.startPrev (by omega)
  refine (tour_loop ht).noSkip (A := fun x => ∃ i, s.visit x = some i ∧ i < s.startPrev) (B := fun x => ∃ i, s.visit x = some i ∧ i < s.endPrev + 1) (r := 0) (u := u) (v := v) (hn.lt 0 0 hn.root).1 hu
    (hn.lt v _ hv).1 (h.lower.closed hr ha) (h.upper.closed hr ha) ?_ ⟨0, hn.root, by omega⟩ ⟨_, hv, by omega⟩ ?_ ?_ ⟨j, hj, hlt⟩
  · rintro ⟨i, hi, hle⟩
    have := hup i hi; omega
  · rintro ⟨i, hi, hle⟩
    rw [hv] at hi; cases hi; omega
  · rintro rfl
    rw [hn.root] at hv; have := Option.some.inj hv; omega

section
variable {σ μ : Type} {J : Job}

theorem ver_overValues {β : Type} {x : VarId} {f : β → Int → Prog σ μ β} {b : β} {d : Doms} (I : Prop → β → List Int → Doms → Prop) (ho : J.R .overflow) (hd : DomsOK d) (hl : d.length = J.n) (hx : x.Valid J.n)
    (hI : ∀ g, Lists (Poss d x) g → I (g.2 = none) b g.1 d)
    (step : ∀ T b w ws d', DomsOK d' → d'.length = J.n → I T b (w :: ws) d' → (f b w).Ver J (fun _ => False) (fun b' d'' => I T b' ws d'') d') :
    (overValues x f b).Ver J (fun _ => False) (fun b' d' => I True b' [] d') d := by
  refine ver_ask (f := (eachValue · x)) ho (listed_roo hd (hl ▸ hx)) fun g hg => ?_
  refine ver_seq (S := fun _ => False) hd hl (fun _ h => h) (ver_forEachWith (I (g.2 = none)) (step _) g.1 b d hd hl (hI g hg)) fun r d' _ _ _ hr => ?_
  cases e : g.2 with
  | none => rw [e, eq_true (rfl : (none : Option Err) = none)] at hr; exact hr
  | some e' => rw [hg.2.2 e' e]; exact ho

/-- What an edge that has been looked at is known to satisfy, while `u` is explored from the state `s`. -/
def Handled (s : Scc) (u : Nat) (acc : Scc × List (Nat × Nat)) (x y : Nat) : Prop := ∃ j, acc.1.visit y = some j ∧ acc.1.low u ≤ j ∧ (s.InPrev j → (x, y) ∈ acc.2)

/-- A path to something with a smaller number. -/
def Down (G : Nat → Nat → Prop) (s : Scc) (x k : Nat) : Prop := ∃ y j, Path G x y ∧ s.visit y = some j ∧ j < k

/-- After `u` has been explored. -/
structure Explored (succ : List VarId) (G : Nat → Nat → Prop) (s : Scc) (u : Nat) (r : Scc × List (Nat × Nat)) (d : Doms) : Prop where
  grown : Grown succ.length s r.1
  num : r.1.visit u = some s.count
  same : ∀ x k, s.visit x = some k → r.1.low x = s.low x
  low : r.1.low u < s.count
  attained : ∃ y, Path G u y ∧ r.1.visit y = some (r.1.low u)
  edges : ∀ x k, r.1.visit x = some k → s.count ≤ k → ∀ y, E succ d x y → Handled s u r x y
  down : ∀ x k, r.1.visit x = some k → s.count ≤ k → Path G u x ∧ Down G r.1 x k
  back : ∀ e ∈ r.2, e.1 < succ.length ∧ InI64 (e.2 : Int)

/-- While `u` is explored. -/
structure Mid (succ : List VarId) (G : Nat → Nat → Prop) (s : Scc) (u : Nat) (T : Prop) (acc : Scc × List (Nat × Nat)) (ws : List Int) (d : Doms) : Prop where
  grown : Grown succ.length (s.enter u) acc.1
  same : ∀ x k, s.visit x = some k → acc.1.low x = s.low x
  low : acc.1.low u ≤ s.count
  attained : ∃ y, Path G u y ∧ acc.1.visit y = some (acc.1.low u)
  own : ∀ y, E succ d u y → (y : Int) ∈ ws ∨ ¬ T ∨ Handled s u acc u y
  edges : ∀ x k, acc.1.visit x = some k → s.count < k → ∀ y, E succ d x y → Handled s u acc x y
  down : ∀ x k, acc.1.visit x = some k → s.count < k → Path G u x ∧ Down G acc.1 x k
  back : ∀ e ∈ acc.2, e.1 < succ.length ∧ InI64 (e.2 : Int)
  rng : Rng succ d
  subs : Subtrees succ s d
  graph : ∀ x y, E succ d x y → G x y
  todo : ∀ w ∈ ws, InI64 w ∧ 0 ≤ w ∧ w < succ.length ∧ G u w.toNat

variable {succ : List VarId} {G : Nat → Nat → Prop} {s : Scc} {u : Nat}

theorem Handled.grow {acc acc' : Scc × List (Nat × Nat)} {x y : Nat} (h : Handled s u acc x y) (hk : ∀ y j, acc.1.visit y = some j → acc'.1.visit y = some j) (hlow : acc'.1.low u ≤ acc.1.low u) (hb : ∀ e ∈ acc.2, e ∈ acc'.2) :
    Handled s u acc' x y := by
  obtain ⟨j, h1, h2, h3⟩ := h
  exact ⟨j, hk y j h1, Nat.le_trans hlow h2, fun hp => hb _ (h3 hp)⟩

theorem Down.grow {s s' : Scc} {x k : Nat} (h : Down G s x k) (hk : ∀ y j, s.visit y = some j → s'.visit y = some j) : Down G s' x k := by
  obtain ⟨y, j, h1, h2, h3⟩ := h
  exact ⟨y, j, h1, hk y j h2, h3⟩

theorem low_same (s : Scc) (u k : Nat) : (s.lower u k).low u = min (s.low u) k := put_same _ _ _
theorem low_ne (s : Scc) {u x : Nat} (k : Nat) (h : x ≠ u) : (s.lower u k).low x = s.low x := put_ne _ _ h

/-- One more value has been looked at, and nothing was explored. -/
theorem Mid.step {T : Prop} {acc : Scc × List (Nat × Nat)} {w : Int} {ws : List Int} {d d' : Doms} (h : Mid succ G s u T acc (w :: ws) d) (hu : s.visit u = none) (hs : ∀ a, Within d' a → Within d a) {k : Nat} {bs : List (Nat × Nat)}
    (hk : acc.1.visit w.toNat = some k) (hb : ∀ e ∈ acc.2, e ∈ bs) (hb' : ∀ e ∈ bs, e.1 < succ.length ∧ InI64 (e.2 : Int)) (hp : s.InPrev k → (u, w.toNat) ∈ bs) : Mid succ G s u T (acc.1.lower u k, bs) ws d' where
  grown := h.grown.lower u k
  same x i hi := by
    rw [low_ne _ _ (by rintro rfl; rw [hu] at hi; cases hi)]; exact h.same x i hi
  low := by
    have := h.low
    rw [low_same]; omega
  attained := by
    rw [low_same]
    by_cases hle : acc.1.low u ≤ k
    · rw [Nat.min_eq_left hle]; exact h.attained
    · rw [Nat.min_eq_right (by omega)]
      exact ⟨w.toNat, .one (h.todo w List.mem_cons_self).2.2.2, hk⟩
  own y hy := by
    have hle : (acc.1.lower u k).low u ≤ acc.1.low u := by rw [low_same]; omega
    rcases h.own y (hy.sub hs) with hm | hm | hm
    · rcases List.mem_cons.1 hm with e | hm
      · refine .inr (.inr ⟨k, ?_, ?_, fun hq => ?_⟩)
        · rw [show y = w.toNat by omega]; exact hk
        · show (acc.1.lower u k).low u ≤ k
          rw [low_same]; omega
        · rw [show y = w.toNat by omega]; exact hp hq
      · exact .inl hm
    · exact .inr (.inl hm)
    · exact .inr (.inr (hm.grow (fun _ _ h => h) hle hb))
  edges x i hi hlt y hy := (h.edges x i hi hlt y (hy.sub hs)).grow (fun _ _ h => h) (by rw [low_same]; omega) hb
  down := h.down
  back := hb'
  rng := h.rng.sub hs
  subs := h.subs.sub hs
  graph x y e := h.graph x y (e.sub hs)
  todo w hw := h.todo w (List.mem_cons_of_mem _ hw)

/-- One more value has been looked at, and was explored. -/
theorem Mid.explored {T : Prop} {acc r : Scc × List (Nat × Nat)} {w : Int} {ws : List Int} {d d' : Doms} (h : Mid succ G s u T acc (w :: ws) d) (hu : s.visit u = none) (hs : ∀ a, Within d' a → Within d a)
    (hr : Explored succ G acc.1 w.toNat r d') : Mid succ G s u T (r.1.lower u (r.1.low w.toNat), acc.2 ++ r.2) ws d' := by
  have hue : acc.1.visit u = some s.count := h.grown.keep u _ (put_same _ _ _)
  have hlu : r.1.low u = acc.1.low u := hr.same u _ hue
  have hc : s.count < acc.1.count := h.grown.count
  have hw := h.todo w List.mem_cons_self
  have hmin : (r.1.lower u (r.1.low w.toNat)).low u = min (acc.1.low u) (r.1.low w.toNat) := by rw [low_same, hlu]
  have hprev : ∀ j, s.InPrev j ↔ acc.1.InPrev j := fun j => by
    have h1 : acc.1.startPrev = s.startPrev := h.grown.start
    have h2 : acc.1.endPrev = s.endPrev := h.grown.stop
    rw [Scc.InPrev, Scc.InPrev, h1, h2]
  have hl1 : (r.1.lower u (r.1.low w.toNat)).low u ≤ acc.1.low u := by omega
  have hl2 : (r.1.lower u (r.1.low w.toNat)).low u ≤ r.1.low w.toNat := by omega
  refine ⟨(h.grown.trans hr.grown).lower _ _, fun x i hi => ?_, ?_, ?_, fun y hy => ?_, fun x i hi hlt y hy => ?_, fun x i hi hlt => ?_, fun e he => ?_, h.rng.sub hs, h.subs.sub hs, fun x y e => h.graph x y (e.sub hs),
    fun w hw => h.todo w (List.mem_cons_of_mem _ hw)⟩
  · have hxu : x ≠ u := by rintro rfl; rw [hu] at hi; cases hi
    rw [low_ne _ _ hxu, hr.same x i (h.grown.keep x i ?_)]
    · exact h.same x i hi
    · show put s.visit u _ x = _
      rw [put_ne _ _ hxu]; exact hi
  · have := h.low; show (r.1.lower u (r.1.low w.toNat)).low u ≤ _; omega
  · show ∃ y, _ ∧ r.1.visit y = some ((r.1.lower u (r.1.low w.toNat)).low u)
    rw [hmin]
    by_cases hle : acc.1.low u ≤ r.1.low w.toNat
    · rw [Nat.min_eq_left hle]
      obtain ⟨y, h1, h2⟩ := h.attained
      exact ⟨y, h1, hr.grown.keep y _ h2⟩
    · rw [Nat.min_eq_right (by omega)]
      obtain ⟨y, h1, h2⟩ := hr.attained
      exact ⟨y, .on hw.2.2.2 h1, h2⟩
  · rcases h.own y (hy.sub hs) with hm | hm | hm
    · rcases List.mem_cons.1 hm with e | hm
      · refine .inr (.inr ⟨acc.1.count, ?_, ?_, fun hq => ?_⟩)
        · rw [show y = w.toNat by omega]; exact hr.num
        · have := hr.low
          show (r.1.lower u (r.1.low w.toNat)).low u ≤ _; omega
        · have := h.subs.count
          have := hq.2; omega
      · exact .inl hm
    · exact .inr (.inl hm)
    · exact .inr (.inr (hm.grow hr.grown.keep hl1 fun e he => List.mem_append_left _ he))
  · by_cases hlo : i < acc.1.count
    · exact (h.edges x i (hr.grown.old x i hi hlo) hlt y (hy.sub hs)).grow hr.grown.keep hl1 fun e he => List.mem_append_left _ he
    · obtain ⟨j, h1, h2, h3⟩ := hr.edges x i hi (by omega) y hy
      exact ⟨j, h1, Nat.le_trans hl2 h2, fun hq => List.mem_append_right _ (h3 ((hprev j).1 hq))⟩
  · by_cases hlo : i < acc.1.count
    · obtain ⟨h1, h2⟩ := h.down x i (hr.grown.old x i hi hlo) hlt
      exact ⟨h1, h2.grow hr.grown.keep⟩
    · obtain ⟨h1, h2⟩ := hr.down x i hi (by omega)
      exact ⟨.on hw.2.2.2 h1, h2⟩
  · rcases List.mem_append.1 he with he | he
    · exact h.back e he
    · exact hr.back e he

/-- The start. -/
theorem Mid.start {d : Doms} {x : VarId} {g : Gen Int} (hn : Num succ.length s) (hul : u < succ.length) (hu : s.visit u = none) (hr : Rng succ d) (hs : Subtrees succ s d) (hG : ∀ x y, E succ d x y → G x y) (hx : succ[u]? = some x)
    (hg : Lists (Poss d x) g) : Mid succ G s u (g.2 = none) (s.enter u, []) g.1 d := by
  have hse : (s.enter u).visit u = some s.count := put_same _ _ _
  have hle : (s.enter u).low u = s.count := put_same _ _ _
  have hge := Grown.enter hn hul hu
  refine ⟨⟨hge.num, fun _ _ h => h, fun _ _ h _ => h, rfl, rfl, Nat.le_refl _⟩, fun y k hk => ?_, by rw [hle]; exact Nat.le_refl _, ⟨u, .here u, by rw [hle]; exact hse⟩, fun y hy => ?_, fun y k hk hlt => ?_, fun y k hk hlt => ?_,
    fun e he => (nomatch he), hr, hs, hG, fun w hw => ?_⟩
  · show put s.low u _ y = _
    rw [put_ne _ _ (by rintro rfl; rw [hu] at hk; cases hk)]
  · by_cases hT : g.2 = none
    · obtain ⟨x', hx', hp⟩ := hy
      rw [hx] at hx'; cases hx'
      exact .inl (hg.2.1 hT _ hp)
    · exact .inr (.inl hT)
  · have := (hge.num.lt y k hk).2
    simp only [Scc.enter] at this; omega
  · have := (hge.num.lt y k hk).2
    simp only [Scc.enter] at this; omega
  · obtain ⟨h1, a, ha, e⟩ := hg.1 w hw
    have := hr x (List.mem_of_getElem? hx) a ha
    rw [e] at this
    refine ⟨h1, this.1, this.2, hG _ _ ⟨x, hx, a, ha, ?_⟩⟩
    rw [Int.toNat_of_nonneg this.1]; exact e

/-- The end. -/
theorem Mid.done {acc : Scc × List (Nat × Nat)} {d : Doms} (h : Mid succ G s u True acc [] d) (hlow : acc.1.low u < s.count) (hu : s.visit u = none) (hul : u < succ.length) (hn : Num succ.length s) : Explored succ G s u acc d := by
  have hue : acc.1.visit u = some s.count := h.grown.keep u _ (put_same _ _ _)
  refine ⟨(Grown.enter hn hul hu).trans h.grown, hue, h.same, hlow, h.attained, fun x k hk hle y hy => ?_, fun x k hk hle => ?_, h.back⟩
  · by_cases e : k = s.count
    · subst e
      rw [h.grown.num.inj x u _ hk hue] at hy ⊢
      rcases h.own y hy with hm | hm | hm
      · cases hm
      · exact absurd trivial hm
      · exact hm
    · exact h.edges x k hk (by omega) y hy
  · by_cases e : k = s.count
    · subst e
      rw [h.grown.num.inj x u _ hk hue]
      obtain ⟨y, h1, h2⟩ := h.attained
      exact ⟨.here u, y, _, h1, h2, hlow⟩
    · exact h.down x k hk (by omega)

/-- If no edge leads back, there is no tour. -/
theorem Mid.stuck {acc : Scc × List (Nat × Nat)} {d : Doms} (h : Mid succ G s u True acc [] d) (hlow : acc.1.visit u = some (acc.1.low u)) (hn : Num succ.length s) (hul : u < succ.length) {a : Asg} (ha : Within d a) :
    ¬ Tour (succ.map (·.eval a)) := by
  intro ht
  have hue : acc.1.visit u = some s.count := h.grown.keep u _ (put_same _ _ _)
  rw [hue] at hlow
  have hlow := Option.some.inj hlow
  have key : ∀ x < succ.length, (∃ k, acc.1.visit x = some k ∧ s.count ≤ k) → ∃ k, acc.1.visit (fn succ a x) = some k ∧ s.count ≤ k := by
    rintro x hx ⟨k, hk, hle⟩
    have hy := fn_edge h.rng ha hx
    by_cases e : k = s.count
    · subst e
      have e' := h.grown.num.inj x u _ hk hue
      rw [e'] at hy ⊢
      rcases h.own _ hy with hm | hm | hm
      · cases hm
      · exact absurd trivial hm
      · obtain ⟨j, h1, h2, _⟩ := hm
        exact ⟨j, h1, by omega⟩
    · obtain ⟨j, h1, h2, _⟩ := h.edges x k hk (by omega) _ hy
      exact ⟨j, h1, by omega⟩
  obtain ⟨k, h1, h2⟩ := (tour_loop ht).closed (P := fun x => ∃ k, acc.1.visit x = some k ∧ s.count ≤ k) key hul (Nat.zero_lt_of_lt hul) ⟨_, hue, Nat.le_refl _⟩
  rw [h.grown.num.root] at h1
  cases h1
  have := hn.pos
  omega

theorem vecAt_get {u : Nat} {x : VarId} (hx : succ[u]? = some x) : vecAt succ u = .ok x := vecAt_ok.2 hx

theorem edge_ver {o : Options} {visit : Nat → Scc → Prog σ μ (Scc × List (Nat × Nat))} {x : VarId} (hC : ∀ a, J.C a → Tour (succ.map (·.eval a))) (hxv : x.Valid J.n) (hx : succ[u]? = some x) (hn : Num succ.length s) (hu : s.visit u = none)
    (hvisit : ∀ v s' d, DomsOK d → d.length = J.n → v < succ.length → Num succ.length s' → s'.visit v = none → Rng succ d → Subtrees succ s' d → (∀ x y, E succ d x y → G x y) → s.count < s'.count →
      (visit v s').Ver J (fun _ => False) (fun r d' => Explored succ G s' v r d') d)
    {T : Prop} {acc : Scc × List (Nat × Nat)} {w : Int} {ws : List Int} {d : Doms} (hd : DomsOK d) (hl : d.length = J.n) (h : Mid succ G s u T acc (w :: ws) d) :
    (edge o succ.length visit u x acc w).Ver J (fun _ => False) (fun b' d' => Mid succ G s u T b' ws d') d := by
  obtain ⟨hul, _⟩ := List.getElem?_eq_some_iff.1 hx
  have hw := h.todo w List.mem_cons_self
  have hue : acc.1.visit u = some s.count := h.grown.keep u _ (put_same _ _ _)
  have hgr := (Grown.enter hn hul hu).trans h.grown
  unfold edge
  rw [toNode_roo ⟨hw.2.1, hw.2.2.1⟩]
  show Prog.Ver _ _ _ (match acc.1.visit w.toNat with | none => _ | some k => _) d
  split
  · rename_i hv
    refine ver_seq (S := fun _ => False) hd hl (fun _ h => h) (hvisit w.toNat acc.1 d hd hl (by omega) h.grown.num hv h.rng (h.subs.grown hgr) h.graph (by have := h.grown.count; exact this)) fun r d' _ _ hs hr => ?_
    exact h.explored hu hs hr
  · rename_i k hk
    split
    · rename_i hp
      refine h.step hu (fun _ h => h) hk (fun e he => List.mem_append_left _ he) (fun e he => ?_) fun _ => List.mem_append_right _ (List.mem_singleton.2 rfl)
      rcases List.mem_append.1 he with he | he
      · exact h.back e he
      · rw [List.mem_singleton.1 he]
        exact ⟨hul, by show InI64 (w.toNat : Int); rw [Int.toNat_of_nonneg hw.2.1]; exact hw.1⟩
    · rename_i hp
      have hp' : ¬ s.InPrev k := by
        have h1 := hgr.start
        have h2 := hgr.stop
        rwa [Scc.InPrev, h1, h2] at hp
      refine ver_seq (S := fun _ => False) (Q' := fun _ _ => True) hd hl (fun _ h => h) (ver_onlyIf (fun hc => ?_) fun _ => trivial) fun _ d' _ _ hs _ => ?_
      · refine ver_tell_last (.ne hxv hw.1) (fun a ha hCa => ?_) fun _ _ _ _ => trivial
        rw [Lit.holds_ne]
        intro e
        have hf : fn succ a u = w.toNat := by rw [fn_eq hx, e]
        have := (h.subs.grown hgr).noSkip h.grown.num h.rng ha (hC a hCa) hul (fun k hk => by
          rw [hue] at hk; cases hk
          have := h.subs.count
          rw [hgr.stop]; exact this) k (by rw [hf]; exact hk)
        have := hc.2
        omega
      · exact h.step hu hs hk (fun _ h => h) h.back fun hq => absurd hq hp'

theorem explore_ver (o : Options) (ho : J.R .overflow) (hC : ∀ a, J.C a → Tour (succ.map (·.eval a))) (hv : ∀ x ∈ succ, x.Valid J.n) (f : Nat) : ∀ (u : Nat) (s : Scc) (d : Doms), DomsOK d → d.length = J.n → u < succ.length →
    Num succ.length s → s.visit u = none → Rng succ d → Subtrees succ s d → (∀ x y, E succ d x y → G x y) → succ.length < f + s.count →
    (explore o succ f u s : Prog σ μ _).Ver J (fun _ => False) (fun r d' => Explored succ G s u r d') d := by
  induction f with
  | zero =>
    intro u s d _ _ hul hn hu _ _ _ hf
    have := hn.le; omega
  | succ f ih =>
    intro u s d hd hl hul hn hu hr hs hG hf
    have hx : succ[u]? = some succ[u] := List.getElem?_eq_getElem hul
    have hxv := hv _ (List.getElem_mem hul)
    refine ver_lift (x := vecAt succ u) (P := fun y => y = succ[u]) ho (.inr ⟨_, vecAt_get hx, rfl⟩) fun y hy => ?_
    subst hy
    refine ver_seq (S := fun _ => False) hd hl (fun _ h => h) (ver_overValues (Mid succ G s u) ho hd hl hxv (fun g hg => Mid.start hn hul hu hr hs hG hx hg) fun T b w ws d' h1 h2 h3 =>
      edge_ver (o := o) hC hxv hx hn hu (fun v s' d k1 k2 k3 k4 k5 k6 k7 k8 k9 => ih v s' d k1 k2 k3 k4 k5 k6 k7 k8 (by omega)) h1 h2 h3) fun r d' _ _ _ hm => ?_
    split
    · rename_i hlow
      exact fun a ha hCa => hm.stuck hlow hn hul ha (hC a hCa)
    · rename_i hlow
      refine hm.done ?_ hu hul hn
      have := hm.low
      have hue : r.1.visit u = some s.count := hm.grown.keep u _ (put_same _ _ _)
      apply Nat.lt_of_le_of_ne this
      intro e
      rw [hue, e] at hlow
      exact hlow rfl

end

end Gcs.Circuit
