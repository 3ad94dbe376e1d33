import Verif.Lemmas.Cons.SortCertain
import Verif.Lemmas.Cons.KnapsackProp
import Verif.Spec.Sort

/-!
# The propagator of Sort
-/

namespace Gcs.Sort
open Gac IntervalSet

/-- Two lists with the same elements, by number. -/
theorem perm_index {α : Type} {xs ys : List α} (h : xs.Perm ys) : ∃ p : Nat → Nat, (∀ i < xs.length, p i < xs.length ∧ xs[i]? = ys[p i]?) ∧ ∀ i < xs.length, ∀ k < xs.length, p i = p k → i = k := by
  induction h with
  | nil => exact ⟨id, fun i h => absurd h (by simp), fun i h => absurd h (by simp)⟩
  | @cons x l1 l2 h ih =>
    obtain ⟨p, h1, h2⟩ := ih
    refine ⟨fun i => match i with | 0 => 0 | i + 1 => p i + 1, fun i hi => ?_, fun i hi k hk e => ?_⟩
    · cases i with
      | zero => exact ⟨hi, rfl⟩
      | succ i =>
        have := h1 i (by simpa using hi)
        exact ⟨by simpa using this.1, by simpa using this.2⟩
    · cases i with
      | zero =>
        cases k with
        | zero => rfl
        | succ k => exact absurd e (by simp)
      | succ i =>
        cases k with
        | zero => exact absurd e (by simp)
        | succ k => rw [h2 i (by simpa using hi) k (by simpa using hk) (by simpa using e)]
  | swap x y l =>
    refine ⟨fun i => match i with | 0 => 1 | 1 => 0 | i + 2 => i + 2, fun i hi => ?_, fun i hi k hk e => ?_⟩
    · match i with
      | 0 => exact ⟨by simp, rfl⟩
      | 1 => exact ⟨by simp, rfl⟩
      | i + 2 => exact ⟨hi, rfl⟩
    · match i, k with
      | 0, 0 => rfl
      | 0, 1 => simp at e
      | 0, k + 2 => simp at e
      | 1, 0 => simp at e
      | 1, 1 => rfl
      | 1, k + 2 => simp at e
      | i + 2, 0 => simp at e
      | i + 2, 1 => simp at e
      | i + 2, k + 2 => simpa using e
  | @trans l1 l2 l3 h12 _ ih1 ih2 =>
    obtain ⟨p, h1, h2⟩ := ih1
    obtain ⟨q, k1, k2⟩ := ih2
    have hl := h12.length_eq
    refine ⟨fun i => q (p i), fun i hi => ?_, fun i hi k hk e => ?_⟩
    · have a := h1 i hi
      have b := k1 (p i) (hl ▸ a.1)
      exact ⟨hl ▸ b.1, a.2.trans b.2⟩
    · exact h2 i hi k hk (k2 _ (hl ▸ (h1 i hi).1) _ (hl ▸ (h1 k hk).1) e)

variable {σ μ : Type} {J : Job} {d d0 : Doms} {x y : List VarId} {s : Snap}

/-- The bounds are what was read. -/
structure Reads (x y : List VarId) (d : Doms) (s : Snap) : Prop where
  lenX : x.length = s.n
  lenY : y.length = s.n
  x : ∀ i v, x[i]? = some v → InI64 (s.lx i) ∧ InI64 (s.ux i) ∧ (∀ a, Within d a → s.lx i ≤ v.eval a ∧ v.eval a ≤ s.ux i) ∧ (Known d v → ∀ a, Within d a → v.eval a = s.lx i ∧ v.eval a = s.ux i)
  y : ∀ j v, y[j]? = some v → InI64 (s.oly j) ∧ InI64 (s.ouy j) ∧ (∀ a, Within d a → s.oly j ≤ v.eval a ∧ v.eval a ≤ s.ouy j) ∧ (Known d v → ∀ a, Within d a → v.eval a = s.oly j ∧ v.eval a = s.ouy j)

theorem read_roo {vs : List VarId} (hd : DomsOK d) (hv : ∀ v ∈ vs, v.Valid d.length) : RightOrOverflow (AllDifferent.mapAll (bounds d ·) vs) (fun bs => bs.length = vs.length ∧ ∀ i v, vs[i]? = some v →
    InI64 (bs.getD i (0, 0)).1 ∧ InI64 (bs.getD i (0, 0)).2 ∧ (∀ a, Within d a → (bs.getD i (0, 0)).1 ≤ v.eval a ∧ v.eval a ≤ (bs.getD i (0, 0)).2) ∧
    (Known d v → ∀ a, Within d a → v.eval a = (bs.getD i (0, 0)).1 ∧ v.eval a = (bs.getD i (0, 0)).2)) := by
  refine (AllDifferent.mapAll_roo vs fun v h => bounds_roo hd (hv v h)).mono fun bs hb => ⟨hb.1, fun i v e => ?_⟩
  have hl := (List.getElem?_eq_some_iff.1 e).1
  have h := hb.2 i v bs[i] e (List.getElem?_eq_getElem (by rw [hb.1]; exact hl))
  have e2 : bs.getD i (0, 0) = bs[i] := by simp [List.getD_eq_getElem?_getD, hb.1, hl]
  rw [e2]
  exact ⟨h.1.1, h.2.1, fun a ha => ⟨h.1.2.le ha, h.2.2.ge ha⟩, fun k a ha => ⟨(h.1.2.eq k ha).symm, (h.2.2.eq k ha).symm⟩⟩

/-- Whatever is sorted is a solution, in numbers. -/
theorem Reads.sol (h : Reads x y d s) {a : Asg} (ha : Within d a) (hs : Sorts (x.map (·.eval a)) (y.map (·.eval a))) :
    ∃ p, Sol s (fun i => (x.getD i (.const 0)).eval a) (fun j => (y.getD j (.const 0)).eval a) p := by
  obtain ⟨p, h1, h2⟩ := perm_index hs.1.symm
  rw [List.length_map, h.lenX] at h1 h2
  have ax : ∀ i < s.n, x[i]? = some (x.getD i (.const 0)) := fun i hi => by
    have : i < x.length := h.lenX ▸ hi
    simp [List.getD_eq_getElem?_getD, this]
  have ay : ∀ i < s.n, y[i]? = some (y.getD i (.const 0)) := fun i hi => by
    have : i < y.length := h.lenY ▸ hi
    simp [List.getD_eq_getElem?_getD, this]
  refine ⟨p, ⟨fun i hi => (h.x i _ (ax i hi)).2.2.1 a ha, fun j hj => (h.y j _ (ay j hj)).2.2.1 a ha, fun j k hjk hk => ?_, fun i hi => (h1 i hi).1, h2, fun i hi => ?_⟩⟩
  · rcases Nat.lt_or_eq_of_le hjk with hlt | rfl
    · have hp := List.pairwise_iff_getElem.1 hs.2 j k (by rw [List.length_map, h.lenY]; omega) (by rw [List.length_map, h.lenY]; omega) hlt
      rw [List.getElem_map, List.getElem_map] at hp
      have e1 := ay j (by omega)
      have e2 := ay k hk
      rw [List.getElem?_eq_getElem (by rw [h.lenY]; omega)] at e1 e2
      rw [← Option.some.inj e1, ← Option.some.inj e2]
      exact hp
    · exact Int.le_refl _
  · have := (h1 i hi).2
    rw [List.getElem?_map, List.getElem?_map, ax i hi, ay _ (h1 i hi).1] at this
    simpa using this

/-- If everything is fixed, and the first matching is found, then it is sorted. -/
theorem Reads.sorted (h : Reads x y d s) (hk : ∀ v ∈ x ++ y, Known d v) (hc : s.crossed = false) {phi : List Nat} (hp : s.down = some phi) {a : Asg} (ha : Within d a) : Sorts (x.map (·.eval a)) (y.map (·.eval a)) := by
  have key := down_spec (s := s)
  rw [hp] at key
  obtain ⟨c1, c2, c3⟩ := key
  have hxy : ∀ j < s.n, s.ly j ≤ s.uy j := fun j hj => by
    have := List.any_eq_false.1 hc j (List.mem_range.2 hj)
    simpa using this
  have hx : ∀ i v, x[i]? = some v → v.eval a = s.lx i ∧ v.eval a = s.ux i := fun i v e => (h.x i v e).2.2.2 (hk v (List.mem_append_left _ (List.mem_of_getElem? e))) a ha
  have hy : ∀ j v, y[j]? = some v → v.eval a = s.ly j ∧ v.eval a = s.uy j := fun j v e => by
    have h1 := (h.y j v e).2.2.2 (hk v (List.mem_append_right _ (List.mem_of_getElem? e))) a ha
    have hj : j < s.n := h.lenY ▸ (List.getElem?_eq_some_iff.1 e).1
    have h2 := hxy j hj
    have h3 := oly_le (s := s) j
    have h4 := uy_le hj
    omega
  have hphi : phi.Perm (List.range x.length) := by
    refine (List.perm_ext_iff_of_nodup c1.nodup List.nodup_range).2 fun i => ?_
    rw [List.mem_range, h.lenX]
    refine ⟨fun hm => ?_, fun hi => c1.all c2 hi⟩
    obtain ⟨k, hk, e⟩ := List.getElem_of_mem hm
    exact (c1.lt k i (by rw [← e]; exact List.getElem?_eq_getElem hk)).1
  have e : y.map (·.eval a) = phi.map fun i => (x.getD i (.const 0)).eval a := by
    refine List.ext_getElem (by simp [h.lenY, c2]) fun j h1 h2 => ?_
    rw [List.getElem_map, List.getElem_map]
    have hj : j < s.n := by simpa [c2] using h2
    have hjy : j < y.length := h.lenY ▸ hj
    have q1 := hy j y[j] (List.getElem?_eq_getElem _)
    have at' : phi[j]? = some phi[j] := List.getElem?_eq_getElem _
    obtain ⟨l1, l2⟩ := c1.lt j _ at'
    have l3 := c3 j _ at'
    have hl : phi[j] < x.length := h.lenX ▸ l1
    have q2 := hx phi[j] (x.getD phi[j] (.const 0)) (by simp [List.getD_eq_getElem?_getD, hl])
    rw [lo_le hj] at l2
    rw [lt_hi hj] at l3
    omega
  constructor
  · rw [e]
    refine (hphi.map _).trans (List.Perm.of_eq ?_)
    refine List.ext_getElem (by simp) fun i h1 h2 => ?_
    have hl : i < x.length := by simpa using h1
    simp [List.getD_eq_getElem?_getD, hl]
  · rw [List.pairwise_iff_getElem]
    intro j k hj hk hjk
    rw [List.getElem_map, List.getElem_map]
    rw [List.length_map] at hj hk
    have q1 := hy j y[j] (List.getElem?_eq_getElem _)
    have q2 := hy k y[k] (List.getElem?_eq_getElem _)
    have := ly_mono (s := s) (Nat.le_of_lt hjk)
    omega

/-! ## Inferences -/

theorem certify_ok {b : Bool} (h : b = true) : certify b = .ok () := by rw [certify, if_pos h]

theorem next_roo {U V : Int} (hU : i64Min ≤ U) (h : U < V) (hV : InI64 V) : rawAdd i64Max U 1 = .ok (U + 1) ∧ InI64 (U + 1) := by
  have : InI64 (U + 1) := by simp only [InI64, i64Min, i64Max] at *; omega
  refine ⟨?_, this⟩
  rw [rawAdd, rawOut, if_pos]
  simp only [InI64, i64Min, i64Max, InW] at *
  omega

/-- What is needed of the snapshot for the inferences: it was taken before, and everything that holds is what is sorted. -/
structure Sees (J : Job) (x y : List VarId) (d : Doms) (s : Snap) : Prop where
  reads : Reads x y d s
  valid : ∀ v ∈ x ++ y, v.Valid J.n
  means : ∀ a, Within d a → J.C a → Sorts (x.map (·.eval a)) (y.map (·.eval a))

/-- Bounds that were there to begin with are 64-bit integers. -/
theorem Reads.ly_in (h : Reads x y d s) {j : Nat} (hj : j < s.n) : InI64 (s.ly j) := by
  induction j with
  | zero => exact (h.y 0 _ (List.getElem?_eq_getElem (by rw [h.lenY]; exact hj))).1
  | succ j ih =>
    have h1 := ih (by omega)
    have h2 := (h.y (j + 1) _ (List.getElem?_eq_getElem (by rw [h.lenY]; exact hj))).1
    simp only [Snap.ly, InI64, i64Min, i64Max] at *
    omega

theorem Reads.uy_in (h : Reads x y d s) {j : Nat} (hj : j < s.n) : InI64 (s.uy j) := by
  have key : ∀ k < s.n, InI64 (s.uyBack k) := by
    intro k
    induction k with
    | zero => exact fun hk => (h.y (s.n - 1) _ (List.getElem?_eq_getElem (by rw [h.lenY]; omega))).2.1
    | succ k ih =>
      intro hk
      have h1 := ih (by omega)
      have h2 := (h.y (s.n - 1 - (k + 1)) _ (List.getElem?_eq_getElem (by rw [h.lenY]; omega))).2.1
      simp only [Snap.uyBack, InI64, i64Min, i64Max] at *
      omega
  exact key _ (by omega)

theorem Reads.lx_in (h : Reads x y d s) {i : Nat} (hi : i < s.n) : InI64 (s.lx i) := (h.x i _ (List.getElem?_eq_getElem (by rw [h.lenX]; exact hi))).1
theorem Reads.ux_in (h : Reads x y d s) {i : Nat} (hi : i < s.n) : InI64 (s.ux i) := (h.x i _ (List.getElem?_eq_getElem (by rw [h.lenX]; exact hi))).2.1

variable {phi phi2 : List Nat}

theorem ver_inferY (hs : Sees J x y d0 s) (h1 : s.down = some phi) (h2 : s.up = some phi2) {j : Nat} {v : VarId} (hj : y[j]? = some v) (hd : DomsOK d) (hl : d.length = J.n) (hsub : ∀ a, Within d a → Within d0 a) :
    (s.inferY (phi.getD · 0) (phi2.reverse.getD · 0) j v : Prog σ μ Unit).Ver J (fun _ => False) (fun _ d' => ∀ a, Within d' a → Within d a) d := by
  have hjn : j < s.n := hs.reads.lenY ▸ (List.getElem?_eq_some_iff.1 hj).1
  have hv : v.Valid J.n := hs.valid v (List.mem_append_right _ (List.mem_of_getElem? hj))
  have hjx := (down_full h1).fits j hjn
  have e : y.getD j (.const 0) = v := by rw [List.getD_eq_getElem?_getD, hj]; rfl
  have hj2 : phi2.reverse.getD j 0 < s.n := by
    have key := up_spec (s := s)
    rw [h2] at key
    obtain ⟨k1, k2, _⟩ := key
    refine (k1.lt (s.n - 1 - j) _ ?_).1
    rw [List.getD_eq_getElem?_getD, List.getElem?_reverse (by omega), k2, List.getElem?_eq_getElem (by omega)]
    rfl
  have ly := hs.reads.ly_in hjn
  have uy := hs.reads.uy_in hjn
  have lx := hs.reads.lx_in hj2
  have ux := hs.reads.ux_in hjx.1
  refine ver_seq (S := fun _ => False) (Q' := fun _ d' => ∀ a, Within d' a → Within d a) hd hl (fun _ h => h) (ver_onlyIf (fun hlt => ?_) fun _ _ h => h) fun _ d1 k1 k2 _ k4 => ver_onlyIf (fun hlt => ?_) fun _ => k4
  · have hc := above_certain h2 hjn hlt
    rw [certify_ok hc]
    refine ver_tell_last (.ge hv ?_) (fun a ha hC => ?_) fun d' _ _ q3 a ha => ((q3 a).1 ha).1
    · simp only [InI64] at *; omega
    · obtain ⟨p, sol⟩ := hs.reads.sol (hsub a ha) (hs.means a (hsub a ha) hC)
      have := sol.above hjn hc
      rw [Lit.holds_ge]
      rwa [e] at this
  · have hc := below_certain h1 hjn hlt
    have hV := (hs.reads.y j v hj).2.1
    obtain ⟨e1, e2⟩ := next_roo (by simp only [InI64] at *; omega) hlt hV
    rw [certify_ok hc, e1]
    refine ver_tell_last (.lt hv e2) (fun a ha hC => ?_) fun d' _ _ q3 a ha => k4 a ((q3 a).1 ha).1
    obtain ⟨p, sol⟩ := hs.reads.sol (hsub a (k4 a ha)) (hs.means a (hsub a (k4 a ha)) hC)
    have := sol.below hjn hc
    rw [Lit.holds_lt]
    replace this : v.eval a ≤ min (s.ux (phi.getD j 0)) (s.uy j) := by rw [← e]; exact this
    exact Int.lt_add_one_of_le this

theorem ver_inferX (hs : Sees J x y d0 s) {q comp : Nat → Nat} (hc : Split s q comp) {i : Nat} {v : VarId} (hi : x[i]? = some v) {t : Nat × Nat × Int × Int} (ht : Spans s comp i t) (hd : DomsOK d) (hl : d.length = J.n) (hsub : ∀ a, Within d a → Within d0 a) :
    (s.inferX i t v : Prog σ μ Unit).Ver J (fun _ => False) (fun _ d' => ∀ a, Within d' a → Within d a) d := by
  have hin : i < s.n := hs.reads.lenX ▸ (List.getElem?_eq_some_iff.1 hi).1
  have hv : v.Valid J.n := hs.valid v (List.mem_append_left _ (List.mem_of_getElem? hi))
  have e : x.getD i (.const 0) = v := by rw [List.getD_eq_getElem?_getD, hi]; rfl
  have h1 := near_at ht.lo
  have h2 := near_at ht.hi
  have h3 := hi_le_n (s := s) i
  have ly := hs.reads.ly_in (j := t.1) (by omega)
  have uy := hs.reads.uy_in (j := t.2.1) (by omega)
  have lx := hs.reads.lx_in hin
  have ux := hs.reads.ux_in hin
  refine ver_seq (S := fun _ => False) (Q' := fun _ d' => ∀ a, Within d' a → Within d a) hd hl (fun _ h => h) (ver_onlyIf (fun hlt => ?_) fun _ _ h => h) fun _ d1 k1 k2 _ k4 => ver_onlyIf (fun hlt => ?_) fun _ => k4
  · have hb := hc.from_certain hin ht
    rw [certify_ok hb]
    refine ver_tell_last (.ge hv ?_) (fun a ha hC => ?_) fun d' _ _ q3 a ha => ((q3 a).1 ha).1
    · rw [ht.lower]; simp only [InI64] at *; omega
    · obtain ⟨p, sol⟩ := hs.reads.sol (hsub a ha) (hs.means a (hsub a ha) hC)
      have := sol.from hin hb
      rw [Lit.holds_ge, ht.lower]
      rwa [e] at this
  · have hb := hc.to_certain hin ht
    obtain ⟨e1, e2⟩ := next_roo (by rw [ht.upper]; simp only [InI64] at *; omega) hlt ux
    rw [certify_ok hb, e1]
    refine ver_tell_last (.lt hv e2) (fun a ha hC => ?_) fun d' _ _ q3 a ha => k4 a ((q3 a).1 ha).1
    obtain ⟨p, sol⟩ := hs.reads.sol (hsub a (k4 a ha)) (hs.means a (hsub a (k4 a ha)) hC)
    have := sol.to hin hb
    rw [Lit.holds_lt, ht.upper]
    rw [e] at this
    omega

/-- All spans are there. -/
theorem Split.spans {q comp : Nat → Nat} (hc : Split s q comp) : ∀ is : List Nat, (∀ i ∈ is, i < s.n) → ∃ ts, AllDifferent.mapAll (s.span comp) is = .ok ts ∧ ∀ (k i : Nat), is[k]? = some i → ∃ t, ts[k]? = some t ∧ Spans s comp i t
  | [], _ => ⟨[], rfl, fun k i h => by simp at h⟩
  | i :: is, h => by
    obtain ⟨t, e1, h1⟩ := hc.span (h i List.mem_cons_self)
    obtain ⟨ts, e2, h2⟩ := hc.spans is fun k hk => h k (List.mem_cons_of_mem _ hk)
    refine ⟨t :: ts, ?_, fun k i' hk => ?_⟩
    · rw [AllDifferent.mapAll, e1, Knapsack.chk_ok_bind, e2, Knapsack.chk_ok_bind]
      rfl
    · cases k with
      | zero => cases hk; exact ⟨t, rfl, h1⟩
      | succ k => exact h2 k i' hk

theorem ver_narrow (hs : Sees J x y d s) (h1 : s.down = some phi) (h2 : s.up = some phi2) (hd : DomsOK d) (hl : d.length = J.n) :
    (s.narrow x y (phi.getD · 0) (phi2.reverse.getD · 0) : Prog σ μ Unit).Ver J (fun _ => False) (fun _ d' => ∀ a, Within d' a → Within d a) d := by
  obtain ⟨c, e1, hc⟩ := (down_full h1).roots
  obtain ⟨ts, e2, hts⟩ := hc.spans (List.range s.n) fun i hi => List.mem_range.1 hi
  have atY : ∀ j < s.n, vecAt y j = .ok (y.getD j (.const 0)) ∧ y[j]? = some (y.getD j (.const 0)) := fun j hj => by
    have : j < y.length := hs.reads.lenY ▸ hj
    have e : y[j]? = some (y.getD j (.const 0)) := by simp [List.getD_eq_getElem?_getD, this]
    exact ⟨vecAt_ok.2 e, e⟩
  have atX : ∀ j < s.n, vecAt x j = .ok (x.getD j (.const 0)) ∧ x[j]? = some (x.getD j (.const 0)) := fun j hj => by
    have : j < x.length := hs.reads.lenX ▸ hj
    have e : x[j]? = some (x.getD j (.const 0)) := by simp [List.getD_eq_getElem?_getD, this]
    exact ⟨vecAt_ok.2 e, e⟩
  have l1 := ver_forEach (σ := σ) (μ := μ) (J := J) (f := fun j => (Prog.lift (vecAt y j)).bind fun v => s.inferY (phi.getD · 0) (phi2.reverse.getD · 0) j v) (fun rest d' => (∀ j ∈ rest, j < s.n) ∧ ∀ a, Within d' a → Within d a)
    (fun j rest d' k1 k2 ⟨k3, k4⟩ => by
      have hj := atY j (k3 j List.mem_cons_self)
      rw [hj.1]
      exact ver_mono (fun _ d'' hq => ⟨fun k hk => k3 k (List.mem_cons_of_mem _ hk), fun a ha => k4 a (hq a ha)⟩) _ _ (ver_inferY hs h1 h2 hj.2 k1 k2 k4)) (List.range s.n) d hd hl ⟨fun j hj => List.mem_range.1 hj, fun _ h => h⟩
  have l2 : ∀ d1, DomsOK d1 → d1.length = J.n → (∀ a, Within d1 a → Within d a) → (Prog.forEach (fun i => (Prog.lift (vecAt x i)).bind fun v => (Prog.lift (vecAt ts i)).bind fun t => s.inferX i t v) (List.range s.n) : Prog σ μ Unit).Ver J
      (fun _ => False) (fun _ d' => (∀ i ∈ ([] : List Nat), i < s.n) ∧ ∀ a, Within d' a → Within d a) d1 := fun d1 k1 k2 k3 =>
    ver_forEach (σ := σ) (μ := μ) (J := J) (f := fun i => (Prog.lift (vecAt x i)).bind fun v => (Prog.lift (vecAt ts i)).bind fun t => s.inferX i t v) (fun rest d' => (∀ j ∈ rest, j < s.n) ∧ ∀ a, Within d' a → Within d a)
    (fun j rest d' k1 k2 ⟨k3, k4⟩ => by
      have hn := k3 j List.mem_cons_self
      have hj := atX j hn
      obtain ⟨t, ht, hsp⟩ := hts j j (by simp [hn])
      rw [hj.1, vecAt_ok.2 ht]
      exact ver_mono (fun _ d'' hq => ⟨fun k hk => k3 k (List.mem_cons_of_mem _ hk), fun a ha => k4 a (hq a ha)⟩) _ _ (ver_inferX hs hc hj.2 hsp k1 k2 k4)) (List.range s.n) d1 k1 k2 ⟨fun j hj => List.mem_range.1 hj, k3⟩
  unfold Snap.narrow
  rw [e1]
  show (Prog.bind (Prog.lift (AllDifferent.mapAll (s.span c.comp) (List.range s.n))) _).Ver J _ _ d
  rw [e2]
  show (Prog.bind (Prog.forEach (fun j => (Prog.lift (vecAt y j)).bind fun v => s.inferY (phi.getD · 0) (phi2.reverse.getD · 0) j v) (List.range s.n)) fun _ => Prog.forEach (fun i => (Prog.lift (vecAt x i)).bind fun v => (Prog.lift (vecAt ts i)).bind fun t => s.inferX i t v) (List.range s.n)).Ver J _ _ d
  refine ver_seq (S := fun _ => False) hd hl (fun _ h => h) l1 fun _ d1 k1 k2 _ k3 => ?_
  exact ver_mono (fun _ d' hq => hq.2) _ _ (l2 d1 k1 k2 k3.2)

theorem ver_go (hs : Sees J x y d s) (hd : DomsOK d) (hl : d.length = J.n) :
    (s.go x y : Prog σ μ Unit).Ver J (fun _ => False) (fun _ d' => (∀ v ∈ x ++ y, Known d v) → ∀ a, Within d' a → Sorts (x.map (·.eval a)) (y.map (·.eval a))) d := by
  have failing : (findBand s.n s.lo s.hi).isSome = true → ∀ Q, (s.failHall : Prog σ μ Unit).Ver J (fun _ => False) Q d := fun h Q => by
    unfold Snap.failHall
    rw [certify_ok h]
    show ∀ a, Within d a → ¬ J.C a
    intro a ha hC
    obtain ⟨p, sol⟩ := hs.reads.sol ha (hs.means a ha hC)
    exact no_some sol.places h
  unfold Snap.go
  cases hcr : s.crossed with
  | true =>
    rw [if_pos rfl]
    show ∀ a, Within d a → ¬ J.C a
    intro a ha hC
    obtain ⟨p, sol⟩ := hs.reads.sol ha (hs.means a ha hC)
    rw [sol.not_crossed] at hcr
    cases hcr
  | false =>
    rw [if_neg (by decide)]
    have kd := down_spec (s := s)
    have ku := up_spec (s := s)
    cases hdn : s.down with
    | none => rw [hdn] at kd; exact failing kd _
    | some phi =>
      cases hup : s.up with
      | none => rw [hup] at ku; exact failing ku _
      | some phi2 => exact ver_mono (fun _ d' hq hk a ha => hs.reads.sorted hk hcr hdn (hq a ha)) _ _ (ver_narrow hs hdn hup hd hl)

theorem ver_sortedness (ho : J.R .overflow) (hd : DomsOK d) (hl : d.length = J.n) (hv : ∀ v ∈ x ++ y, v.Valid J.n) (hlen : x.length = y.length) (hC : ∀ a, Within d a → J.C a → Sorts (x.map (·.eval a)) (y.map (·.eval a))) :
    (sortedness x y : Prog σ μ Unit).Ver J (fun _ => False) (fun _ d' => (∀ v ∈ x ++ y, Known d v) → ∀ a, Within d' a → Sorts (x.map (·.eval a)) (y.map (·.eval a))) d := by
  refine ver_ask (f := fun d => AllDifferent.mapAll (bounds d ·) x) ho (read_roo hd fun v h => hl ▸ hv v (List.mem_append_left _ h)) fun bx hx => ?_
  refine ver_ask (f := fun d => AllDifferent.mapAll (bounds d ·) y) ho (read_roo hd fun v h => hl ▸ hv v (List.mem_append_right _ h)) fun bys hy => ?_
  exact ver_go ⟨⟨hx.1.symm, by rw [← hlen]; exact hx.1.symm, hx.2, hy.2⟩, hv, hC⟩ hd hl

end Gcs.Sort
