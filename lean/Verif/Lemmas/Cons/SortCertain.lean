import Verif.Lemmas.Cons.Sort

/-!
# That Sort always finds what it looks for
-/

namespace Gcs.Sort
open Gac

variable {s : Snap} {phi : List Nat}

/-- Who is in which position: everything fits, and nothing is in two. -/
structure Full (s : Snap) (q : Nat → Nat) : Prop where
  fits : ∀ j < s.n, q j < s.n ∧ s.lo (q j) ≤ j ∧ j < s.hi (q j)
  inj : ∀ j < s.n, ∀ k < s.n, q j = q k → j = k
  places : ∃ p, Places s.n s.lo s.hi p

theorem getD_at {D : List Nat} {j : Nat} (h : j < D.length) : D[j]? = some (D.getD j 0) := by
  simp [List.getD_eq_getElem?_getD, List.getElem?_eq_getElem h]

theorem down_full (h : s.down = some phi) : Full s (phi.getD · 0) := by
  have key := down_spec (s := s)
  rw [h] at key
  obtain ⟨h1, h2, h3⟩ := key
  refine ⟨fun j hj => ?_, fun j hj k hk e => ?_, _, h1.places h2 h3⟩
  · have := getD_at (D := phi) (j := j) (by omega)
    exact ⟨(h1.lt _ _ this).1, (h1.lt _ _ this).2, h3 _ _ this⟩
  · have e1 := getD_at (D := phi) (j := j) (by omega)
    have e2 := getD_at (D := phi) (j := k) (by omega)
    obtain ⟨l1, g1⟩ := List.getElem?_eq_some_iff.1 e1
    obtain ⟨l2, g2⟩ := List.getElem?_eq_some_iff.1 e2
    exact (List.getElem_inj h1.nodup).1 (g1.trans (Eq.trans e g2.symm))

/-! ## The bounds of the sorted ones -/

theorem below_certain (h : s.down = some phi) {j : Nat} (hj : j < s.n) (hlt : min (s.ux (phi.getD j 0)) (s.uy j) < s.ouy j) : s.belowOK (phi.getD · 0) j (min (s.ux (phi.getD j 0)) (s.uy j)) = true := by
  have key := down_spec (s := s)
  rw [h] at key
  obtain ⟨h1, h2, h3⟩ := key
  have hle := uy_le hj
  have hat := getD_at (D := phi) (j := j) (by omega)
  simp only [Snap.belowOK, Bool.or_eq_true, decide_eq_true_eq]
  by_cases hn : s.uy j < s.ouy j ∧ s.uy j ≤ s.ux (phi.getD j 0)
  · exact .inl (.inl hn)
  right
  have hU : min (s.ux (phi.getD j 0)) (s.uy j) = s.ux (phi.getD j 0) := by omega
  rw [hU]
  obtain ⟨a, ha, hb⟩ := h1.band hat
  refine findBand_isSome (a := a) (c := j) ha (Nat.le_of_lt hj) ?_
  have := steps_le (S := inside s.n s.lo (fun i => if s.ux i ≤ s.ux (phi.getD j 0) then min (s.hi i) j else s.hi i) a j) h1.nodup ha (by omega) fun k b k1 k2 k3 => by
    obtain ⟨h4, h5⟩ := hb k b k1 k2 k3
    refine mem_inside.2 ⟨(h1.lt k b k3).1, h4, ?_⟩
    rw [if_pos h5]
    omega
  omega

theorem above_certain (h : s.up = some phi) {j : Nat} (hj : j < s.n) (hlt : max (s.lx (phi.reverse.getD j 0)) (s.ly j) > s.oly j) : s.aboveOK (phi.reverse.getD · 0) j (max (s.lx (phi.reverse.getD j 0)) (s.ly j)) = true := by
  have key := up_spec (s := s)
  rw [h] at key
  obtain ⟨h1, h2, h3⟩ := key
  have hle := oly_le (s := s) j
  have hat : phi[s.n - 1 - j]? = some (phi.reverse.getD j 0) := by
    rw [List.getD_eq_getElem?_getD, List.getElem?_reverse (by omega), h2, List.getElem?_eq_getElem (by omega)]
    rfl
  simp only [Snap.aboveOK, Bool.or_eq_true, decide_eq_true_eq]
  by_cases hn : s.ly j > s.oly j ∧ s.ly j ≥ s.lx (phi.reverse.getD j 0)
  · exact .inl (.inl hn)
  right
  have hU : max (s.lx (phi.reverse.getD j 0)) (s.ly j) = s.lx (phi.reverse.getD j 0) := by omega
  rw [hU]
  obtain ⟨a, ha, hb⟩ := h1.band hat
  refine findBand_isSome (a := j + 1) (c := s.n - a) (by omega) (by omega) ?_
  have := steps_le (S := inside s.n (fun i => if s.lx i ≥ s.lx (phi.reverse.getD j 0) then max (s.lo i) (j + 1) else s.lo i) s.hi (j + 1) (s.n - a)) h1.nodup ha (by omega) fun k b k1 k2 k3 => by
    obtain ⟨h4, h5⟩ := hb k b k1 k2 k3
    have h6 := hi_le_n (s := s) b
    refine mem_inside.2 ⟨(h1.lt k b k3).1, ?_, by omega⟩
    rw [if_pos (by omega)]
    omega
  omega

/-! ## The bounds of the others -/

variable {q : Nat → Nat}

theorem Full.succ_range (hq : Full s q) : ∀ v < 2 * s.n, ∀ w ∈ s.succ q v, w < 2 * s.n := by
  intro v hv w hw
  unfold Snap.succ at hw
  split at hw
  · obtain ⟨j, hj, rfl⟩ := List.mem_map.1 hw
    rw [List.mem_range'_1] at hj
    have := hi_le_n (s := s) v
    omega
  · rw [List.mem_singleton.1 hw]
    have := (hq.fits (v - s.n) (by omega)).1
    omega

/-- Wherever an item is put when all are, it is in a circle with that position. -/
theorem Full.circle (hq : Full s q) {p : Nat → Nat} (hp : Places s.n s.lo s.hi p) {i : Nat} (hi : i < s.n) : Reach (s.succ q) i (s.n + p i) ∧ Reach (s.succ q) (s.n + p i) i := by
  have lt : ∀ l < s.n, p l < s.n := fun l hl => Nat.lt_of_lt_of_le (hp.fits l hl).2 (hi_le_n l)
  have out : ∀ l < s.n, Reach (s.succ q) l (s.n + p l) := fun l hl => by
    refine Reach.one ?_
    rw [Snap.succ, if_pos hl]
    refine List.mem_map.2 ⟨p l, ?_, rfl⟩
    have := hp.fits l hl
    rw [List.mem_range'_1]
    omega
  have back : ∀ j < s.n, Reach (s.succ q) (s.n + j) (q j) := fun j hj => by
    refine Reach.one ?_
    rw [Snap.succ, if_neg (by omega), show s.n + j - s.n = j by omega]
    exact List.mem_singleton.2 rfl
  refine ⟨out i hi, Classical.byContradiction fun hn => ?_⟩
  refine pigeon (n := s.n) (P := fun l => Reach (s.succ q) (s.n + p i) l) (f := fun l => q (p l)) (i := i) hi hn (fun l hl h => ⟨(hq.fits _ (lt l hl)).1, ?_⟩) fun l hl k hk _ _ e => hp.apart l hl k hk (hq.inj _ (lt l hl) _ (lt k hk) e)
  rcases h with h | rfl
  · exact (h.trans (out l hl)).trans (back _ (lt l hl))
  · exact back _ (lt l hl)

/-- What the components are like. -/
structure Split (s : Snap) (q comp : Nat → Nat) : Prop where
  full : Full s q
  same : ∀ v < 2 * s.n, ∀ w < 2 * s.n, Reach (s.succ q) v w → Reach (s.succ q) w v → comp v = comp w

theorem Full.roots (hq : Full s q) : ∃ c, Scc.roots true (s.succ q) (2 * s.n) (List.range (2 * s.n)) {} = .ok c ∧ Split s q c.comp := by
  obtain ⟨c, h1, _, h2, _⟩ := scc_spec (ix := true) hq.succ_range
  exact ⟨c, h1, hq, fun v hv w hw r1 r2 => Nat.le_antisymm (h2 w hw v r2) (h2 v hv w r1)⟩

variable {comp : Nat → Nat}

theorem Split.mem_near (h : Split s q comp) {p : Nat → Nat} (hp : Places s.n s.lo s.hi p) {i : Nat} (hi : i < s.n) : p i ∈ s.near comp i := by
  have h1 := hp.fits i hi
  have h2 := hi_le_n (s := s) i
  obtain ⟨r1, r2⟩ := h.full.circle hp hi
  refine List.mem_filter.2 ⟨by rw [List.mem_range'_1]; omega, decide_eq_true ?_⟩
  exact h.same _ (by omega) _ (by omega) r2 r1

theorem near_sorted {i : Nat} : (s.near comp i).Pairwise (· < ·) := (List.pairwise_lt_range' (step := 1) (pos := Nat.one_pos)).sublist List.filter_sublist

theorem le_getLast : ∀ {l : List Nat} (hl : l ≠ []), l.Pairwise (· < ·) → ∀ x ∈ l, x ≤ l.getLast hl
  | [x], _, _, y, hy => by rw [List.mem_singleton.1 hy]; exact Nat.le_refl _
  | x :: x' :: l, _, hp, y, hy => by
    have ih := le_getLast (l := x' :: l) (by simp) (List.pairwise_cons.1 hp).2
    rw [List.getLast_cons (by simp)]
    rcases List.mem_cons.1 hy with rfl | hy
    · exact Nat.le_trans (Nat.le_of_lt ((List.pairwise_cons.1 hp).1 x' (by simp))) (ih x' (by simp))
    · exact ih y hy

/-- What is known about the entries that `span` returns. -/
structure Spans (s : Snap) (comp : Nat → Nat) (i : Nat) (t : Nat × Nat × Int × Int) : Prop where
  lo : t.1 ∈ s.near comp i
  hi : t.2.1 ∈ s.near comp i
  least : ∀ j ∈ s.near comp i, t.1 ≤ j
  most : ∀ j ∈ s.near comp i, j ≤ t.2.1
  lower : t.2.2.1 = max (s.lx i) (s.ly t.1)
  upper : t.2.2.2 = min (s.ux i) (s.uy t.2.1)

theorem Split.span (h : Split s q comp) {i : Nat} (hi : i < s.n) : ∃ t, s.span comp i = .ok t ∧ Spans s comp i t := by
  obtain ⟨p, hp⟩ := h.full.places
  have hm := h.mem_near hp hi
  have hs := near_sorted (s := s) (comp := comp) (i := i)
  unfold Snap.span
  split
  · rename_i e
    rw [e] at hm
    cases hm
  · rename_i j js e
    refine ⟨_, rfl, ?_, ?_, ?_, ?_, rfl, rfl⟩
    · rw [e]; simp
    · rw [e]; exact List.getLast_mem _
    · rw [e] at hs ⊢
      intro k hk
      rcases List.mem_cons.1 hk with rfl | hk
      · exact Nat.le_refl _
      · exact Nat.le_of_lt ((List.pairwise_cons.1 hs).1 k hk)
    · rw [e] at hs ⊢
      exact fun k hk => le_getLast _ hs k hk

theorem near_at {i j : Nat} (h : j ∈ s.near comp i) : s.lo i ≤ j ∧ j < s.hi i := by
  have := (List.mem_filter.1 h).1
  rw [List.mem_range'_1] at this
  omega

/-- If one item is not to be where it can be, then there is a stretch with too many, and it is one of these. -/
theorem band_hasIt {n i : Nat} {lo hi lo' hi' p : Nat → Nat} (hh : ∀ k < n, hi' k ≤ n) (hp : Places n lo hi p) (hne : ∀ k, k ≠ i → lo' k = lo k ∧ hi' k = hi k) (hno : ∀ p, ¬ Places n lo' hi' p) : hasIt i (findBand n lo' hi') = true := by
  rcases places_or_band (lo := lo') hh with ⟨p, h⟩ | h
  · exact absurd h (hno p)
  cases e : findBand n lo' hi' with
  | none => rw [e] at h; cases h
  | some S =>
    obtain ⟨a, c, h1, h2, rfl, h3⟩ := findBand_some e
    refine decide_eq_true (Classical.byContradiction fun hn => ?_)
    have : (inside n lo' hi' a c).length ≤ (inside n lo hi a c).length := length_le_of_subset _ _ nodup_inside fun k hk => by
      obtain ⟨e1, e2⟩ := hne k fun e => hn (e ▸ hk)
      rw [mem_inside] at hk ⊢
      rwa [e1, e2] at hk
    have := hp.few a c
    omega

theorem Split.from_certain (h : Split s q comp) {i : Nat} (hi : i < s.n) {t : Nat × Nat × Int × Int} (ht : Spans s comp i t) : s.fromOK i t.1 = true := by
  obtain ⟨p, hp⟩ := h.full.places
  have hn := near_at ht.lo
  have h2 := hi_le_n (s := s) i
  simp only [Snap.fromOK, Bool.or_eq_true]
  right
  refine band_hasIt (fun k _ => ?_) hp (fun k hk => ⟨rfl, put_ne _ _ hk⟩) fun p' hp' => ?_
  · by_cases e : k = i
    · rw [e, put_same]; omega
    · rw [put_ne _ _ e]; exact hi_le_n k
  · have hi' := (hp'.fits i hi).2
    rw [put_same] at hi'
    have hp2 : Places s.n s.lo s.hi p' := ⟨fun k hk => by
      have := hp'.fits k hk
      refine ⟨this.1, ?_⟩
      by_cases e : k = i
      · subst e; omega
      · rw [put_ne _ _ e] at this; exact this.2, hp'.apart⟩
    have := ht.least _ (h.mem_near hp2 hi)
    omega

theorem Split.to_certain (h : Split s q comp) {i : Nat} (hi : i < s.n) {t : Nat × Nat × Int × Int} (ht : Spans s comp i t) : s.toOK i t.2.1 = true := by
  obtain ⟨p, hp⟩ := h.full.places
  have hn := near_at ht.hi
  simp only [Snap.toOK, Bool.or_eq_true]
  right
  refine band_hasIt (fun k _ => hi_le_n k) hp (fun k hk => ⟨put_ne _ _ hk, rfl⟩) fun p' hp' => ?_
  have hi' := (hp'.fits i hi).1
  rw [put_same] at hi'
  have hp2 : Places s.n s.lo s.hi p' := ⟨fun k hk => by
    have := hp'.fits k hk
    refine ⟨?_, this.2⟩
    by_cases e : k = i
    · subst e; omega
    · rw [put_ne _ _ e] at this; exact this.1, hp'.apart⟩
  have := ht.most _ (h.mem_near hp2 hi)
  omega

end Gcs.Sort
