import Verif.Lemmas.Cons.SortSweep
import Verif.Lemmas.Cons.Components

/-!
# What Sort computes from the bounds
-/

namespace Gcs.Sort
open Gac

variable {s : Snap} {X Y : Nat → Int} {p : Nat → Nat}

theorem ly_mono {j k : Nat} (h : j ≤ k) : s.ly j ≤ s.ly k := by
  induction h with
  | refl => exact Int.le_refl _
  | step _ ih => simp only [Snap.ly]; omega

theorem oly_le (j : Nat) : s.oly j ≤ s.ly j := by
  cases j with
  | zero => exact Int.le_refl _
  | succ j => simp only [Snap.ly]; omega

theorem uyBack_anti {j k : Nat} (h : j ≤ k) : s.uyBack k ≤ s.uyBack j := by
  induction h with
  | refl => exact Int.le_refl _
  | step _ ih => simp only [Snap.uyBack]; omega

theorem uy_mono {j k : Nat} (h : j ≤ k) : s.uy j ≤ s.uy k := uyBack_anti (by omega)

theorem uyBack_le (k : Nat) : s.uyBack k ≤ s.ouy (s.n - 1 - k) := by
  cases k with
  | zero => exact Int.le_refl _
  | succ j => simp only [Snap.uyBack]; omega

theorem uy_le {j : Nat} (h : j < s.n) : s.uy j ≤ s.ouy j := by
  have := uyBack_le (s := s) (s.n - 1 - j)
  rwa [show s.n - 1 - (s.n - 1 - j) = j by omega] at this

theorem findIdx_mono {n : Nat} {q : Nat → Bool} (h : ∀ j k, j ≤ k → q j = true → q k = true) {j : Nat} (hj : j < n) : (List.range n).findIdx q ≤ j ↔ q j = true := by
  constructor
  · intro hle
    have hlt : (List.range n).findIdx q < (List.range n).length := by simp; omega
    have := List.findIdx_getElem (w := hlt)
    rw [List.getElem_range] at this
    exact h _ _ hle this
  · intro hq
    refine Nat.le_of_not_lt fun hlt => ?_
    have := List.not_of_lt_findIdx hlt
    simp [hq] at this

theorem findIdx_le {n : Nat} {q : Nat → Bool} : (List.range n).findIdx q ≤ n := by
  have := List.findIdx_le_length (p := q) (xs := List.range n)
  simpa using this

theorem lo_le {i j : Nat} (hj : j < s.n) : s.lo i ≤ j ↔ s.lx i ≤ s.uy j := by
  unfold Snap.lo
  rw [findIdx_mono (fun j k h hj => by have := of_decide_eq_true hj; have := uy_mono (s := s) h; exact decide_eq_true (by omega)) hj]
  simp

theorem lt_hi {i j : Nat} (hj : j < s.n) : j < s.hi i ↔ s.ly j ≤ s.ux i := by
  have h : s.hi i ≤ j ↔ s.ux i < s.ly j := by
    unfold Snap.hi
    rw [findIdx_mono (fun j k h hj => by have := of_decide_eq_true hj; have := ly_mono (s := s) h; exact decide_eq_true (by omega)) hj]
    simp
  omega

theorem lo_le_n (i : Nat) : s.lo i ≤ s.n := findIdx_le
theorem hi_le_n (i : Nat) : s.hi i ≤ s.n := findIdx_le

/-! ## Solutions -/

/-- Values that are within the bounds, where number `i` goes to position `p i`. -/
structure Sol (s : Snap) (X Y : Nat → Int) (p : Nat → Nat) : Prop where
  x : ∀ i < s.n, s.lx i ≤ X i ∧ X i ≤ s.ux i
  y : ∀ j < s.n, s.oly j ≤ Y j ∧ Y j ≤ s.ouy j
  mono : ∀ j k, j ≤ k → k < s.n → Y j ≤ Y k
  lt : ∀ i < s.n, p i < s.n
  inj : ∀ i < s.n, ∀ k < s.n, p i = p k → i = k
  eq : ∀ i < s.n, X i = Y (p i)

theorem Sol.ly_le (h : Sol s X Y p) : ∀ j < s.n, s.ly j ≤ Y j
  | 0, hj => (h.y 0 hj).1
  | j + 1, hj => by
    have h1 := h.ly_le j (by omega)
    have h2 := h.mono j (j + 1) (by omega) hj
    have h3 := (h.y (j + 1) hj).1
    simp only [Snap.ly]
    omega

theorem Sol.le_uyBack (h : Sol s X Y p) : ∀ k < s.n, Y (s.n - 1 - k) ≤ s.uyBack k
  | 0, hj => (h.y (s.n - 1 - 0) (by omega)).2
  | k + 1, hj => by
    have h1 := h.le_uyBack k (by omega)
    have h2 := h.mono (s.n - 1 - (k + 1)) (s.n - 1 - k) (by omega) (by omega)
    have h3 := (h.y (s.n - 1 - (k + 1)) (by omega)).2
    simp only [Snap.uyBack]
    omega

theorem Sol.le_uy (h : Sol s X Y p) {j : Nat} (hj : j < s.n) : Y j ≤ s.uy j := by
  have := h.le_uyBack (s.n - 1 - j) (by omega)
  rwa [show s.n - 1 - (s.n - 1 - j) = j by omega] at this

theorem Sol.places (h : Sol s X Y p) : Places s.n s.lo s.hi p := by
  refine ⟨fun i hi => ?_, h.inj⟩
  have h1 := h.lt i hi
  have h2 := h.x i hi
  have h3 := h.eq i hi
  have h4 := h.ly_le _ h1
  have h5 := h.le_uy h1
  exact ⟨(lo_le h1).2 (by omega), (lt_hi h1).2 (by omega)⟩

theorem Sol.not_crossed (h : Sol s X Y p) : s.crossed = false := by
  rw [Snap.crossed, List.any_eq_false]
  intro j hj
  have hj := List.mem_range.1 hj
  have h4 := h.ly_le _ hj
  have h5 := h.le_uy hj
  simp; omega

/-- No bands when the places are elsewhere, too. -/
theorem no_some {n : Nat} {lo hi : Nat → Nat} {p : Nat → Nat} (h : Places n lo hi p) (e : (findBand n lo hi).isSome = true) : False := by rw [h.no_band] at e; cases e

theorem Sol.below (h : Sol s X Y p) {p1 : Nat → Nat} {j : Nat} (hj : j < s.n) (hb : s.belowOK p1 j (min (s.ux (p1 j)) (s.uy j)) = true) : Y j ≤ min (s.ux (p1 j)) (s.uy j) := by
  have hu := h.le_uy hj
  generalize hU : min (s.ux (p1 j)) (s.uy j) = U at hb ⊢
  simp only [Snap.belowOK, Bool.or_eq_true, decide_eq_true_eq] at hb
  refine Int.not_lt.1 fun hlt => ?_
  have early : ∀ i < s.n, s.ux i ≤ U → p i < j := fun i hi hle => Nat.lt_of_not_le fun hle' => by
    have h1 := h.mono j (p i) hle' (h.lt i hi)
    have h2 := h.eq i hi
    have h3 := h.x i hi
    omega
  rcases hb with (hb | hb) | hb
  · omega
  · have hp : Places s.n (fun _ => 0) (fun i => if s.ux i ≤ U then j else s.n) p := ⟨fun i hi => ⟨Nat.zero_le _, by
      split
      · rename_i hle
        exact early i hi hle
      · exact h.lt i hi⟩, h.inj⟩
    have hf := hp.few 0 j
    have : ((List.range s.n).filter fun i => decide (s.ux i ≤ U)).length ≤ (inside s.n (fun _ => 0) (fun i => if s.ux i ≤ U then j else s.n) 0 j).length :=
      length_le_of_subset _ _ (List.nodup_range.sublist List.filter_sublist) fun i hi => by
        obtain ⟨h1, h2⟩ := List.mem_filter.1 hi
        have h2 := of_decide_eq_true h2
        exact mem_inside.2 ⟨List.mem_range.1 h1, Nat.zero_le _, by simp [h2]⟩
    omega
  · refine no_some (p := p) ⟨fun i hi => ?_, h.inj⟩ hb
    have h1 := h.places.fits i hi
    refine ⟨h1.1, ?_⟩
    split
    · rename_i hle
      have := early i hi hle
      omega
    · exact h1.2

theorem Sol.above (h : Sol s X Y p) {p2 : Nat → Nat} {j : Nat} (hj : j < s.n) (hb : s.aboveOK p2 j (max (s.lx (p2 j)) (s.ly j)) = true) : max (s.lx (p2 j)) (s.ly j) ≤ Y j := by
  have hu := h.ly_le j hj
  generalize hU : max (s.lx (p2 j)) (s.ly j) = L at hb ⊢
  simp only [Snap.aboveOK, Bool.or_eq_true, decide_eq_true_eq] at hb
  refine Int.not_lt.1 fun hlt => ?_
  have late : ∀ i < s.n, s.lx i ≥ L → j < p i := fun i hi hle => Nat.lt_of_not_le fun hle' => by
    have h1 := h.mono (p i) j hle' hj
    have h2 := h.eq i hi
    have h3 := h.x i hi
    omega
  rcases hb with (hb | hb) | hb
  · omega
  · have hp : Places s.n (fun i => if s.lx i ≥ L then j + 1 else 0) (fun _ => s.n) p := ⟨fun i hi => ⟨by
      split
      · rename_i hle
        exact late i hi hle
      · exact Nat.zero_le _, h.lt i hi⟩, h.inj⟩
    have hf := hp.few (j + 1) s.n
    have : ((List.range s.n).filter fun i => decide (s.lx i ≥ L)).length ≤ (inside s.n (fun i => if s.lx i ≥ L then j + 1 else 0) (fun _ => s.n) (j + 1) s.n).length :=
      length_le_of_subset _ _ (List.nodup_range.sublist List.filter_sublist) fun i hi => by
        obtain ⟨h1, h2⟩ := List.mem_filter.1 hi
        have h2 := of_decide_eq_true h2
        exact mem_inside.2 ⟨List.mem_range.1 h1, by simp [h2], Nat.le_refl _⟩
    omega
  · refine no_some (p := p) ⟨fun i hi => ?_, h.inj⟩ hb
    have h1 := h.places.fits i hi
    refine ⟨?_, h1.2⟩
    split
    · rename_i hle
      have := late i hi hle
      omega
    · exact h1.1

theorem hasIt_some {i : Nat} {o : Option (List Nat)} (h : hasIt i o = true) : o.isSome = true := by
  cases o with
  | none => cases h
  | some S => rfl

theorem Sol.from (h : Sol s X Y p) {i jl : Nat} (hi : i < s.n) (hb : s.fromOK i jl = true) : max (s.lx i) (s.ly jl) ≤ X i := by
  have hx := (h.x i hi).1
  have hp := h.lt i hi
  have hf := h.places.fits i hi
  have key : jl ≤ p i := by
    simp only [Snap.fromOK, Bool.or_eq_true, decide_eq_true_eq] at hb
    rcases hb with rfl | hb
    · exact hf.1
    · refine Nat.le_of_not_lt fun hlt => no_some (p := p) ⟨fun k hk => ?_, h.inj⟩ (hasIt_some hb)
      have h1 := h.places.fits k hk
      refine ⟨h1.1, ?_⟩
      by_cases e : k = i
      · subst e; rw [put_same]; exact hlt
      · rw [put_ne _ _ e]; exact h1.2
  have h1 := ly_mono (s := s) key
  have h2 := h.ly_le _ hp
  have h3 := h.eq i hi
  omega

theorem Sol.to (h : Sol s X Y p) {i jh : Nat} (hi : i < s.n) (hb : s.toOK i jh = true) : X i ≤ min (s.ux i) (s.uy jh) := by
  have hx := (h.x i hi).2
  have hp := h.lt i hi
  have hf := h.places.fits i hi
  have key : p i ≤ jh := by
    simp only [Snap.toOK, Bool.or_eq_true, decide_eq_true_eq] at hb
    rcases hb with hb | hb
    · omega
    · refine Nat.le_of_not_lt fun hlt => no_some (p := p) ⟨fun k hk => ?_, h.inj⟩ (hasIt_some hb)
      have h1 := h.places.fits k hk
      refine ⟨?_, h1.2⟩
      by_cases e : k = i
      · subst e; rw [put_same]; exact hlt
      · rw [put_ne _ _ e]; exact h1.1
  have h1 := uy_mono (s := s) key
  have h2 := h.le_uy hp
  have h3 := h.eq i hi
  omega

/-! ## The two sweeps -/

theorem down_spec : match s.down with
    | some phi => Chain s.n s.lo s.ux phi ∧ phi.length = s.n ∧ ∀ k i, phi[k]? = some i → k < s.hi i
    | none => (findBand s.n s.lo s.hi).isSome = true := by
  have h := sweep_all (n := s.n) (lo := s.lo) (hi := s.hi) (key := s.ux) (before := fun a b => decide (s.ux a < s.ux b ∨ s.ux a = s.ux b ∧ a < b)) (enters := fun j i => decide (s.lx i ≤ s.uy j)) (fits := fun j i => decide (s.ly j ≤ s.ux i)) (pos := id)
    (fun a b e => by have := of_decide_eq_true e; omega) (fun a b e => by have := of_decide_eq_false e; omega) (fun k hk i _ => by simp [lo_le hk]) (fun k hk i _ => by simp [lt_hi hk])
  rw [List.map_id] at h
  unfold Snap.down
  revert h
  generalize sweep _ _ _ _ _ _ = o
  cases o with
  | some _ => exact id
  | none =>
    rintro ⟨E, hE⟩
    have hk : ∀ a b, s.ux a ≤ s.ux b → s.hi a ≤ s.hi b := fun a b e => by
      refine Nat.le_of_not_lt fun hlt => ?_
      have h1 := hi_le_n (s := s) a
      have h2 := (lt_hi (s := s) (i := a) (j := s.hi b) (by omega)).1 hlt
      have h3 := (lt_hi (s := s) (i := b) (j := s.hi b) (by omega)).2 (by omega)
      omega
    obtain ⟨a, c, h1, h2, h3⟩ := hE.band hk (fun i _ => hi_le_n i)
    exact findBand_isSome h1 h2 h3

theorem reverse_range (n : Nat) : (List.range n).reverse = (List.range n).map (fun k => n - 1 - k) := by
  refine List.ext_getElem (by simp) fun i h1 h2 => ?_
  simp

theorem up_spec : match s.up with
    | some phi => Chain s.n (fun i => s.n - s.hi i) (fun i => - s.lx i) phi ∧ phi.length = s.n ∧ ∀ k i, phi[k]? = some i → k < s.n - s.lo i
    | none => (findBand s.n s.lo s.hi).isSome = true := by
  have h := sweep_all (n := s.n) (lo := fun i => s.n - s.hi i) (hi := fun i => s.n - s.lo i) (key := fun i => - s.lx i) (before := fun a b => decide (s.lx b < s.lx a ∨ s.lx b = s.lx a ∧ b < a))
    (enters := fun j i => decide (s.ly j ≤ s.ux i)) (fits := fun j i => decide (s.lx i ≤ s.uy j)) (pos := fun k => s.n - 1 - k)
    (fun a b e => by have := of_decide_eq_true e; omega) (fun a b e => by have := of_decide_eq_false e; omega)
    (fun k hk i _ => by
      have := lt_hi (s := s) (i := i) (j := s.n - 1 - k) (by omega)
      have := hi_le_n (s := s) i
      simp only [decide_eq_true_eq]
      omega)
    (fun k hk i _ => by
      have := lo_le (s := s) (i := i) (j := s.n - 1 - k) (by omega)
      have := lo_le_n (s := s) i
      simp only [decide_eq_true_eq]
      omega)
  rw [← reverse_range] at h
  unfold Snap.up
  revert h
  generalize sweep _ _ _ _ _ _ = o
  cases o with
  | some _ => exact id
  | none =>
    rintro ⟨E, hE⟩
    have hk : ∀ a b, - s.lx a ≤ - s.lx b → s.n - s.lo a ≤ s.n - s.lo b := fun a b e => by
      refine Nat.le_of_not_lt fun hlt => ?_
      have h1 := lo_le_n (s := s) b
      have h2 : ¬ s.lo b ≤ s.lo a := by omega
      rw [lo_le (by omega)] at h2
      have h3 := (lo_le (s := s) (i := a) (j := s.lo a) (by omega)).1 (Nat.le_refl _)
      omega
    obtain ⟨a, c, h1, h2, h3⟩ := hE.band hk (fun i _ => by omega)
    refine findBand_isSome (a := s.n - c) (c := s.n - a) (by omega) (by omega) ?_
    have : (inside s.n (fun i => s.n - s.hi i) (fun i => s.n - s.lo i) a c).length ≤ (inside s.n s.lo s.hi (s.n - c) (s.n - a)).length :=
      length_le_of_subset _ _ nodup_inside fun i hi => by
        obtain ⟨h4, h5, h6⟩ := mem_inside.1 hi
        have h7 := hi_le_n (s := s) i
        exact mem_inside.2 ⟨h4, by omega, by omega⟩
    omega

end Gcs.Sort
