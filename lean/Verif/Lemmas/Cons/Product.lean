import Verif.Lemmas.Cons.LinearTidy
import Verif.Model.Cons.Multiply

/-!
# Products, quotients and square roots
-/

namespace Gcs

theorem mul_self_nonneg' (a : Int) : 0 ≤ a * a := by
  rcases Int.le_total 0 a with h | h
  · exact Int.mul_nonneg h h
  · exact Int.mul_nonneg_of_nonpos_of_nonpos h h

/-- Between products with the ends. -/
theorem mul_between {a b x y : Int} (h1 : a ≤ x) (h2 : x ≤ b) : (a * y ≤ x * y ∧ x * y ≤ b * y) ∨ (b * y ≤ x * y ∧ x * y ≤ a * y) := by
  by_cases hy : 0 ≤ y
  · exact .inl ⟨Int.mul_le_mul_of_nonneg_right h1 hy, Int.mul_le_mul_of_nonneg_right h2 hy⟩
  · exact .inr ⟨Int.mul_le_mul_of_nonpos_right h2 (by omega), Int.mul_le_mul_of_nonpos_right h1 (by omega)⟩

theorem corners {x1 x2 y1 y2 x y : Int} (hx1 : x1 ≤ x) (hx2 : x ≤ x2) (hy1 : y1 ≤ y) (hy2 : y ≤ y2) :
    min (x1 * y1) (min (x1 * y2) (min (x2 * y1) (x2 * y2))) ≤ x * y ∧ x * y ≤ max (x1 * y1) (max (x1 * y2) (max (x2 * y1) (x2 * y2))) := by
  have h := mul_between (y := y) hx1 hx2
  have ha := mul_between (y := x1) hy1 hy2
  have hb := mul_between (y := x2) hy1 hy2
  rw [Int.mul_comm y1, Int.mul_comm y2, Int.mul_comm y] at ha hb
  omega

theorem inI64_min' {a b : Int} (ha : InI64 a) (hb : InI64 b) : InI64 (min a b) := by unfold InI64 at *; omega
theorem inI64_max' {a b : Int} (ha : InI64 a) (hb : InI64 b) : InI64 (max a b) := by unfold InI64 at *; omega

theorem productBounds_roo {x1 x2 y1 y2 : Int} (hx1 : InI64 x1) (hx2 : InI64 x2) (hy1 : InI64 y1) (hy2 : InI64 y2) :
    RightOrOverflow (productBounds x1 x2 y1 y2) (fun p => (InI64 p.1 ∧ InI64 p.2) ∧ (∀ x y, x1 ≤ x → x ≤ x2 → y1 ≤ y → y ≤ y2 → p.1 ≤ x * y ∧ x * y ≤ p.2) ∧
      (x1 = x2 → y1 = y2 → p = (x1 * y1, x1 * y1))) := by
  refine (mul_roo hx1 hy1).bind fun a ha => (mul_roo hx2 hy1).bind fun b hb => (mul_roo hx1 hy2).bind fun c hc => (mul_roo hx2 hy2).bind fun e he => .pure ?_
  obtain ⟨rfl, ia⟩ := ha; obtain ⟨rfl, ib⟩ := hb; obtain ⟨rfl, ic⟩ := hc; obtain ⟨rfl, ie⟩ := he
  refine ⟨⟨inI64_min' ia (inI64_min' ic (inI64_min' ib ie)), inI64_max' ia (inI64_max' ic (inI64_max' ib ie))⟩, fun x y h1 h2 h3 h4 => corners h1 h2 h3 h4, ?_⟩
  rintro rfl rfl; simp

theorem mul_self_mono {a b : Int} (h1 : 0 ≤ a) (h2 : a ≤ b) : a * a ≤ b * b := Int.mul_le_mul h2 h2 h1 (by omega)

theorem squareBounds_roo {lo hi : Int} (h1 : InI64 lo) (h2 : InI64 hi) :
    RightOrOverflow (squareBounds lo hi) (fun p => (InI64 p.1 ∧ InI64 p.2) ∧ 0 ≤ p.1 ∧ (∀ x, lo ≤ x → x ≤ hi → p.1 ≤ x * x ∧ x * x ≤ p.2) ∧ (lo = hi → p = (lo * lo, lo * lo))) := by
  refine (mul_roo h1 h1).bind fun a ha => (mul_roo h2 h2).bind fun b hb => ?_
  obtain ⟨rfl, ia⟩ := ha; obtain ⟨rfl, ib⟩ := hb
  have k1 := mul_self_nonneg' lo
  have k2 := mul_self_nonneg' hi
  have up : ∀ x, lo ≤ x → x ≤ hi → x * x ≤ max (lo * lo) (hi * hi) := by
    intro x h3 h4
    by_cases hx : 0 ≤ x
    · have := mul_self_mono hx h4; omega
    · have := mul_self_mono (a := -x) (b := -lo) (by omega) (by omega)
      rw [Int.neg_mul_neg, Int.neg_mul_neg] at this; omega
  split
  · rename_i h
    refine .pure ⟨⟨(by decide : InI64 0), inI64_max' ia ib⟩, Int.le_refl _, fun x h3 h4 => ⟨mul_self_nonneg' x, up x h3 h4⟩, ?_⟩
    rintro rfl
    have : lo = 0 := by omega
    subst this; rfl
  · rename_i h
    refine .pure ⟨⟨inI64_min' ia ib, inI64_max' ia ib⟩, by omega, fun x h3 h4 => ⟨?_, up x h3 h4⟩, ?_⟩
    · by_cases hx : 0 ≤ lo
      · have := mul_self_mono hx h3; simp only; omega
      · have := mul_self_mono (a := -hi) (b := -x) (by omega) (by omega)
        rw [Int.neg_mul_neg, Int.neg_mul_neg] at this; simp only; omega
    · rintro rfl; simp

theorem tdiv_neg_neg {a b : Int} (ha : a ≤ 0) : a.tdiv b = (-a) / (-b) := by
  have := Int.neg_tdiv (-a) b
  rw [Int.neg_neg] at this
  rw [this, ← Int.tdiv_neg, Int.tdiv_eq_ediv_of_nonneg (by omega)]

/-- Rounding down: the largest number whose product with `b` is not beyond `a`. -/
theorem divFloor_roo {a b : Int} (ha : InI64 a) (hb : InI64 b) (h0 : b ≠ 0) :
    RightOrOverflow (divFloor a b) (fun r => InI64 r ∧ ∀ x, (0 < b → (x ≤ r ↔ x * b ≤ a)) ∧ (b < 0 → (x ≤ r ↔ a ≤ x * b))) := by
  unfold divFloor
  split
  · rename_i h
    refine (abs_roo ha).bind fun u hx => (sub_roo (by decide) hx.2).bind fun y hy => (abs_roo hb).bind fun z hz => (div_roo hy.2 hz.2 (by omega)).bind fun q hq => (sub_roo hq.2 (by decide)).mono fun r hr => ⟨hr.2, fun x => ?_⟩
    simp only [bne_iff_ne, ne_eq, decide_eq_decide] at h
    have e : q = - ((u - 1) / z) := by
      have : y = -(u - 1) := by omega
      rw [hq.1, this, Int.neg_tdiv, Int.tdiv_eq_ediv_of_nonneg (by omega)]
    have k := Int.ediv_lt_iff_lt_mul (a := u - 1) (b := -x) (c := z) (by omega)
    have e2 : -x * z = -(x * z) := Int.neg_mul ..
    refine ⟨fun hb => ?_, fun hb => ?_⟩
    · have : z = b := by omega
      subst this
      omega
    · have : z = -b := by omega
      subst this
      rw [Int.neg_mul_neg] at e2 k
      omega
  · rename_i h
    simp only [bne_iff_ne, ne_eq, decide_eq_decide] at h
    refine (div_roo ha hb h0).mono fun r hr => ⟨hr.2, fun x => ⟨fun hb => ?_, fun hb => ?_⟩⟩
    · rw [hr.1, Int.tdiv_eq_ediv_of_nonneg (by omega), Int.le_ediv_iff_mul_le hb]
    · rw [hr.1, tdiv_neg_neg (by omega), Int.le_ediv_iff_mul_le (by omega), Int.mul_neg]; omega

/-- Rounding up: the smallest number whose product with `b` is not short of `a`. -/
theorem divCeil_roo {a b : Int} (ha : InI64 a) (hb : InI64 b) (h0 : b ≠ 0) :
    RightOrOverflow (divCeil a b) (fun r => InI64 r ∧ ∀ x, (0 < b → (r ≤ x ↔ a ≤ x * b)) ∧ (b < 0 → (r ≤ x ↔ x * b ≤ a))) := by
  unfold divCeil
  split
  · rename_i h
    refine (abs_roo ha).bind fun u hx => (sub_roo hx.2 (by decide)).bind fun y hy => (abs_roo hb).bind fun z hz => (div_roo hy.2 hz.2 (by omega)).bind fun q hq => (add_roo hq.2 (by decide)).mono fun r hr => ⟨hr.2, fun x => ?_⟩
    simp only [decide_eq_decide] at h
    have e : q = (u - 1) / z := by
      rw [hq.1, hy.1, Int.tdiv_eq_ediv_of_nonneg (by omega)]
    have k := Int.ediv_lt_iff_lt_mul (a := u - 1) (b := x) (c := z) (by omega)
    refine ⟨fun hb => ?_, fun hb => ?_⟩
    · have : z = b := by omega
      subst this
      omega
    · have : z = -b := by omega
      subst this
      rw [Int.mul_neg] at k
      omega
  · rename_i h
    simp only [decide_eq_decide] at h
    refine (div_roo ha hb h0).mono fun r hr => ⟨hr.2, fun x => ⟨fun hb => ?_, fun hb => ?_⟩⟩
    · have k := Int.le_ediv_iff_mul_le (a := -x) (b := -a) (c := b) hb
      have e : a.tdiv b = -((-a) / b) := by
        have := Int.neg_tdiv (-a) b
        rw [Int.neg_neg] at this
        rw [this, Int.tdiv_eq_ediv_of_nonneg (by omega)]
      have e2 : -x * b = -(x * b) := Int.neg_mul ..
      rw [hr.1, e]; omega
    · have k := Int.le_ediv_iff_mul_le (a := -x) (b := a) (c := -b) (by omega)
      have e : a.tdiv b = -(a / (-b)) := by
        have := Int.tdiv_neg a (-b)
        rw [Int.neg_neg] at this
        rw [this, Int.tdiv_eq_ediv_of_nonneg (by omega)]
      rw [Int.neg_mul_neg] at k
      rw [hr.1, e]; omega

/-- What a quotient is within. -/
def Quotient.Fits (q : Quotient) (x : Int) : Prop :=
  match q with
  | .noFilter => True
  | .emptyBecauseYZero => False
  | .bounds lo hi => lo ≤ x ∧ x ≤ hi

def Quotient.Small : Quotient → Prop
  | .bounds lo hi => InI64 lo ∧ InI64 hi
  | _ => True

theorem quotientCorners_roo {y1 y2 z1 z2 : Int} (hy1 : InI64 y1) (hy2 : InI64 y2) (hz1 : InI64 z1) (hz2 : InI64 z2) (h : 0 < y1 ∧ 0 < y2 ∨ y1 < 0 ∧ y2 < 0) :
    RightOrOverflow (quotientCorners y1 y2 z1 z2) (fun q => q.Small ∧ ∀ x y, y1 ≤ y → y ≤ y2 → z1 ≤ x * y → x * y ≤ z2 → q.Fits x) := by
  have n1 : y1 ≠ 0 := by omega
  have n2 : y2 ≠ 0 := by omega
  refine (divCeil_roo hz1 hy1 n1).bind fun c1 k1 => (divCeil_roo hz1 hy2 n2).bind fun c2 k2 => (divCeil_roo hz2 hy1 n1).bind fun c3 k3 => (divCeil_roo hz2 hy2 n2).bind fun c4 k4 => ?_
  refine (divFloor_roo hz1 hy1 n1).bind fun f1 l1 => (divFloor_roo hz1 hy2 n2).bind fun f2 l2 => (divFloor_roo hz2 hy1 n1).bind fun f3 l3 => (divFloor_roo hz2 hy2 n2).bind fun f4 l4 => .pure ⟨?_, fun x y h1 h2 h3 h4 => ?_⟩
  · exact ⟨inI64_min' k1.1 (inI64_min' k2.1 (inI64_min' k3.1 k4.1)), inI64_max' l1.1 (inI64_max' l2.1 (inI64_max' l3.1 l4.1))⟩
  · have hb := mul_between (y := x) h1 h2
    rw [Int.mul_comm y1, Int.mul_comm y2, Int.mul_comm y] at hb
    simp only [Quotient.Fits]
    rcases h with h | h
    · have k1 := (k1.2 x).1 h.1; have k2 := (k2.2 x).1 h.2; have l3 := (l3.2 x).1 h.1; have l4 := (l4.2 x).1 h.2
      have : c1 ≤ x ∨ c2 ≤ x := by rw [k1, k2]; omega
      have : x ≤ f3 ∨ x ≤ f4 := by rw [l3, l4]; omega
      omega
    · have k3 := (k3.2 x).2 h.1; have k4 := (k4.2 x).2 h.2; have l1 := (l1.2 x).2 h.1; have l2 := (l2.2 x).2 h.2
      have : c3 ≤ x ∨ c4 ≤ x := by rw [k3, k4]; omega
      have : x ≤ f1 ∨ x ≤ f2 := by rw [l1, l2]; omega
      omega

theorem natAbs_le_mul {x y : Int} (hy : y ≠ 0) : (x.natAbs : Int) ≤ (x * y).natAbs := by
  rw [Int.natAbs_mul]
  have : 1 ≤ y.natAbs := by omega
  exact_mod_cast Nat.le_mul_of_pos_right _ this

theorem quotientFilter_roo {y1 y2 z1 z2 : Int} (hy1 : InI64 y1) (hy2 : InI64 y2) (hz1 : InI64 z1) (hz2 : InI64 z2) (hy : y1 ≤ y2) :
    RightOrOverflow (quotientFilter y1 y2 z1 z2) (fun q => q.Small ∧ ∀ x y, y1 ≤ y → y ≤ y2 → z1 ≤ x * y → x * y ≤ z2 → q.Fits x) := by
  unfold quotientFilter
  split
  · exact .inr ⟨_, rfl, trivial, fun _ _ _ _ _ _ => trivial⟩
  rename_i h1
  split
  · refine .inr ⟨_, rfl, trivial, fun x y h2 h3 h4 h5 => ?_⟩
    have : y = 0 := by omega
    subst this
    rw [Int.mul_zero] at h4 h5
    exact h1 (by omega)
  rename_i h2
  have nz : ∀ {x y : Int}, y1 ≤ y → y ≤ y2 → z1 ≤ x * y → x * y ≤ z2 → y ≠ 0 := by
    rintro x y k1 k2 k3 k4 rfl
    rw [Int.mul_zero] at k3 k4
    exact h1 (by omega)
  split
  · refine (abs_roo hz1).bind fun a ha => (abs_roo hz2).bind fun b hb => (neg_roo (inI64_max' ha.2 hb.2)).bind fun l hl => .pure ⟨⟨hl.2, inI64_max' ha.2 hb.2⟩, fun x y k1 k2 k3 k4 => ?_⟩
    have := natAbs_le_mul (x := x) (nz k1 k2 k3 k4)
    simp only [Quotient.Fits]
    omega
  split
  · refine (quotientCorners_roo (by decide) hy2 hz1 hz2 (by omega)).mono fun q hq => ⟨hq.1, fun x y k1 k2 k3 k4 => ?_⟩
    have := nz k1 k2 k3 k4
    exact hq.2 x y (by omega) k2 k3 k4
  split
  · refine (quotientCorners_roo hy1 (by decide) hz1 hz2 (by omega)).mono fun q hq => ⟨hq.1, fun x y k1 k2 k3 k4 => ?_⟩
    have := nz k1 k2 k3 k4
    exact hq.2 x y k1 (by omega) k3 k4
  · exact quotientCorners_roo hy1 hy2 hz1 hz2 (by omega)

theorem newton_step {n x : Int} (hn : 0 ≤ n) (hx : 0 < x) : n < ((x + n / x) / 2 + 1) * ((x + n / x) / 2 + 1) := by
  have h1 : n < (n / x + 1) * x := Int.lt_ediv_add_one_mul_self n hx
  have h0 : 0 ≤ n / x := Int.ediv_nonneg hn (by omega)
  generalize n / x = q at *
  have h2 : x + q + 1 ≤ 2 * ((x + q) / 2 + 1) := by omega
  generalize (x + q) / 2 + 1 = w at *
  have h3 : 0 ≤ (x - (q + 1)) * (x - (q + 1)) := mul_self_nonneg' _
  have h4 := mul_self_mono (a := x + q + 1) (b := 2 * w) (by omega) h2
  have e1 : (x + q + 1) * (x + q + 1) = (x - (q + 1)) * (x - (q + 1)) + 4 * ((q + 1) * x) := by grind
  have e2 : 2 * w * (2 * w) = 4 * (w * w) := by grind
  omega

theorem isqrtLoop_roo {n : Int} (hn : InI64 n) (h0 : 2 ≤ n) : ∀ (k : Nat) (x y : Int), x.toNat ≤ k → 0 < x → InI64 x → n < (x + 1) * (x + 1) → y = (x + n / x) / 2 → InI64 y →
    RightOrOverflow (isqrtLoop n k x y) (fun r => InI64 r ∧ 0 ≤ r ∧ r * r ≤ n ∧ n < (r + 1) * (r + 1))
  | 0, _, _, h, _, _, _, _, _ => by omega
  | k + 1, x, y, hk, hx, ix, hinv, hy, iy => by
    unfold isqrtLoop
    split
    · rename_i hlt
      have y0 : 0 < y := by
        by_cases h1 : x = 1
        · subst h1; rw [Int.ediv_one] at hy; omega
        · have : 0 ≤ n / x := Int.ediv_nonneg (by omega) (by omega)
          omega
      refine (div_roo hn iy (by omega)).bind fun q hq => (add_roo iy hq.2).bind fun s hs => (div_roo hs.2 (by decide) (by decide)).bind fun w hw => ?_
      refine isqrtLoop_roo hn h0 k y w (by omega) y0 iy (hy ▸ newton_step (by omega) hx) ?_ hw.2
      rw [hw.1, hs.1, hq.1, Int.tdiv_eq_ediv_of_nonneg (by omega : 0 ≤ n)]
      have : 0 ≤ n / y := Int.ediv_nonneg (by omega) (by omega)
      rw [Int.tdiv_eq_ediv_of_nonneg (by omega)]
    · rename_i hge
      refine .inr ⟨x, rfl, ix, by omega, ?_, hinv⟩
      have : x ≤ n / x := by omega
      exact (Int.le_ediv_iff_mul_le hx).1 this

theorem isqrt_roo {n : Int} (hn : InI64 n) (h0 : 0 ≤ n) : RightOrOverflow (isqrt n) (fun r => InI64 r ∧ 0 ≤ r ∧ r * r ≤ n ∧ n < (r + 1) * (r + 1)) := by
  unfold isqrt
  rw [if_neg (by omega)]
  split
  · have : n = 0 ∨ n = 1 := by omega
    rcases this with rfl | rfl <;> exact .inr ⟨_, rfl, by decide⟩
  · have e : n / n = 1 := Int.ediv_self (by omega)
    refine (add_roo hn (by decide)).bind fun s hs => (div_roo hs.2 (by decide) (by decide)).bind fun y hy => isqrtLoop_roo hn (by omega) n.toNat n y ?_ (by omega) hn ?_ ?_ hy.2
    · exact Nat.le_refl _
    · have := mul_self_mono (a := n) (b := n + 1) h0 (by omega)
      have e2 : (n + 1) * (n + 1) = n * n + 2 * n + 1 := by grind
      have := mul_self_nonneg' n
      omega
    · rw [hy.1, hs.1, e, Int.tdiv_eq_ediv_of_nonneg (by omega)]

theorem ceilIsqrt_roo {n : Int} (hn : InI64 n) (h0 : 0 < n) : RightOrOverflow (ceilIsqrt n) (fun r => InI64 r ∧ 0 < r ∧ n ≤ r * r ∧ (r - 1) * (r - 1) < n) := by
  refine (isqrt_roo hn (by omega)).bind fun r hr => (mul_roo hr.1 hr.1).bind fun s hs => ?_
  have h1 : 0 < r := by
    rcases Int.lt_or_le 0 r with h | h
    · exact h
    · have : r = 0 := by omega
      subst this; omega
  split
  · rename_i h
    have := mul_self_mono (a := r - 1) (b := r) (by omega) (by omega)
    have e2 : (r - 1) * (r - 1) = r * r - 2 * r + 1 := by grind
    exact .pure ⟨hr.1, h1, by omega, by omega⟩
  · refine (add_roo hr.1 (by decide)).mono fun w hw => ⟨hw.2, by omega, by rw [hw.1]; omega, ?_⟩
    rw [hw.1, Int.add_sub_cancel]; omega

end Gcs
