import Verif.Model.Cons.DivMod
import Verif.Lemmas.Cons.DivModArith
import Verif.Lemmas.Cons.Stages
import Verif.Lemmas.Cons.Multiply
import Verif.Lemmas.Cons.AllDifferentPost

/-!
Division and remainder: the passes of the propagator lose nothing, and check the rows once the variables are known.
-/

namespace Gcs
open IntervalSet

theorem RightOrOverflow.and {α : Type} {x : Chk α} {P Q : α → Prop} (h : RightOrOverflow x P) (k : RightOrOverflow x Q) : RightOrOverflow x (fun v => P v ∧ Q v) := by
  rcases h with h | ⟨v, h, hv⟩
  · exact .inl h
  · rcases k with k | ⟨w, k, hw⟩
    · exact .inl k
    · rw [h] at k; cases k
      exact .inr ⟨v, h, hv, hw⟩

theorem quotientFilter_exact {y1 y2 z1 z2 : Int} (hy1 : InI64 y1) (hy2 : InI64 y2) (hz1 : InI64 z1) (hz2 : InI64 z2) (hy : y1 ≤ y2) :
    RightOrOverflow (quotientFilter y1 y2 z1 z2) (fun q => (q.Small ∧ ∀ x y, y1 ≤ y → y ≤ y2 → z1 ≤ x * y → x * y ≤ z2 → q.Fits x) ∧
      (0 < y1 → y1 = y2 → z1 = z2 → ∃ lo hi, q = .bounds lo hi ∧ z1 ≤ lo * y1 ∧ hi * y1 ≤ z1)) := by
  refine (quotientFilter_roo hy1 hy2 hz1 hz2 hy).and ?_
  by_cases h : 0 < y1 ∧ y1 = y2 ∧ z1 = z2
  · obtain ⟨h0, rfl, rfl⟩ := h
    unfold quotientFilter
    rw [if_neg (by omega), if_neg (by omega), if_neg (by omega), if_neg (by omega), if_neg (by omega)]
    have n1 : y1 ≠ 0 := by omega
    refine (divCeil_roo hz1 hy1 n1).bind fun c1 k1 => (divCeil_roo hz1 hy1 n1).bind fun c2 k2 => (divCeil_roo hz1 hy1 n1).bind fun c3 k3 => (divCeil_roo hz1 hy1 n1).bind fun c4 k4 => ?_
    refine (divFloor_roo hz1 hy1 n1).bind fun f1 l1 => (divFloor_roo hz1 hy1 n1).bind fun f2 l2 => (divFloor_roo hz1 hy1 n1).bind fun f3 l3 => (divFloor_roo hz1 hy1 n1).bind fun f4 l4 => .pure fun _ _ _ => ⟨_, _, rfl, ?_, ?_⟩
    · have e : c1 = c2 ∧ c1 = c3 ∧ c1 = c4 := by
        have k := fun x => (k1.2 x).1 h0; have k' := fun x => (k2.2 x).1 h0; have k3' := fun x => (k3.2 x).1 h0; have k4' := fun x => (k4.2 x).1 h0
        have a1 := (k' c1).2 ((k c1).1 (Int.le_refl _)); have a2 := (k c2).2 ((k' c2).1 (Int.le_refl _))
        have a3 := (k3' c1).2 ((k c1).1 (Int.le_refl _)); have a4 := (k c3).2 ((k3' c3).1 (Int.le_refl _))
        have a5 := (k4' c1).2 ((k c1).1 (Int.le_refl _)); have a6 := (k c4).2 ((k4' c4).1 (Int.le_refl _))
        omega
      obtain ⟨rfl, rfl, rfl⟩ := e
      simp only [Int.min_self]
      exact ((k1.2 c1).1 h0).1 (Int.le_refl _)
    · have e : f1 = f2 ∧ f1 = f3 ∧ f1 = f4 := by
        have k := fun x => (l1.2 x).1 h0; have k' := fun x => (l2.2 x).1 h0; have k3' := fun x => (l3.2 x).1 h0; have k4' := fun x => (l4.2 x).1 h0
        have a1 := (k' f1).2 ((k f1).1 (Int.le_refl _)); have a2 := (k f2).2 ((k' f2).1 (Int.le_refl _))
        have a3 := (k3' f1).2 ((k f1).1 (Int.le_refl _)); have a4 := (k f3).2 ((k3' f3).1 (Int.le_refl _))
        have a5 := (k4' f1).2 ((k f1).1 (Int.le_refl _)); have a6 := (k f4).2 ((k4' f4).1 (Int.le_refl _))
        omega
      obtain ⟨rfl, rfl, rfl⟩ := e
      simp only [Int.max_self]
      exact ((l1.2 f1).1 h0).1 (Int.le_refl _)
  · exact (quotientFilter_roo hy1 hy2 hz1 hz2 hy).mono fun q _ a b c => absurd ⟨a, b, c⟩ h

namespace DivMod
open Stages

section
variable {σ μ : Type} {n m : Nat} {R : Err → Prop} {root d : Doms} {x y r out v : VarId} {mq my : Nat} {J : Job} {k : Int}

theorem atLeast_ver (ho : J.R .overflow) (hd : DomsOK d) (hl : d.length = J.n) (hv : v.Valid J.n) (hk : InI64 k) (hC : ∀ a, J.C a → k ≤ v.eval a) : (atLeast v k : Prog σ μ Unit).Ver J (fun _ => False) (fun _ _ => True) d :=
  ver_ask (f := (lowerBound · v)) ho (lower_roo hd (hl ▸ hv)) fun _ _ => ver_onlyIf (fun _ => ver_tell_last (.ge hv hk) (fun a _ h => by rw [Lit.holds_ge]; exact hC a h) fun _ _ _ _ => trivial) fun _ => trivial

theorem atMost_ver (ho : J.R .overflow) (hd : DomsOK d) (hl : d.length = J.n) (hv : v.Valid J.n) (hk : InI64 k) (hC : ∀ a, J.C a → v.eval a ≤ k) : (atMost v k : Prog σ μ Unit).Ver J (fun _ => False) (fun _ _ => True) d :=
  ver_ask (f := (upperBound · v)) ho (upper_roo hd (hl ▸ hv)) fun _ _ => ver_onlyIf (fun _ => ver_lift ho (add_roo hk (by decide)) fun w hw =>
    ver_tell_last (.lt hv hw.2) (fun a _ h => by rw [Lit.holds_lt]; have := hC a h; omega) fun _ _ _ _ => trivial) fun _ => trivial

theorem bound_atLeast {z : Chk Int} {w : Int} (ho : J.R .overflow) (hd : DomsOK d) (hl : d.length = J.n) (hv : v.Valid J.n) (hz : RightOrOverflow z (fun k => k = w ∧ InI64 k)) (hC : ∀ a, J.C a → w ≤ v.eval a) :
    (bound atLeast v z : Prog σ μ Unit).Ver J (fun _ => False) (fun _ _ => True) d :=
  ver_lift ho hz fun k hk => atLeast_ver ho hd hl hv hk.2 fun a h => hk.1 ▸ hC a h

theorem bound_atMost {z : Chk Int} {w : Int} (ho : J.R .overflow) (hd : DomsOK d) (hl : d.length = J.n) (hv : v.Valid J.n) (hz : RightOrOverflow z (fun k => k = w ∧ InI64 k)) (hC : ∀ a, J.C a → v.eval a ≤ w) :
    (bound atMost v z : Prog σ μ Unit).Ver J (fun _ => False) (fun _ _ => True) d :=
  ver_lift ho hz fun k hk => atMost_ver ho hd hl hv hk.2 fun a h => hk.1 ▸ hC a h

theorem iAdd_roo {a b : Int} (ha : InI64 a) (hb : InI64 b) : RightOrOverflow (iAdd a b) (fun k => k = a + b ∧ InI64 k) := add_roo ha hb
theorem iSub_roo {a b : Int} (ha : InI64 a) (hb : InI64 b) : RightOrOverflow (iSub a b) (fun k => k = a - b ∧ InI64 k) := sub_roo ha hb
theorem iNeg_roo {a : Int} (ha : InI64 a) : RightOrOverflow (iNeg a) (fun k => k = -a ∧ InI64 k) := neg_roo ha

/-- Two of them one after the other. -/
theorem then_ver {p q : Prog σ μ Unit} (hd : DomsOK d) (hl : d.length = J.n) (hp : p.Ver J (fun _ => False) (fun _ _ => True) d)
    (hq : ∀ d', DomsOK d' → d'.length = J.n → q.Ver J (fun _ => False) (fun _ _ => True) d') : (p.bind fun _ => q).Ver J (fun _ => False) (fun _ _ => True) d :=
  ver_seq (S := fun _ => False) hd hl (fun _ h => h) hp fun _ d' h1 h2 _ _ => hq d' h1 h2

/-- Everything is within the range of 64 bits. -/
abbrev Small (p : Int × Int) : Prop := InI64 p.1 ∧ InI64 p.2

/-- What is known during a pass of the values of `x`, of the divisor's magnitude and of the product. -/
structure Ranges (bx bb pw w : Int × Int) (xv B p : Int) : Prop where
  x : bx.1 ≤ xv ∧ xv ≤ bx.2
  b : 1 ≤ B ∧ B ≤ bb.2
  pw : pw.1 ≤ p ∧ p ≤ pw.2
  w : w.1 ≤ p ∧ p ≤ w.2

theorem signsDivide_ver {bx bb pw w : Int × Int} (ho : J.R .overflow) (hd : DomsOK d) (hl : d.length = J.n) (hx : x.Valid J.n) (hbx : Small bx) (hpw : Small pw)
    (hC : ∀ a, J.C a → ∃ B p, Ranges bx bb pw w (x.eval a) B p ∧ DivideRows (x.eval a) B p) : (signsDivide x bx pw : Prog σ μ Unit).Ver J (fun _ => False) (fun _ _ => True) d := by
  unfold signsDivide
  split
  · refine atLeast_ver ho hd hl hx hpw.1 fun a h => ?_
    obtain ⟨B, p, h1, h2⟩ := hC a h
    have := h1.x; have := h1.pw
    omega
  split
  · refine bound_atMost ho hd hl hx (iNeg_roo hpw.1) fun a h => ?_
    obtain ⟨B, p, h1, h2⟩ := hC a h
    have := h1.x; have := h1.pw
    omega
  · refine then_ver hd hl (ver_onlyIf (fun hlt => atMost_ver ho hd hl hx (by decide) fun a h => ?_) fun _ => trivial) fun d' hd' hl' => ?_
    · obtain ⟨B, p, h1, h2⟩ := hC a h
      have := h1.x; have := h1.pw
      omega
    · refine ver_lift ho (iNeg_roo hbx.1) fun k hk => ver_onlyIf (fun hlt => atLeast_ver ho hd' hl' hx (by decide) fun a h => ?_) fun _ => trivial
      obtain ⟨B, p, h1, h2⟩ := hC a h
      have := h1.x; have := h1.pw
      omega

theorem backDivide_ver {bx bb pw w : Int × Int} (ho : J.R .overflow) (hd : DomsOK d) (hl : d.length = J.n) (hx : x.Valid J.n) (hm : my < J.n) (hbx : Small bx) (hbb : Small bb) (hpw : Small pw) (hw : Small w)
    (hC : ∀ a, J.C a → ∃ p, Ranges bx bb pw w (x.eval a) (a my) p ∧ DivideRows (x.eval a) (a my) p) : (backDivide x my bx bb pw w : Prog σ μ Unit).Ver J (fun _ => False) (fun _ _ => True) d := by
  have hsum : RightOrOverflow (do iSub (← iAdd pw.2 bb.2) 1) (fun k => k = pw.2 + bb.2 - 1 ∧ InI64 k) := (iAdd_roo hpw.2 hbb.2).bind fun s hs => (iSub_roo hs.2 (by decide)).mono fun k hk => ⟨by omega, hk.2⟩
  have hneg : RightOrOverflow (do iNeg (← iSub (← iAdd pw.2 bb.2) 1)) (fun k => k = -(pw.2 + bb.2 - 1) ∧ InI64 k) :=
    (iAdd_roo hpw.2 hbb.2).bind fun s hs => (iSub_roo hs.2 (by decide)).bind fun k hk => (iNeg_roo hk.2).mono fun k' hk' => ⟨by omega, hk'.2⟩
  refine then_ver hd hl (signsDivide_ver ho hd hl hx hbx hpw fun a h => ⟨_, hC a h⟩) fun d1 hd1 hl1 => then_ver hd1 hl1 (bound_atMost ho hd1 hl1 hx hsum fun a h => ?_) fun d2 hd2 hl2 =>
    then_ver hd2 hl2 (bound_atLeast ho hd2 hl2 hx hneg fun a h => ?_) fun d3 hd3 hl3 => ?_
  · obtain ⟨p, h1, h2⟩ := hC a h
    have := h1.x; have := h1.pw; have := h1.b
    omega
  · obtain ⟨p, h1, h2⟩ := hC a h
    have := h1.x; have := h1.pw; have := h1.b
    omega
  · split
    · refine bound_atLeast (w := bx.1 - w.2 + 1) ho hd3 hl3 hm ((iSub_roo hbx.1 hw.2).bind fun s hs => (iAdd_roo hs.2 (by decide)).mono fun k hk => ⟨by omega, hk.2⟩) fun a h => ?_
      obtain ⟨p, h1, h2⟩ := hC a h
      have := h1.x; have := h1.w
      simp only [VarId.eval]
      omega
    · refine ver_onlyIf (fun _ => bound_atLeast (w := 1 - bx.2 - w.2) ho hd3 hl3 hm ((iSub_roo (by decide) hbx.2).bind fun s hs => (iSub_roo hs.2 hw.2).mono fun k hk => ⟨by omega, hk.2⟩) fun a h => ?_) fun _ => trivial
      obtain ⟨p, h1, h2⟩ := hC a h
      have := h1.x; have := h1.w
      simp only [VarId.eval]
      omega

theorem backModulus_ver {bx bb br pw w : Int × Int} (ho : J.R .overflow) (hd : DomsOK d) (hl : d.length = J.n) (hx : x.Valid J.n) (hr : r.Valid J.n) (hbx : Small bx) (hbr : Small br) (hpw : Small pw) (hw : Small w)
    (hC : ∀ a, J.C a → ∃ B p, Ranges bx bb pw w (x.eval a) B p ∧ (br.1 ≤ r.eval a ∧ r.eval a ≤ br.2) ∧ ModulusRows (x.eval a) (r.eval a) p) : (backModulus x r bx br pw w : Prog σ μ Unit).Ver J (fun _ => False) (fun _ _ => True) d := by
  unfold backModulus
  split
  · refine then_ver hd hl (bound_atMost ho hd hl hr (iSub_roo hbx.2 hw.1) fun a h => ?_) fun d1 hd1 hl1 => then_ver hd1 hl1 (bound_atLeast ho hd1 hl1 hr (iSub_roo hbx.1 hw.2) fun a h => ?_) fun d2 hd2 hl2 =>
      then_ver hd2 hl2 (bound_atLeast ho hd2 hl2 hx (iAdd_roo hbr.1 hw.1) fun a h => ?_) fun d3 hd3 hl3 => bound_atMost ho hd3 hl3 hx (iAdd_roo hbr.2 hw.2) fun a h => ?_
    all_goals
      obtain ⟨B, p, h1, h2, h3⟩ := hC a h
      have := h1.x; have := h1.w
      omega
  split
  · refine then_ver hd hl (bound_atLeast ho hd hl hr (iAdd_roo hbx.1 hw.1) fun a h => ?_) fun d1 hd1 hl1 => then_ver hd1 hl1 (bound_atMost ho hd1 hl1 hr (iAdd_roo hbx.2 hw.2) fun a h => ?_) fun d2 hd2 hl2 =>
      then_ver hd2 hl2 (bound_atLeast ho hd2 hl2 hx (iSub_roo hbr.1 hw.2) fun a h => ?_) fun d3 hd3 hl3 => bound_atMost ho hd3 hl3 hx (iSub_roo hbr.2 hw.1) fun a h => ?_
    all_goals
      obtain ⟨B, p, h1, h2, h3⟩ := hC a h
      have := h1.x; have := h1.w
      omega
  · refine ver_lift ho (iSub_roo hbx.2 hbr.1) fun ph h1 => then_ver hd hl (ver_onlyIf (fun _ => atMost_ver ho hd hl hx (by decide) fun a h => ?_) fun _ => trivial) fun d1 hd1 hl1 => ?_
    · obtain ⟨B, p, h1, h2, h3⟩ := hC a h
      have := h1.x; have := h1.pw
      omega
    refine ver_lift ho (iSub_roo hbx.1 hbr.2) fun pl h2 => then_ver hd1 hl1 (ver_onlyIf (fun _ => atMost_ver ho hd1 hl1 hx (by decide) fun a h => ?_) fun _ => trivial) fun d2 hd2 hl2 => ?_
    · obtain ⟨B, p, h1, h2, h3⟩ := hC a h
      have := h1.x; have := h1.pw
      omega
    refine ver_lift ho (iSub_roo hbr.2 hbx.1) fun nh h3 => then_ver hd2 hl2 (ver_onlyIf (fun _ => atLeast_ver ho hd2 hl2 hx (by decide) fun a h => ?_) fun _ => trivial) fun d3 hd3 hl3 => ?_
    · obtain ⟨B, p, h1, h2, h3⟩ := hC a h
      have := h1.x; have := h1.pw
      omega
    refine ver_lift ho (iSub_roo hbr.1 hbx.2) fun nl h4 => ver_onlyIf (fun _ => atLeast_ver ho hd3 hl3 hx (by decide) fun a h => ?_) fun _ => trivial
    obtain ⟨B, p, h1, h2, h3⟩ := hC a h
    have := h1.x; have := h1.pw
    omega

theorem filterOne_ver {t : Nat} {bt bo w : Int × Int} (ho : J.R .overflow) (hd : DomsOK d) (hl : d.length = J.n) (ht : t < J.n) (hbo : Small bo) (hw : Small w) (hle : bo.1 ≤ bo.2)
    (hbt : ∀ a, Within d a → bt.1 ≤ a t ∧ a t ≤ bt.2) (hC : ∀ a, J.C a → ∃ o, bo.1 ≤ o ∧ o ≤ bo.2 ∧ w.1 ≤ a t * o ∧ a t * o ≤ w.2) :
    (filterOne t bt bo w : Prog σ μ Unit).Ver J (fun _ => False) (fun _ d' => 0 < bo.1 → bo.1 = bo.2 → w.1 = w.2 → ∀ a, Within d' a → 0 ≤ a t → a t * bo.1 = w.1) d := by
  refine ver_lift ho (quotientFilter_exact hbo.1 hbo.2 hw.1 hw.2 hle) fun q hq => ?_
  have key : ∀ a, J.C a → q.Fits (a t) := fun a h => by
    obtain ⟨o, h1, h2, h3, h4⟩ := hC a h
    exact hq.1.2 _ o h1 h2 h3 h4
  cases q with
  | noFilter =>
    intro h1 h2 h3
    obtain ⟨lo, hi, h, -⟩ := hq.2 h1 h2 h3
    cases h
  | emptyBecauseYZero => exact fun a _ h => key a h
  | bounds lo hi =>
    refine ver_seq (S := fun _ => False) (Q' := fun _ d' => ∀ a, Within d' a → a t ≤ hi) hd hl (fun _ h => h) (ver_onlyIf (fun _ => ?_) fun hn a ha => ?_) fun _ d' hd' hl' hs hq' => ?_
    · refine ver_lift ho (add_roo hq.1.1.2 (by decide)) fun k hk => ver_tell_last (.lt ht hk.2) (fun a _ h => ?_) fun d' _ _ h a ha => ?_
      · rw [Lit.holds_lt]; have := (key a h).2; simp only [VarId.eval]; omega
      · have := ((h a).1 ha).2; rw [Lit.holds_lt] at this; simp only [VarId.eval] at this; omega
    · have := (hbt a ha).2; omega
    · have fin : ∀ d'', (∀ a, Within d'' a → Within d' a) → (∀ a, Within d'' a → lo ≤ a t ∨ lo ≤ 0) → 0 < bo.1 → bo.1 = bo.2 → w.1 = w.2 → ∀ a, Within d'' a → 0 ≤ a t → a t * bo.1 = w.1 := by
        intro d'' s2 h2 k1 k2 k3 a ha a2
        obtain ⟨lo', hi', e, h3, h4⟩ := hq.2 k1 k2 k3
        cases e
        have a1 := hq' a (s2 a ha)
        have a3 := h2 a ha
        have b1 := Int.mul_le_mul_of_nonneg_right a1 (by omega : 0 ≤ bo.1)
        have b2 := Int.mul_le_mul_of_nonneg_right (show lo ≤ a t by omega) (by omega : 0 ≤ bo.1)
        omega
      refine ver_onlyIf (fun _ => ver_tell_last (.ge ht hq.1.1.1) (fun a _ h => ?_) fun d'' _ _ h => fin d'' (fun a ha => ((h a).1 ha).1) fun a ha => ?_) fun hn => fin d' (fun _ h => h) fun a ha => ?_
      · rw [Lit.holds_ge]; exact (key a h).1
      · have := ((h a).1 ha).2; rw [Lit.holds_ge] at this; exact .inl this
      · have := (hbt a (hs a ha)).1
        omega

theorem negative_roo {bl : Int} {b : Int × Int} (hl : InI64 bl) (hb : Small b) : RightOrOverflow (negative bl b) (fun c => c = true → bl > b.2) := by
  unfold negative
  split
  · exact (iNeg_roo hl).bind fun _ _ => (iAdd_roo hb.2 (by decide)).bind fun _ _ => .pure fun _ => ‹_›
  · exact .pure fun h => nomatch h

theorem positive_roo {bl : Int} {b : Int × Int} (hb : Small b) : RightOrOverflow (positive bl b) (fun c => c = true → bl > -b.1) :=
  (iNeg_roo hb.1).bind fun _ h => .pure fun hc => by have := of_decide_eq_true hc; omega

theorem pushDivisor_ver (ho : J.R .overflow) (hd : DomsOK d) (hl : d.length = J.n) (hy : y.Valid J.n) (hm : my < J.n) (hC : ∀ a, J.C a → a my = (y.eval a).natAbs) :
    (pushDivisor y my : Prog σ μ Unit).Ver J (fun _ => False) (fun _ _ => True) d := by
  refine ver_ask (f := (lowerBound · (.simple my))) ho (lower_roo (v := .simple my) hd (show my < d.length from hl ▸ hm)) fun bl hbl => ver_ask (f := (bounds · y)) ho (bounds_roo hd (hl ▸ hy)) fun b hb => ?_
  have lb : ∀ a, Within d a → bl ≤ a my := fun a ha => hbl.2.le ha
  refine ver_lift ho (negative_roo hbl.1 ⟨hb.1.1, hb.2.1⟩) fun c hc => ?_
  split
  · refine ver_lift (P := fun k => k = -bl + 1 ∧ InI64 k) ho ((iNeg_roo hbl.1).bind fun s hs => (iAdd_roo hs.2 (by decide)).mono fun k hk => ⟨by omega, hk.2⟩) fun k hk => ver_tell_last (.lt hy hk.2) (fun a ha h => ?_) fun _ _ _ _ => trivial
    rw [Lit.holds_lt]
    have := hC a h; have := lb a ha; have := hb.2.2.ge ha; have := hc ‹_›
    omega
  · refine ver_lift ho (positive_roo ⟨hb.1.1, hb.2.1⟩) fun c' hc' => ver_onlyIf (fun h' => ver_tell_last (.ge hy hbl.1) (fun a ha h => ?_) fun _ _ _ _ => trivial) fun _ => trivial
    rw [Lit.holds_ge]
    have := hC a h; have := lb a ha; have := hb.1.2.le ha; have := hc' h'
    omega

/-- What the rows say about the product. -/
def rowSpec (x b : Int × Int) : Option (Int × Int) → Int × Int
  | none => if x.1 ≥ 0 then (x.1 - b.2 + 1, x.2) else if x.2 < 1 then (-x.2 - b.2 + 1, -x.1) else (min (x.1 - b.2 + 1) (-x.2 - b.2 + 1), max x.2 (-x.1))
  | some r => if x.1 ≥ 0 then (x.1 - r.2, x.2 - r.1) else if x.2 < 1 then (r.1 - x.2, r.2 - x.1) else (min (x.1 - r.2) (r.1 - x.2), max (x.2 - r.1) (r.2 - x.1))

theorem row_roo {bx bb : Int × Int} {br : Option (Int × Int)} (hbx : Small bx) (hbb : Small bb) (hbr : ∀ b, br = some b → Small b) : RightOrOverflow (row bx bb br) (fun w => w = rowSpec bx bb br ∧ Small w) := by
  have hp : RightOrOverflow (posRow bx bb br) (fun w => w = (match br with | none => (bx.1 - bb.2 + 1, bx.2) | some r => (bx.1 - r.2, bx.2 - r.1)) ∧ Small w) := by
    cases br with
    | none => exact (iSub_roo hbx.1 hbb.2).bind fun s hs => (iAdd_roo hs.2 (by decide)).bind fun k hk => .pure ⟨by rw [hk.1, hs.1], hk.2, hbx.2⟩
    | some r =>
      have h := hbr r rfl
      exact (iSub_roo hbx.2 h.1).bind fun s hs => (iSub_roo hbx.1 h.2).bind fun k hk => .pure ⟨by rw [hk.1, hs.1], hk.2, hs.2⟩
  have hn : RightOrOverflow (negRow bx bb br) (fun w => w = (match br with | none => (-bx.2 - bb.2 + 1, -bx.1) | some r => (r.1 - bx.2, r.2 - bx.1)) ∧ Small w) := by
    cases br with
    | none => exact (iNeg_roo hbx.1).bind fun h hh => (iNeg_roo hbx.2).bind fun g hg => (iSub_roo hg.2 hbb.2).bind fun s hs => (iAdd_roo hs.2 (by decide)).bind fun k hk => .pure ⟨by rw [hk.1, hs.1, hh.1, hg.1], hk.2, hh.2⟩
    | some r =>
      have h := hbr r rfl
      exact (iSub_roo h.2 hbx.1).bind fun s hs => (iSub_roo h.1 hbx.2).bind fun k hk => .pure ⟨by rw [hk.1, hs.1], hk.2, hs.2⟩
  unfold row
  split
  · rename_i h
    refine hp.mono fun w hw => ⟨?_, hw.2⟩
    rw [hw.1]
    cases br <;> simp only [rowSpec, if_pos h]
  split
  · rename_i h h'
    refine hn.mono fun w hw => ⟨?_, hw.2⟩
    rw [hw.1]
    cases br <;> simp only [rowSpec, if_neg h, if_pos h']
  · rename_i h h'
    refine hp.bind fun p hp => hn.bind fun q hq => .pure ⟨?_, inI64_min' hp.2.1 hq.2.1, inI64_max' hp.2.2 hq.2.2⟩
    rw [hp.1, hq.1]
    cases br <;> simp only [rowSpec, if_neg h, if_neg h']

theorem row_divide {bx bb : Int × Int} {xv B p : Int} (h1 : bx.1 ≤ xv) (h2 : xv ≤ bx.2) (h3 : B ≤ bb.2) (h : DivideRows xv B p) : (rowSpec bx bb none).1 ≤ p ∧ p ≤ (rowSpec bx bb none).2 := by
  simp only [rowSpec]
  by_cases h5 : bx.1 ≥ 0
  · simp only [if_pos h5]; omega
  by_cases h6 : bx.2 < 1
  · simp only [if_neg h5, if_pos h6]; omega
  · simp only [if_neg h5, if_neg h6]; omega

theorem row_modulus {bx bb br : Int × Int} {xv rv p : Int} (h1 : bx.1 ≤ xv) (h2 : xv ≤ bx.2) (h3 : br.1 ≤ rv) (h4 : rv ≤ br.2) (h : ModulusRows xv rv p) : (rowSpec bx bb (some br)).1 ≤ p ∧ p ≤ (rowSpec bx bb (some br)).2 := by
  simp only [rowSpec]
  by_cases h5 : bx.1 ≥ 0
  · simp only [if_pos h5]; omega
  by_cases h6 : bx.2 < 1
  · simp only [if_neg h5, if_pos h6]; omega
  · simp only [if_neg h5, if_neg h6]; omega

/-- What the rows say, for either constraint. -/
def Rows (x : VarId) (mq my : Nat) (a : Asg) : Option VarId → Prop
  | none => DivideRows (x.eval a) (a my) (a mq * a my)
  | some r => ModulusRows (x.eval a) (r.eval a) (a mq * a my)

/-- What a pass checks of the rows: those for negative numbers are not checked for zero. -/
def Checked (x : VarId) (mq my : Nat) (a : Asg) : Option VarId → Prop
  | none => DivideRows (x.eval a) (a my) (a mq * a my)
  | some r => (0 ≤ x.eval a → r.eval a = x.eval a - a mq * a my) ∧ (x.eval a < 0 → r.eval a = x.eval a + a mq * a my)

/-- When a pass checks the rows. -/
def Ready (d : Doms) (mq : Nat) : Option VarId → Prop
  | none => Known d (.simple mq)
  | some r => Known d r

/-- What is read of the remainder. -/
def EndsOf (d : Doms) : Option VarId → Option (Int × Int) → Prop
  | none, none => True
  | some r, some b => Multiply.Ends d r b
  | _, _ => False

theorem product_ver {ro : Option VarId} (ho : J.R .overflow) (hd : DomsOK d) (hl : d.length = J.n) (hx : x.Valid J.n) (hy : y.Valid J.n) (hr : ∀ r, ro = some r → r.Valid J.n) (hq : mq < J.n) (hm : my < J.n)
    (hC : ∀ a, J.C a → y.eval a ≠ 0 ∧ a my = (y.eval a).natAbs ∧ 0 ≤ a mq ∧ Rows x mq my a ro) :
    (product x y mq my ro : Prog σ μ Unit).Ver J (fun _ => False) (fun _ d' => Known d x → Known d (.simple my) → (∀ a, Within d a → 1 ≤ a my) → Ready d mq ro → ∀ a, Within d' a → 0 ≤ a mq → Checked x mq my a ro) d := by
  have hq' : (VarId.simple mq).Valid J.n := hq
  have hm' : (VarId.simple my).Valid J.n := hm
  refine ver_ask (f := (bounds · (.simple mq))) ho (bounds_roo hd (hl ▸ hq')) fun ba hba => ver_ask (f := (bounds · (.simple my))) ho (bounds_roo hd (hl ▸ hm')) fun bb hbb =>
    ver_ask (f := (bounds · x)) ho (bounds_roo hd (hl ▸ hx)) fun bx hbx => ?_
  refine ver_seq (S := fun _ => False) (Q' := fun o d' => d' = d ∧ EndsOf d ro o) hd hl (fun _ h => h) ?_ fun br d' _ _ _ hh => ?_
  · cases ro with
    | none => exact ⟨rfl, trivial⟩
    | some r => exact ver_ask (f := (bounds · r)) ho (bounds_roo hd (hl ▸ hr r rfl)) fun b hb => ⟨rfl, hb⟩
  obtain ⟨rfl, hbr⟩ := hh
  have sa : Small ba := ⟨hba.1.1, hba.2.1⟩
  have sb : Small bb := ⟨hbb.1.1, hbb.2.1⟩
  have sx : Small bx := ⟨hbx.1.1, hbx.2.1⟩
  have sr : ∀ b, br = some b → Small b := by
    rintro b rfl
    cases ro with
    | none => cases hbr
    | some r => exact ⟨hbr.1.1, hbr.2.1⟩
  refine ver_lift ho (productBounds_roo sa.1 sa.2 sb.1 sb.2) fun pw hpw => ver_lift ho (row_roo sx sb sr) fun rw' hrw => ?_
  have ra : ∀ a, Within d' a → ba.1 ≤ a mq ∧ a mq ≤ ba.2 := fun a ha => ⟨hba.1.2.le ha, hba.2.2.ge ha⟩
  have rb : ∀ a, Within d' a → bb.1 ≤ a my ∧ a my ≤ bb.2 := fun a ha => ⟨hbb.1.2.le ha, hbb.2.2.ge ha⟩
  have rx : ∀ a, Within d' a → bx.1 ≤ x.eval a ∧ x.eval a ≤ bx.2 := fun a ha => ⟨hbx.1.2.le ha, hbx.2.2.ge ha⟩
  have la : ba.1 ≤ ba.2 := hba.1.2.2 _ hba.2.2.1
  have lb : bb.1 ≤ bb.2 := hbb.1.2.2 _ hbb.2.2.1
  generalize hw : (max (max pw.1 0) rw'.1, min pw.2 rw'.2) = w
  have sw : Small w := by rw [← hw]; exact ⟨inI64_max' (inI64_max' hpw.1.1 (by decide)) hrw.2.1, inI64_min' hpw.1.2 hrw.2.2⟩
  -- what holds throughout
  have facts : ∀ a, Within d' a → J.C a → Ranges bx bb pw w (x.eval a) (a my) (a mq * a my) := by
    intro a ha hc
    obtain ⟨h0, h1, h2, h3⟩ := hC a hc
    have k1 := ra a ha; have k2 := rb a ha; have k3 := rx a ha
    have k4 := hpw.2.1 _ _ k1.1 k1.2 k2.1 k2.2
    have hrow : rw'.1 ≤ a mq * a my ∧ a mq * a my ≤ rw'.2 := by
      rw [hrw.1]
      cases ro with
      | none =>
        cases br with
        | some b => exact absurd hbr (fun h => h)
        | none => exact row_divide k3.1 k3.2 k2.2 h3
      | some r =>
        cases br with
        | none => exact absurd hbr (fun h => h)
        | some b => exact row_modulus k3.1 k3.2 (hbr.1.2.le ha) (hbr.2.2.ge ha) h3
    have hp := Int.mul_nonneg h2 (by omega : 0 ≤ a my)
    refine ⟨k3, ⟨by omega, k2.2⟩, k4, ?_⟩
    rw [← hw]
    dsimp only
    omega
  dsimp only
  split
  · rename_i hlt
    intro a ha hc
    have := (facts a ha hc).w
    omega
  rename_i hlt
  -- the rows, once all is known
  have fin : ∀ a, Within d' a → Known d' x → Known d' (.simple my) → 1 ≤ a my → (match ro with | none => Known d' (.simple mq) | some r => Known d' r ∧ 0 ≤ a mq ∧ (0 < bb.1 → bb.1 = bb.2 → w.1 = w.2 → a mq * bb.1 = w.1)) → Checked x mq my a ro := by
    intro a ha kx km hpos hk
    have e1 := (hbx.1.2.eq kx ha); have e2 := (hbx.2.2.eq kx ha)
    have e3 : bb.1 = a my := (hbb.1.2.eq km ha); have e4 : bb.2 = a my := (hbb.2.2.eq km ha)
    cases ro with
    | none =>
      cases br with
      | some b => exact absurd hbr (fun h => h)
      | none =>
        have e5 : ba.1 = a mq := (hba.1.2.eq hk ha); have e6 : ba.2 = a mq := (hba.2.2.eq hk ha)
        have e7 := hpw.2.2 (by omega) (by omega)
        rw [e5, e3] at e7
        have := hrw.1
        show DivideRows _ _ _
        generalize a mq * a my = p at *
        rw [← hw, e7, this] at hlt
        unfold rowSpec at hlt
        dsimp only at hlt
        split at hlt
        · dsimp only at hlt; omega
        split at hlt
        · dsimp only at hlt; omega
        · omega
    | some r =>
      cases br with
      | none => exact absurd hbr (fun h => h)
      | some b =>
        obtain ⟨kr, hq0, hk⟩ := hk
        have e5 := hbr.1.2.eq kr ha; have e6 := hbr.2.2.eq kr ha
        have := hrw.1
        have hw1 : w.1 = max (max pw.1 0) rw'.1 := by rw [← hw]
        have hw2 : w.2 = min pw.2 rw'.2 := by rw [← hw]
        rw [this] at hw1 hw2
        show (_ → _) ∧ (_ → _)
        rw [e3] at hk
        unfold rowSpec at hw1 hw2
        dsimp only at hw1 hw2
        split at hw1
        · rename_i h; rw [if_pos h] at hw2
          dsimp only at hw1 hw2
          have := hk (by omega) (by omega) (by omega)
          generalize a mq * a my = p at *
          omega
        rename_i h; rw [if_neg h] at hw2
        split at hw1
        · rename_i h; rw [if_pos h] at hw2
          dsimp only at hw1 hw2
          have := hk (by omega) (by omega) (by omega)
          generalize a mq * a my = p at *
          omega
        · omega
  refine ver_seq (S := fun _ => False) (Q' := fun _ _ => True) hd hl (fun _ h => h) ?_ fun _ d1 hd1 hl1 s1 _ => ?_
  · cases ro with
    | none =>
      cases br with
      | some b => exact absurd hbr (fun h => h)
      | none =>
        exact ver_weaken (J := { J with C := fun a => Ranges bx bb pw w (x.eval a) (a my) (a mq * a my) ∧ DivideRows (x.eval a) (a my) (a mq * a my) }) _ _ (fun a ha hc => ⟨facts a ha hc, (hC a hc).2.2.2⟩)
          (backDivide_ver ho hd hl hx hm sx sb hpw.1 sw fun a h => ⟨_, h⟩)
    | some r =>
      cases br with
      | none => exact absurd hbr (fun h => h)
      | some b =>
        exact ver_weaken (J := { J with C := fun a => Ranges bx bb pw w (x.eval a) (a my) (a mq * a my) ∧ (b.1 ≤ r.eval a ∧ r.eval a ≤ b.2) ∧ ModulusRows (x.eval a) (r.eval a) (a mq * a my) }) _ _
          (fun a ha hc => ⟨facts a ha hc, ⟨hbr.1.2.le ha, hbr.2.2.ge ha⟩, (hC a hc).2.2.2⟩) (backModulus_ver (bb := bb) ho hd hl hx (hr r rfl) sx (sr b rfl) hpw.1 sw fun a h => ⟨_, _, h⟩)
  have facts1 : ∀ a, Within d1 a → J.C a → (bb.1 ≤ a my ∧ a my ≤ bb.2 ∧ ba.1 ≤ a mq ∧ a mq ≤ ba.2) ∧ w.1 ≤ a mq * a my ∧ a mq * a my ≤ w.2 := fun a ha hc =>
    ⟨⟨(rb a (s1 a ha)).1, (rb a (s1 a ha)).2, (ra a (s1 a ha)).1, (ra a (s1 a ha)).2⟩, (facts a (s1 a ha) hc).w⟩
  refine ver_seq (S := fun _ => False) hd1 hl1 (fun _ h => h) (ver_weaken (J := { J with C := fun a => (bb.1 ≤ a my ∧ a my ≤ bb.2 ∧ ba.1 ≤ a mq ∧ a mq ≤ ba.2) ∧ w.1 ≤ a mq * a my ∧ a mq * a my ≤ w.2 }) _ _ facts1
    (filterOne_ver (t := mq) (bt := ba) ho hd1 hl1 hq sb sw lb (fun a ha => ra a (s1 a ha)) fun a h => ⟨a my, h.1.1, h.1.2.1, h.2.1, h.2.2⟩)) fun _ d2 hd2 hl2 s2 hf => ?_
  refine ver_seq (S := fun _ => False) hd2 hl2 (fun _ h => h) (ver_weaken (J := { J with C := fun a => (bb.1 ≤ a my ∧ a my ≤ bb.2 ∧ ba.1 ≤ a mq ∧ a mq ≤ ba.2) ∧ w.1 ≤ a mq * a my ∧ a mq * a my ≤ w.2 }) _ _ (fun a ha => facts1 a (s2 a ha))
    (filterOne_ver (t := my) (bt := bb) ho hd2 hl2 hm sa sw la (fun a ha => rb a (s1 a (s2 a ha))) fun a h => ⟨a mq, h.1.2.2.1, h.1.2.2.2, by rw [Int.mul_comm]; exact h.2.1, by rw [Int.mul_comm]; exact h.2.2⟩)) fun _ d3 hd3 hl3 s3 _ => ?_
  refine ver_mono (fun _ d4 hh kx km hpos hready a ha hq0 => ?_) _ _ (ver_facts _ _ hd3 hl3 (pushDivisor_ver ho hd3 hl3 hy hm fun a h => (hC a h).2.1))
  have h3 := hh.1.2.2 a ha
  have h2 := s3 a h3
  have h0 := s1 a (s2 a h2)
  refine fin a h0 kx km (hpos a h0) ?_
  cases ro with
  | none => exact hready
  | some r => exact ⟨hready, hq0, fun k1 k2 k3 => hf k1 k2 k3 a h2 hq0⟩

end
end DivMod
end Gcs
