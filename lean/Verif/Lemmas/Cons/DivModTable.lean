import Verif.Lemmas.Cons.DivModInstall
import Verif.Lemmas.Cons.TabulationInstall
import Verif.Lemmas.PbClause

/-!
Division and remainder: the bounds that magnitudes are given leave room for them, and tables are exact.
-/

namespace Gcs
open IntervalSet

namespace DivMod
open Tabulation

/-! ## Bounds of magnitudes -/

theorem overflow_of {α : Type} {x : Chk α} {Q : α → Prop} {e : Err} (h : RightOrOverflow x Q) (he : x = .error e) : e = .overflow := by
  rcases h with h | ⟨v, h, _⟩
  · rw [he] at h; cases h; rfl
  · rw [he] at h; cases h

theorem bitMax_spec {ub : Int} : ∀ (k : Nat) (bits : Int), 0 ≤ bits → bits ≤ 63 → 64 ≤ bits + k → (∀ v, bitMax ub k bits = .ok v → ub ≤ v ∧ 0 ≤ v) ∧ ∀ e, bitMax ub k bits = .error e → e = .unimplemented
  | 0, bits, _, h1, h2 => by omega
  | k + 1, bits, h0, h1, h2 => by
    unfold bitMax
    by_cases hb : bits < 63
    · rw [Pb.power2_ok h0 hb]
      have hp : (1 : Int) ≤ 2 ^ bits.toNat := Int.pow_pos (by decide)
      have hm : (2 : Int) ^ bits.toNat ≤ 2 ^ 62 := by
        have := Nat.pow_le_pow_right (by decide : 0 < 2) (by omega : bits.toNat ≤ 62)
        exact_mod_cast this
      simp only [bind, Except.bind]
      split
      · have e : iAdd bits 1 = .ok (bits + 1) := by rw [iAdd_exact bits 1 (by unfold InI64 i64Min i64Max; omega) (by decide), exactOrThrow, if_pos (by unfold InI64 i64Min i64Max; omega)]
        rw [e]
        exact bitMax_spec k (bits + 1) (by omega) (by omega) (by omega)
      · have e : iSub (2 ^ bits.toNat) 1 = .ok (2 ^ bits.toNat - 1) := by rw [iSub_exact _ 1 (by unfold InI64 i64Min i64Max; omega) (by decide), exactOrThrow, if_pos (by unfold InI64 i64Min i64Max; omega)]
        rw [e]
        exact ⟨(fun v h => by cases h; omega), fun e h => by cases h⟩
    · have e : power2 bits = .error .unimplemented := by unfold power2; rw [if_pos (by omega)]
      rw [e]
      exact ⟨(fun v h => by cases h), fun e h => by cases h; rfl⟩

section
variable {root : Doms} {x y out : VarId} {divide : Bool}

theorem magnitudeOf_spec (hd : DomsOK root) {v : VarId} (hv : v.Valid root.length) :
    (∀ c, magnitudeOf root v = .ok c → 0 ≤ c ∧ ∀ a, Within root a → ((v.eval a).natAbs : Int) ≤ c) ∧ ∀ e, magnitudeOf root v = .error e → e = .overflow ∨ e = .unimplemented := by
  unfold magnitudeOf
  have hb := bounds_roo hd hv
  cases e1 : bounds root v with
  | error er => exact ⟨(fun c h => by cases h), fun e h => by cases h; exact .inl (overflow_of hb e1)⟩
  | ok b =>
    have hb := hb.value e1
    simp only [bind, Except.bind]
    have h1 := abs_roo hb.1.1
    cases e2 : iAbs b.1 with
    | error er => exact ⟨(fun c h => by cases h), fun e h => by cases h; exact .inl (overflow_of h1 e2)⟩
    | ok l =>
      have h2 := abs_roo hb.2.1
      cases e3 : iAbs b.2 with
      | error er => exact ⟨(fun c h => by cases h), fun e h => by cases h; exact .inl (overflow_of h2 e3)⟩
      | ok h =>
        have h1 := (h1.value e2).1
        have h2 := (h2.value e3).1
        have h3 := bitMax_spec (ub := max l h) 64 0 (by decide) (by decide) (by decide)
        dsimp only
        refine ⟨fun c hc => ?_, fun e he => .inr (h3.2 e he)⟩
        have h4 := h3.1 c hc
        refine ⟨h4.2, fun a ha => ?_⟩
        have h5 := hb.1.2.le ha
        have h6 := hb.2.2.ge ha
        split at h1 <;> split at h2 <;> omega

theorem size_roo {x : Int} (h : InI64 x) : RightOrOverflow (size x) (fun r => r = x.natAbs ∧ InI64 r) := by
  unfold size
  split
  · exact (neg_roo h).mono fun r hr => ⟨by omega, hr.2⟩
  · exact .pure ⟨by omega, h⟩

theorem largest_roo (hd : DomsOK root) (hx : x.Valid root.length) : RightOrOverflow (largest root x) (fun r => ∀ a, Within root a → ((x.eval a).natAbs : Int) ≤ r) := by
  refine (bounds_roo hd hx).bind fun b hb => (size_roo hb.1.1).bind fun l hl => (size_roo hb.2.1).bind fun h hh => .pure fun a ha => ?_
  have h5 := hb.1.2.le ha
  have h6 := hb.2.2.ge ha
  omega

/-- The bounds of magnitudes are large enough. If they cannot be found, this is because of an overflow, or because they need more than 62 bits. -/
theorem magnitudes_spec (hd : DomsOK root) (hx : x.Valid root.length) (hy : y.Valid root.length) (hout : out.Valid root.length) :
    (∀ p, magnitudes divide x y out root = .ok p → 0 ≤ p.1 ∧ 0 ≤ p.2 ∧ ∀ a, Within root a → (divide = true → ((out.eval a).natAbs : Int) ≤ p.1) ∧ (divide = false → ((x.eval a).natAbs : Int) ≤ p.1) ∧ ((y.eval a).natAbs : Int) ≤ p.2) ∧
    ∀ e, magnitudes divide x y out root = .error e → e = .overflow ∨ e = .unimplemented := by
  unfold magnitudes
  have h1 := largest_roo hd hx
  cases e1 : largest root x with
  | error er => exact ⟨(fun c h => by cases h), fun e h => by cases h; exact .inl (overflow_of h1 e1)⟩
  | ok mx =>
    have h1 := h1.value e1
    have hq : (∀ c, quotientOf divide mx out root = .ok c → 0 ≤ c ∧ ∀ a, Within root a → (divide = true → ((out.eval a).natAbs : Int) ≤ c) ∧ (divide = false → ((x.eval a).natAbs : Int) ≤ c)) ∧
        ∀ e, quotientOf divide mx out root = .error e → e = .overflow ∨ e = .unimplemented := by
      cases divide with
      | true =>
        have := magnitudeOf_spec hd hout
        exact ⟨fun c h => ⟨(this.1 c h).1, fun a ha => ⟨fun _ => (this.1 c h).2 a ha, fun e => by cases e⟩⟩, this.2⟩
      | false =>
        have := bitMax_spec (ub := mx) 64 0 (by decide) (by decide) (by decide)
        exact ⟨fun c h => ⟨(this.1 c h).2, fun a ha => ⟨(fun e => by cases e), fun _ => by have := (this.1 c h).1; have := h1 a ha; omega⟩⟩, fun e h => .inr (this.2 e h)⟩
    simp only [bind, Except.bind]
    cases e2 : quotientOf divide mx out root with
    | error er => exact ⟨(fun c h => by cases h), fun e h => by cases h; exact hq.2 _ e2⟩
    | ok q =>
      have h3 := magnitudeOf_spec hd hy
      dsimp only
      cases e3 : magnitudeOf root y with
      | error er => exact ⟨(fun c h => by cases h), fun e h => by cases h; exact h3.2 _ e3⟩
      | ok b =>
        refine ⟨fun c h => ?_, fun e h => by cases h⟩
        cases h
        have k1 := hq.1 q e2
        have k2 := h3.1 b e3
        exact ⟨k1.1, k2.1, fun a ha => ⟨(k1.2 a ha).1, (k1.2 a ha).2, k2.2 a ha⟩⟩

end

/-! ## Tables -/

theorem related_iff {x y q r : Int} (hq : InI64 q) : related x y q r = true ↔ y ≠ 0 ∧ x.tdiv y = q ∧ x.tmod y = r := by
  unfold related
  split
  · rename_i h; simp [h]
  · rename_i h
    split
    · rename_i h'
      simp only [Bool.false_eq_true, false_iff]
      rintro ⟨-, h1, -⟩
      rw [h'.1, h'.2] at h1
      have : (i64Min).tdiv (-1) = 9223372036854775808 := by decide
      unfold InI64 i64Max at hq
      omega
    · rw [decide_eq_true_iff]
      exact ⟨fun k => ⟨h, k⟩, fun k => k.2⟩

/-- The quotient, given its magnitude. -/
def signed (q x y : Int) : Int := if (decide (x ≥ 0) != decide (y ≥ 0)) = true then -q else q

theorem recoverQ_roo {q : Int} (hq : InI64 q) (x y : Int) : RightOrOverflow (recoverQ q x y) (fun r => r = signed q x y ∧ InI64 r) := by
  unfold recoverQ signed
  split
  · exact neg_roo hq
  · exact .pure ⟨rfl, hq⟩

theorem signed_same {q x y : Int} (h : 0 ≤ x ∧ 0 < y ∨ x < 0 ∧ y < 0) : signed q x y = q := by
  unfold signed
  rw [if_neg]
  rcases h with h | h
  · simp [show 0 ≤ x by omega, show 0 ≤ y by omega]
  · simp [show ¬ 0 ≤ x by omega, show ¬ 0 ≤ y by omega]

theorem signed_opposite {q x y : Int} (h : 0 ≤ x ∧ y < 0 ∨ x < 0 ∧ 0 < y) : signed q x y = -q := by
  unfold signed
  rw [if_pos]
  rcases h with h | h
  · simp [show 0 ≤ x by omega]; omega
  · simp [show 0 ≤ y by omega]; omega

theorem signed_iff {q x y : Int} (hq : 0 ≤ q) (hy : y ≠ 0) : x.tdiv y = signed q x y ↔ q = (x.tdiv y).natAbs := by
  obtain ⟨Q, h0, h1, h2, h3, h4⟩ := tdiv_form x hy
  by_cases h : 0 ≤ x ∧ 0 < y ∨ x < 0 ∧ y < 0
  · rw [signed_same h]
    have := h3 (by omega)
    omega
  · rw [signed_opposite (by omega)]
    have := h4 (by omega)
    omega

theorem signed_product {q x y : Int} (hy : y ≠ 0) : signed q x y * y = (if 0 ≤ x then q * y.natAbs else -(q * y.natAbs)) := by
  by_cases h : 0 ≤ x ∧ 0 < y ∨ x < 0 ∧ y < 0
  · rw [signed_same h]
    rcases h with h | h
    · rw [if_pos h.1, show (y.natAbs : Int) = y by omega]
    · rw [if_neg (by omega), show (y.natAbs : Int) = -y by omega]; grind
  · rw [signed_opposite (by omega)]
    have h : 0 ≤ x ∧ y < 0 ∨ x < 0 ∧ 0 < y := by omega
    rcases h with h | h
    · rw [if_pos h.1, show (y.natAbs : Int) = -y by omega]; grind
    · rw [if_neg (by omega), show (y.natAbs : Int) = y by omega]; grind

/-- A value as one of a variable of which it is an affine image. -/
theorem asValue_roo {c : Affine} (hc : InI64 c.coeff ∧ InI64 c.offset) (hne : c.coeff ≠ 0) {w : Int} (hw : InI64 w) :
    RightOrOverflow (asValue c w) (fun o => (∀ x, o = some x → InI64 x) ∧ ∀ y, c.coeff * y + c.offset = w → o = some y) := by
  have key : ∀ y, c.coeff * y + c.offset = w → w - c.offset = c.coeff * y := fun y h => by omega
  refine (sub_roo hw hc.2).bind fun df hdf => (mod_roo hdf.2 hc.1 hne).bind fun r hr => ?_
  split
  · rename_i hr'
    refine .pure ⟨fun x h => (by cases h), fun y hy => ?_⟩
    rw [hr, hdf.1, key y hy, Int.mul_tmod_right] at hr'
    exact absurd rfl hr'
  · refine (sub_roo hw hc.2).bind fun df' hdf' => (div_roo hdf'.2 hc.1 hne).bind fun q hq => .pure ⟨fun x h => by cases h; exact hq.2, fun y hy => ?_⟩
    rw [hq.1, hdf'.1, key y hy, Int.mul_tdiv_cancel_left _ hne]

section
variable {vars : List VarId} {a b c : Affine} {pa pb pc : Option Nat} (ha : InI64 a.coeff ∧ InI64 a.offset) (hb : InI64 b.coeff ∧ InI64 b.offset) (hc : InI64 c.coeff ∧ InI64 c.offset)
  (sa : Spot vars a pa) (sb : Spot vars b pb) (sc : Spot vars c pc)

/-- What `Divide` says about the values, if they can be represented. -/
def DivideIs (a b c : Affine) (pa pb pc : Option Nat) (vals : List Int) : Prop := InI64 (read c pc vals) ∧ read b pb vals ≠ 0 ∧ (read a pa vals).tdiv (read b pb vals) = read c pc vals

/-- What `Modulus` says about the values, the magnitude of the quotient among them. -/
def ModulusIs (a b c : Affine) (pa pb pc : Option Nat) (paux : Nat) (vals : List Int) : Prop :=
  read b pb vals ≠ 0 ∧ (read a pa vals).tdiv (read b pb vals) = signed (vals.getD paux 0) (read a pa vals) (read b pb vals) ∧ InI64 ((read a pa vals).tdiv (read b pb vals)) ∧ (read a pa vals).tmod (read b pb vals) = read c pc vals

include ha hb hc sa sb sc in
theorem acceptDivide_ok : Accepts vars (acceptDivide a b c pa pb pc) (DivideIs a b c pa pb pc) := by
  intro vals hw
  refine (slot_roo ha.1 ha.2 sa hw).bind fun xv hx => (slot_roo hb.1 hb.2 sb hw).bind fun yv hy => (slot_roo hc.1 hc.2 sc hw).bind fun qv hq => (mul_roo hq.2 hy.2).bind fun pv hp => (sub_roo hx.2 hp.2).bind fun rv hr => .pure ?_
  rw [related_iff hq.2, DivideIs, ← hx.1, ← hy.1, ← hq.1]
  refine ⟨fun h => ⟨hq.2, h.1, h.2.1⟩, fun h => ⟨h.2.1, h.2.2, ?_⟩⟩
  rw [Int.tmod_def, h.2.2, hr.1, hp.1]; grind

variable {paux i : Nat} (saux : vars[paux]? = some (.simple i))

include ha hb hc sa sb sc saux in
theorem acceptModulus_ok : Accepts vars (acceptModulus a b c pa pb pc paux) (ModulusIs a b c pa pb pc paux) := by
  intro vals hw
  have hx := slot_roo ha.1 ha.2 sa hw
  obtain ⟨e1, e2⟩ := whole_at hw saux
  refine (slot_roo ha.1 ha.2 sa hw).bind fun xv hx => (slot_roo hb.1 hb.2 sb hw).bind fun yv hy => (slot_roo hc.1 hc.2 sc hw).bind fun rv hr => ?_
  rw [e1]
  refine (recoverQ_roo e2 xv yv).bind fun qv hq => .pure ?_
  rw [related_iff hq.2, ModulusIs, ← hx.1, ← hy.1, ← hr.1, ← hq.1]
  exact ⟨fun h => ⟨h.1, h.2.1, h.2.1 ▸ hq.2, h.2.2⟩, fun h => ⟨h.1, h.2.1, h.2.2.2⟩⟩

theorem getD_other {vals : List Int} {pos p : Nat} (h : pos ≠ p) (x : Int) : (vals.set pos x).getD p 0 = vals.getD p 0 := by
  simp [List.getD_eq_getElem?_getD, List.getElem?_set, h]

include ha hb hc sa sb sc saux in
theorem solveRemainder_ok {H : List Int → Prop} {pos : Nat} (hp : pc = some pos) (h1 : some pos ≠ pa) (h2 : some pos ≠ pb) (h3 : pos ≠ paux) (hu : c.coeff = 1 ∨ c.coeff = -1) :
    Determines vars (ModulusIs a b c pa pb pc paux) H pos (solveRemainder a b c pa pb paux) := by
  have hC := sc
  rw [hp] at hC
  obtain ⟨j, -, hj⟩ := hC.at
  refine ⟨⟨j, hj⟩, fun vals hw => ?_⟩
  have hlt : pos < vals.length := hw.1 ▸ (List.getElem?_eq_some_iff.1 hj).1
  obtain ⟨e1, e2⟩ := whole_at hw saux
  refine (slot_roo ha.1 ha.2 sa hw).bind fun xv hx => (slot_roo hb.1 hb.2 sb hw).bind fun yv hy => ?_
  rw [e1]
  refine (recoverQ_roo e2 xv yv).bind fun qv hq => (mul_roo hq.2 hy.2).bind fun pv hpv => (sub_roo hx.2 hpv.2).bind fun wv hwv => ?_
  refine (asValue_roo hc (by omega) hwv.2).mono fun o ho => ⟨ho.1, fun x _ _ hA => ho.2 x ?_⟩
  obtain ⟨k1, k2, -, k3⟩ := hA
  rw [read_other h1, read_other h2, ← hx.1, ← hy.1] at k2 k3
  rw [getD_other h3, ← hq.1] at k2
  rw [hp, read_set c (some pos) hlt] at k3
  simp only [coeffAt, rest, if_true] at k3
  rw [Int.tmod_def, k2] at k3
  rw [hwv.1, hpv.1, ← k3]; grind

include ha hb hc sa sb sc saux in
theorem solveDividend_ok {pos : Nat} {bx : Int × Int} (hp : pa = some pos) (h1 : some pos ≠ pb) (h2 : some pos ≠ pc) (h3 : pos ≠ paux) (hu : a.coeff = 1 ∨ a.coeff = -1) (hs : bx.1 ≥ 0 ∨ bx.2 ≤ 0) :
    Determines vars (ModulusIs a b c pa pb pc paux) (fun vals => bx.1 ≤ read a pa vals ∧ read a pa vals ≤ bx.2) pos (solveDividend (if bx.2 ≤ 0 then -1 else 1) a b c pb pc paux) := by
  have hA := sa
  rw [hp] at hA
  obtain ⟨j, -, hj⟩ := hA.at
  refine ⟨⟨j, hj⟩, fun vals hw => ?_⟩
  have hlt : pos < vals.length := hw.1 ▸ (List.getElem?_eq_some_iff.1 hj).1
  obtain ⟨e1, e2⟩ := whole_at hw saux
  refine (slot_roo hb.1 hb.2 sb hw).bind fun yv hy => (slot_roo hc.1 hc.2 sc hw).bind fun rv hr => ?_
  rw [e1]
  have hsgn : InI64 (if bx.2 ≤ 0 then -1 else 1) := by split <;> decide
  refine (mul_roo hsgn e2).bind fun mv hm => (size_roo hy.2).bind fun av hav => (mul_roo hm.2 hav.2).bind fun pv hpv => (add_roo hpv.2 hr.2).bind fun wv hwv => ?_
  refine (asValue_roo ha (by omega) hwv.2).mono fun o ho => ⟨ho.1, fun x _ hH hM => ho.2 x ?_⟩
  obtain ⟨k1, k2, -, k3⟩ := hM
  rw [read_other h1, ← hy.1] at k1 k2 k3
  rw [read_other h2, ← hr.1] at k3
  rw [getD_other h3] at k2
  have key : a.coeff * x + a.offset = read a pa (vals.set pos x) := by
    rw [hp, read_set a (some pos) hlt]; simp only [coeffAt, rest, if_true]
  rw [key]
  dsimp only at hH
  generalize read a pa (vals.set pos x) = z at *
  generalize vals.getD paux 0 = q at *
  rw [Int.tmod_def, Int.mul_comm, k2, signed_product k1] at k3
  rw [hwv.1, hpv.1, hm.1, hav.1, ← k3]
  have hz : z = 0 → q * yv.natAbs = 0 := by
    rintro rfl
    rw [Int.zero_tdiv] at k2
    have : q = 0 := by unfold signed at k2; split at k2 <;> omega
    rw [this, Int.zero_mul]
  have e1 : (-1 : Int) * q * yv.natAbs = -(q * yv.natAbs) := by grind
  have e2 : (1 : Int) * q * yv.natAbs = q * yv.natAbs := by grind
  clear k2 k3
  by_cases hs' : bx.2 ≤ 0
  · rw [if_pos hs', e1]
    by_cases h0 : 0 ≤ z
    · rw [if_pos h0]; have := hz (by omega); omega
    · rw [if_neg h0]; omega
  · rw [if_neg hs', e2, if_pos (by omega)]; omega

end

section
variable {root : Doms} {x y out : VarId} {mq my : Nat} {limit : Int} {level : Level}

theorem divide_table_roo (hd : DomsOK root) (hx : x.Valid root.length) (hy : y.Valid root.length) (hout : out.Valid root.length) :
    RightOrOverflow ((planDivide x y out).table limit level root) (fun o => ∀ q, o = some q → Tabulates root (operands x y out) (fun a => InI64 (out.eval a) ∧ y.eval a ≠ 0 ∧ (x.eval a).tdiv (y.eval a) = out.eval a) q) := by
  have hl := register3_spec (affineOf x) (affineOf y) (affineOf out)
  refine table_roo (A := DivideIs (affineOf x) (affineOf y) (affineOf out) (register3 (affineOf x) (affineOf y) (affineOf out)).2.1 (register3 (affineOf x) (affineOf y) (affineOf out)).2.2.1 (register3 (affineOf x) (affineOf y) (affineOf out)).2.2.2)
    (H := fun _ => True) hd hl.nodup (laid_valid hx hy hout hl) (laid_about hl) (acceptDivide_ok (affineOf_ok hx) (affineOf_ok hy) (affineOf_ok hout) hl.spotA hl.spotB hl.spotC) ⟨fun x' hx' => (by cases hx'), fun _ _ _ => trivial, fun r h => by cases h⟩ fun a _ => ?_
  rw [DivideIs, planDivide]
  dsimp only
  rw [read_valsOf hl.spotA, read_valsOf hl.spotB, read_valsOf hl.spotC]

theorem table_vars {p : Plan} {q : List VarId × List (List (Option Int))} (h : p.table limit level root = .ok (some q)) : q.1 = p.vars := by
  unfold Plan.table at h
  cases e : want limit root p.vars p.dets level with
  | error er => rw [e] at h; cases h
  | ok b =>
    rw [e] at h
    cases b with
    | false => cases h
    | true =>
      cases e2 : build root p.vars p.dets none p.accept with
      | error er => rw [e2] at h; cases h
      | ok ts => rw [e2] at h; cases h; rfl

/-- The table of `Modulus` has a column for the magnitude of the quotient. -/
theorem modulus_table_roo (hd : DomsOK root) (hx : x.Valid root.length) (hy : y.Valid root.length) (hout : out.Valid root.length) (hmq : mq < root.length) (hoff : ∀ v ∈ [x, y, out], v.underlyingIndex ≠ some mq) (hpos : ∀ a, Within root a → 0 ≤ a mq)
    {bx : Int × Int} (hbx : Multiply.Ends root x bx) :
    RightOrOverflow ((planModulus bx x y out mq).table limit level root) (fun o => ∀ q, o = some q → Tabulates root (operands x y out ++ [.simple mq])
      (fun a => y.eval a ≠ 0 ∧ (x.eval a).tmod (y.eval a) = out.eval a ∧ a mq = ((x.eval a).tdiv (y.eval a)).natAbs) q ∧ ∃ ys, q.1 = ys ++ [.simple mq] ∧ ∀ v ∈ ys, v ∈ operands x y out) := by
  have hl := register3_spec (affineOf x) (affineOf y) (affineOf out)
  unfold planModulus
  generalize hr : register3 (affineOf x) (affineOf y) (affineOf out) = r at hl
  obtain ⟨vs, pa, pb, pc⟩ := r
  dsimp only at hl ⊢
  have hnot : VarId.simple mq ∉ vs := fun h => by
    obtain ⟨i, e, h⟩ := hl.only _ h
    cases e
    rw [affineOf_var, affineOf_var, affineOf_var] at h
    rcases h with h | h | h
    · exact hoff x (by simp) h
    · exact hoff y (by simp) h
    · exact hoff out (by simp) h
  obtain ⟨p1, p2, -, -⟩ := positionOf_spec hl.nodup (.simple mq)
  have pv := positionOf_fresh hnot
  generalize positionOf vs (.simple mq) = pq at p1 p2 pv
  obtain ⟨vars, paux⟩ := pq
  dsimp only at p1 p2 pv ⊢
  have sa : Spot vars (affineOf x) pa := pv ▸ hl.spotA.append _
  have sb : Spot vars (affineOf y) pb := pv ▸ hl.spotB.append _
  have sc : Spot vars (affineOf out) pc := pv ▸ hl.spotC.append _
  have ax := affineOf_ok hx
  have ay := affineOf_ok hy
  have az := affineOf_ok hout
  have apart : ∀ {w : VarId} {pos : Nat}, w ∈ [x, y, out] → Spot vars (affineOf w) (some pos) → pos ≠ paux := by
    rintro w pos hw hs rfl
    obtain ⟨i, h1, h2⟩ := hs.at
    rw [p2] at h2; cases h2
    rw [affineOf_var] at h1
    exact hoff w hw h1
  have main : RightOrOverflow (Plan.table limit level ⟨vars, remainderDet (affineOf x) (affineOf y) (affineOf out) pa pb pc paux ++ dividendDet bx (affineOf x) (affineOf y) (affineOf out) pa pb pc paux, acceptModulus (affineOf x) (affineOf y) (affineOf out) pa pb pc paux⟩ root)
      (fun o => ∀ q, o = some q → Tabulates root (operands x y out ++ [.simple mq]) (fun a => y.eval a ≠ 0 ∧ (x.eval a).tmod (y.eval a) = out.eval a ∧ a mq = ((x.eval a).tdiv (y.eval a)).natAbs) q) := by
    refine table_roo (A := ModulusIs (affineOf x) (affineOf y) (affineOf out) pa pb pc paux) (H := fun vals => bx.1 ≤ read (affineOf x) pa vals ∧ read (affineOf x) pa vals ≤ bx.2) hd p1 ?_ ?_ (acceptModulus_ok ax ay az sa sb sc p2) ⟨fun d hd' => ?_, fun _ a ha => ?_, fun r h => by cases h⟩ fun a ha => ?_
    · dsimp only; rw [pv]
      intro v hv
      rcases List.mem_append.1 hv with h | h
      · exact laid_valid hx hy hout hl v h
      · rw [List.mem_singleton] at h; subst h; exact hmq
    · dsimp only; rw [pv]
      intro v hv
      rcases List.mem_append.1 hv with h | h
      · exact List.mem_append_left _ (laid_about hl v h)
      · exact List.mem_append_right _ h
    · dsimp only at hd' ⊢
      rcases List.mem_append.1 hd' with h | h
      · unfold remainderDet at h
        split at h
        · rename_i z pz e1
          split at h
          · rename_i hne
            rw [List.mem_singleton] at h; subst h
            obtain ⟨i, h1, h2⟩ := sc.at
            rw [e1] at h1; cases h1
            exact ⟨pz, idxOf?_nodup p1 h2, fun r h => (by cases h), solveRemainder_ok ax ay az sa sb sc p2 rfl hne.1 hne.2 (apart (by simp) sc) (affineOf_unit e1)⟩
          · cases h
        · cases h
      · unfold dividendDet at h
        split at h
        · rename_i z pz e1
          split at h
          · rename_i hne
            rw [List.mem_singleton] at h; subst h
            obtain ⟨i, h1, h2⟩ := sa.at
            rw [e1] at h1; cases h1
            exact ⟨pz, idxOf?_nodup p1 h2, fun r h => (by cases h), solveDividend_ok ax ay az sa sb sc p2 rfl hne.1 hne.2.1 (apart (by simp) sa) (affineOf_unit e1) hne.2.2⟩
          · cases h
        · cases h
    · dsimp only
      rw [read_valsOf sa]
      exact ⟨hbx.1.2.le ha, hbx.2.2.ge ha⟩
    · have hm : (valsOf vars a).getD paux 0 = a mq := getD_of (by simp [p2]; rfl)
      have hi : InI64 (a mq) := within_inI64 hd ha hmq
      have h0 := hpos a ha
      dsimp only
      rw [ModulusIs, read_valsOf sa, read_valsOf sb, read_valsOf sc, hm]
      constructor
      · rintro ⟨k1, k2, -, k3⟩
        exact ⟨k1, k3, (signed_iff h0 k1).1 k2⟩
      · rintro ⟨k1, k2, k3⟩
        refine ⟨k1, (signed_iff h0 k1).2 k3, ?_, k2⟩
        unfold InI64 i64Min i64Max at *
        omega
  rcases main with h | ⟨o, h, ho⟩
  · exact .inl h
  · refine .inr ⟨o, h, fun q hq => ⟨ho q hq, vs, ?_, laid_about hl⟩⟩
    subst hq
    rw [table_vars h]; exact pv

end
end DivMod
end Gcs
