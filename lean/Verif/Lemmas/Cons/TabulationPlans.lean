import Verif.Lemmas.Cons.Tabulation
import Verif.Lemmas.Cons.LinearInstall

/-!
# What the constraints tabulate
-/

namespace Gcs
open IntervalSet

namespace Tabulation

section
variable {vars : List VarId}

theorem idxOf?_nodup : ∀ {vars : List VarId} {i : Nat} {v : VarId}, vars.Nodup → vars[i]? = some v → vars.idxOf? v = some i
  | [], i, v, _, h => by simp at h
  | w :: ws, 0, v, _, h => by simp at h; subst h; simp [List.idxOf?, List.findIdx?_cons]
  | w :: ws, i + 1, v, hn, h => by
    obtain ⟨h1, h2⟩ := List.nodup_cons.1 hn
    have hw : w ≠ v := fun e => h1 (e ▸ List.mem_of_getElem? (by simpa using h))
    have := idxOf?_nodup h2 (by simpa using h)
    rw [List.idxOf?] at this ⊢
    rw [List.findIdx?_cons, this]
    simp [hw]

theorem idxOf?_none {v : VarId} (h : vars.idxOf? v = none) : v ∉ vars := by
  intro hv
  rw [List.idxOf?, List.findIdx?_eq_none_iff] at h
  simpa using h v hv

/-- Registering a variable. -/
theorem positionOf_spec (h : vars.Nodup) (v : VarId) :
    (positionOf vars v).1.Nodup ∧ (positionOf vars v).1[(positionOf vars v).2]? = some v ∧ (∃ tail, (positionOf vars v).1 = vars ++ tail) ∧ ∀ w ∈ (positionOf vars v).1, w ∈ vars ∨ w = v := by
  unfold positionOf
  split
  · rename_i k hk
    exact ⟨h, idxOf?_lt hk, ⟨[], by simp⟩, fun v hv => .inl hv⟩
  · rename_i hn
    refine ⟨?_, by simp, ⟨_, rfl⟩, fun v hv => by simpa using hv⟩
    rw [List.nodup_append]
    refine ⟨h, by simp, fun a ha b hb => ?_⟩
    rw [List.mem_singleton] at hb; subst hb
    exact fun e => idxOf?_none hn (e ▸ ha)

theorem positionOf_fresh {v : VarId} (h : v ∉ vars) : (positionOf vars v).1 = vars ++ [v] := by
  unfold positionOf
  split
  · rename_i k hk; exact absurd (List.mem_of_getElem? (idxOf?_lt hk)) h
  · rfl

/-- Where an operand is. -/
def Spot (vars : List VarId) (a : Affine) (p : Option Nat) : Prop := match a.var with
  | some i => ∃ q, p = some q ∧ vars[q]? = some (.simple i)
  | none => p = none

theorem Spot.append {a : Affine} {p : Option Nat} (h : Spot vars a p) (tail : List VarId) : Spot (vars ++ tail) a p := by
  unfold Spot at *
  split
  · rename_i i hi
    rw [hi] at h
    obtain ⟨q, h1, h2⟩ := h
    exact ⟨q, h1, by rw [List.getElem?_append_left (List.getElem?_eq_some_iff.1 h2).1]; exact h2⟩
  · rename_i hi; rw [hi] at h; exact h

theorem register_spec (h : vars.Nodup) (a : Affine) :
    (register vars a).1.Nodup ∧ Spot (register vars a).1 a (register vars a).2 ∧ (∃ tail, (register vars a).1 = vars ++ tail) ∧ ∀ w ∈ (register vars a).1, w ∈ vars ∨ ∃ i, a.var = some i ∧ w = .simple i := by
  unfold register Spot
  cases ha : a.var with
  | none => exact ⟨h, rfl, ⟨[], by simp⟩, fun w hw => .inl hw⟩
  | some i =>
    obtain ⟨h1, h2, h3, h4⟩ := positionOf_spec h (.simple i)
    exact ⟨h1, ⟨_, rfl, h2⟩, h3, fun w hw => (h4 w hw).imp id fun e => ⟨i, rfl, e⟩⟩

/-- The variables of a constraint on three operands. -/
structure Laid (vars : List VarId) (a b c : Affine) (pa pb pc : Option Nat) : Prop where
  nodup : vars.Nodup
  spotA : Spot vars a pa
  spotB : Spot vars b pb
  spotC : Spot vars c pc
  only : ∀ w ∈ vars, ∃ i, w = .simple i ∧ (a.var = some i ∨ b.var = some i ∨ c.var = some i)

theorem register3_spec (a b c : Affine) : Laid (register3 a b c).1 a b c (register3 a b c).2.1 (register3 a b c).2.2.1 (register3 a b c).2.2.2 := by
  obtain ⟨a1, a2, -, a4⟩ := register_spec (vars := []) .nil a
  obtain ⟨b1, b2, ⟨tb, b3⟩, b4⟩ := register_spec a1 b
  obtain ⟨c1, c2, ⟨tc, c3⟩, c4⟩ := register_spec b1 c
  unfold register3
  dsimp only
  refine ⟨c1, ?_, ?_, c2, fun w hw => ?_⟩
  · rw [c3, b3]; exact (a2.append _).append _
  · rw [c3]; exact b2.append _
  · rcases c4 w hw with hw | ⟨i, h1, h2⟩
    · rcases b4 w hw with hw | ⟨i, h1, h2⟩
      · rcases a4 w hw with hw | ⟨i, h1, h2⟩
        · cases hw
        · exact ⟨i, h2, .inl h1⟩
      · exact ⟨i, h2, .inr (.inl h1)⟩
    · exact ⟨i, h2, .inr (.inr h1)⟩

/-! ## Operands -/

/-- The value of an operand. -/
def read (a : Affine) (p : Option Nat) (vals : List Int) : Int := match p with
  | some q => a.coeff * vals.getD q 0 + a.offset
  | none => a.offset

theorem affineOf_eval (x : VarId) (a : Asg) : x.eval a = (match (affineOf x).var with | some i => (affineOf x).coeff * a i + (affineOf x).offset | none => (affineOf x).offset) := by
  cases x with
  | simple i => simp [affineOf, VarId.eval]
  | const c => rfl
  | view i ng k => cases ng <;> simp [affineOf, VarId.eval] <;> omega

theorem affineOf_var (x : VarId) : (affineOf x).var = x.underlyingIndex := by cases x <;> rfl

theorem affineOf_ok {x : VarId} {n : Nat} (h : x.Valid n) : InI64 (affineOf x).coeff ∧ InI64 (affineOf x).offset := by
  cases x with
  | simple i => exact ⟨(by decide : InI64 1), (by decide : InI64 0)⟩
  | const c => exact ⟨(by decide : InI64 0), h⟩
  | view i ng k => cases ng
                   · exact ⟨(by decide : InI64 1), h.2⟩
                   · exact ⟨(by decide : InI64 (-1)), h.2⟩

theorem affineOf_unit {x : VarId} {i : Nat} (h : (affineOf x).var = some i) : (affineOf x).coeff = 1 ∨ (affineOf x).coeff = -1 := by
  cases x with
  | simple i => exact .inl rfl
  | const c => cases h
  | view i ng k => cases ng <;> simp [affineOf]

theorem getD_of {vals : List Int} {q : Nat} {x : Int} (h : vals[q]? = some x) : vals.getD q 0 = x := by rw [List.getD_eq_getElem?_getD, h]; rfl

theorem read_valsOf {x : VarId} {p : Option Nat} (h : Spot vars (affineOf x) p) (a : Asg) : read (affineOf x) p (valsOf vars a) = x.eval a := by
  rw [affineOf_eval]
  unfold Spot at h
  split at h
  · rename_i i hi
    obtain ⟨q, rfl, h2⟩ := h
    simp only [read]
    rw [getD_of (x := a i) (by rw [List.getElem?_map, h2]; rfl)]
  · rename_i hi
    subst h
    simp only [read, hi]

theorem whole_at {vals : List Int} (hw : Whole vars vals) {q : Nat} {v : VarId} (h : vars[q]? = some v) : vecAt vals q = .ok (vals.getD q 0) ∧ InI64 (vals.getD q 0) := by
  have hq : q < vals.length := hw.1 ▸ (List.getElem?_eq_some_iff.1 h).1
  have e : vals[q]? = some vals[q] := List.getElem?_eq_getElem hq
  rw [getD_of e]
  exact ⟨by simp [vecAt, e], hw.2 _ (List.getElem_mem hq)⟩

theorem Spot.at {a : Affine} {q : Nat} (h : Spot vars a (some q)) : ∃ i, a.var = some i ∧ vars[q]? = some (.simple i) := by
  unfold Spot at h
  split at h
  · rename_i i hi
    obtain ⟨q, e, h2⟩ := h
    cases e
    exact ⟨i, hi, h2⟩
  · cases h

theorem slot_roo {a : Affine} {p : Option Nat} (hc : InI64 a.coeff) (ho : InI64 a.offset) (h : Spot vars a p) {vals : List Int} (hw : Whole vars vals) :
    RightOrOverflow (slot a p vals) (fun r => r = read a p vals ∧ InI64 r) := by
  cases p with
  | none => exact .pure ⟨rfl, ho⟩
  | some q =>
    obtain ⟨i, -, hi⟩ := h.at
    obtain ⟨e, hx⟩ := whole_at hw hi
    simp only [slot, read]
    rw [e]
    exact (mul_roo hc hx).bind fun m hm => (add_roo hm.2 ho).mono fun r hr => ⟨by rw [hr.1, hm.1], hr.2⟩

/-! ## Sums -/

/-- An operand without the variable at `pos`. -/
def rest (a : Affine) (p : Option Nat) (pos : Nat) (vals : List Int) : Int := match p with
  | some q => if q = pos then a.offset else a.coeff * vals.getD q 0 + a.offset
  | none => a.offset

theorem read_set (a : Affine) (p : Option Nat) {pos : Nat} {vals : List Int} (h : pos < vals.length) (x : Int) : read a p (vals.set pos x) = coeffAt a p pos * x + rest a p pos vals := by
  cases p with
  | none => simp [read, rest, coeffAt]
  | some q =>
    simp only [read, rest, coeffAt, List.getD_eq_getElem?_getD, List.getElem?_set, Option.some.injEq]
    by_cases e : q = pos
    · subst e; simp [h]
    · rw [if_neg (Ne.symm e), if_neg e, if_neg e]; omega

/-- `+` or `-`. -/
def op (sub : Bool) (a b : Int) : Int := if sub then a - b else a + b

theorem combine_roo {sub : Bool} {a b : Int} (ha : InI64 a) (hb : InI64 b) : RightOrOverflow (combine sub a b) (fun r => r = op sub a b ∧ InI64 r) := by
  cases sub
  · exact add_roo ha hb
  · exact sub_roo ha hb

theorem addOther_roo {sub : Bool} {a : Affine} {p : Option Nat} {pos : Nat} (hc : InI64 a.coeff) (h : Spot vars a p) {vals : List Int} (hw : Whole vars vals) {other : Int} (ho : InI64 other) :
    RightOrOverflow (addOther sub a p pos vals other) (fun r => r = op sub other (rest a p pos vals - a.offset) ∧ InI64 r) := by
  cases p with
  | none => exact .pure ⟨by simp [op, rest], ho⟩
  | some q =>
    obtain ⟨i, -, hi⟩ := h.at
    obtain ⟨e, hx⟩ := whole_at hw hi
    simp only [addOther, rest]
    by_cases hq : q = pos
    · rw [if_neg (by simpa using hq)]; exact .pure ⟨by simp [op, hq], ho⟩
    · rw [if_pos hq, e]
      exact (mul_roo hc hx).bind fun m hm => (combine_roo ho hm.2).mono fun r hr => ⟨by rw [hr.1, hm.1, if_neg hq]; simp [op], hr.2⟩

theorem coeffAt_ok {a : Affine} (h : InI64 a.coeff) (p : Option Nat) (pos : Nat) : InI64 (coeffAt a p pos) := by
  unfold coeffAt; split
  · exact h
  · decide

/-- What a sum or a difference says about the values. -/
def SumIs (sub : Bool) (a b c : Affine) (pa pb pc : Option Nat) (vals : List Int) : Prop := op sub (read a pa vals) (read b pb vals) = read c pc vals

section
variable {sub : Bool} {a b c : Affine} {pa pb pc : Option Nat} (ha : InI64 a.coeff ∧ InI64 a.offset) (hb : InI64 b.coeff ∧ InI64 b.offset) (hc : InI64 c.coeff ∧ InI64 c.offset) (hl : Laid vars a b c pa pb pc)
include ha hb hc

theorem netAt_roo (pos : Nat) : RightOrOverflow (netAt sub a b c pa pb pc pos) (fun r => r = op sub (coeffAt a pa pos) (coeffAt b pb pos) - coeffAt c pc pos ∧ InI64 r) :=
  (combine_roo (coeffAt_ok ha.1 pa pos) (coeffAt_ok hb.1 pb pos)).bind fun m hm => (sub_roo hm.2 (coeffAt_ok hc.1 pc pos)).mono fun r hr => ⟨by rw [hr.1, hm.1], hr.2⟩

include hl

theorem sumAccept_ok : Accepts vars (sumAccept sub a b c pa pb pc) (SumIs sub a b c pa pb pc) := by
  intro vals hw
  refine (slot_roo ha.1 ha.2 hl.spotA hw).bind fun av hav => (slot_roo hb.1 hb.2 hl.spotB hw).bind fun bv hbv => (slot_roo hc.1 hc.2 hl.spotC hw).bind fun cv hcv => ?_
  have h := combine_roo (sub := sub) hav.2 hbv.2
  rw [SumIs, ← hav.1, ← hbv.1, ← hcv.1]
  cases e : combine sub av bv with
  | ok s =>
    have := h.value e
    refine .pure ?_
    rw [decide_eq_true_iff, this.1]
  | error er =>
    refine .pure ?_
    simp only [Bool.false_eq_true, false_iff]
    intro hs
    cases sub with
    | false =>
      have : InI64 (av + bv) := by simp only [op] at hs; simp at hs; rw [hs]; exact hcv.2
      rw [show combine false av bv = iAdd av bv from rfl, iAdd_exact av bv hav.2 hbv.2, exactOrThrow, if_pos this] at e
      cases e
    | true =>
      have : InI64 (av - bv) := by simp only [op] at hs; simp at hs; rw [hs]; exact hcv.2
      rw [show combine true av bv = iSub av bv from rfl, iSub_exact av bv hav.2 hbv.2, exactOrThrow, if_pos this] at e
      cases e

theorem solveSum_ok {H : List Int → Prop} {pos : Nat} {net : Int} (hn : net = op sub (coeffAt a pa pos) (coeffAt b pb pos) - coeffAt c pc pos) (hni : InI64 net) (h0 : net ≠ 0) (hi : ∃ i, vars[pos]? = some (.simple i)) :
    Determines vars (SumIs sub a b c pa pb pc) H pos (solveSum sub a b c pa pb pc pos net) := by
  refine ⟨hi, fun vals hw => ?_⟩
  refine (combine_roo ha.2 hb.2).bind fun x hx => (sub_roo hx.2 hc.2).bind fun o0 h0' => (addOther_roo ha.1 hl.spotA hw h0'.2).bind fun o1 h1 => (addOther_roo hb.1 hl.spotB hw h1.2).bind fun o2 h2 =>
    (addOther_roo hc.1 hl.spotC hw h2.2).bind fun o3 h3 => (neg_roo h3.2).bind fun no hno => (mod_roo hno.2 hni h0).bind fun r hr => ?_
  have hlt : pos < vals.length := by obtain ⟨i, hi⟩ := hi; exact hw.1 ▸ (List.getElem?_eq_some_iff.1 hi).1
  have key : ∀ y, SumIs sub a b c pa pb pc (vals.set pos y) → no = net * y := by
    intro y hy
    rw [SumIs, read_set a pa hlt, read_set b pb hlt, read_set c pc hlt] at hy
    rw [hno.1, h3.1, h2.1, h1.1, h0'.1, hx.1, hn]
    cases sub <;> simp only [op, if_true, Bool.false_eq_true, if_false] at hy ⊢ <;> grind
  split
  · rename_i hr'
    refine .pure ⟨fun x h => (by cases h), fun y _ _ hy => ?_⟩
    rw [hr, key y hy, Int.mul_tmod_right] at hr'
    exact absurd rfl hr'
  · refine (neg_roo h3.2).bind fun no' hno' => (div_roo hno'.2 hni h0).bind fun q hq => .pure ⟨fun x h => by cases h; exact hq.2, fun y _ _ hy => ?_⟩
    rw [hq.1, hno'.1, ← hno.1, key y hy, Int.mul_tdiv_cancel_left _ h0]

theorem sumDets_roo (H : List Int → Prop) : ∀ (vs pre : List VarId), vars = pre ++ vs → RightOrOverflow (sumDets sub a b c pa pb pc pre.length vs)
    (fun ds => ∀ x ∈ ds, ∃ pos, vars.idxOf? x.var = some pos ∧ Determines vars (SumIs sub a b c pa pb pc) H pos x.value)
  | [], _, _ => .pure (by simp)
  | v :: vs, pre, e => by
    have ih := sumDets_roo H vs (pre ++ [v]) (by simp [e])
    rw [List.length_append, List.length_singleton] at ih
    refine (netAt_roo ha hb hc pre.length).bind fun net hnet => ih.bind fun ds hds => .pure fun x hx => ?_
    have hp : vars[pre.length]? = some v := by rw [e]; simp
    split at hx
    · rename_i hn
      rcases List.mem_cons.1 hx with rfl | hx
      · obtain ⟨i, hi, _⟩ := hl.only v (List.mem_of_getElem? hp)
        exact ⟨pre.length, idxOf?_nodup hl.nodup hp, solveSum_ok ha hb hc hl hnet.1 hnet.2 hn ⟨i, hi ▸ hp⟩⟩
      · exact hds x hx
    · exact hds x hx

end

theorem productIfRepresentable_spec {a b : Int} (ha : InI64 a) (hb : InI64 b) : productIfRepresentable a b = if InI64 (a * b) then some (a * b) else none := by
  unfold productIfRepresentable
  rw [iMul_exact a b ha hb, exactOrThrow]
  by_cases h : InI64 (a * b)
  · rw [if_pos h, if_pos h]
  · rw [if_neg h, if_neg h]

/-- What a product says about the values, if they can be represented. -/
def ProductIs (a b c : Affine) (pa pb pc : Option Nat) (vals : List Int) : Prop := InI64 (read c pc vals) ∧ read a pa vals * read b pb vals = read c pc vals

section
variable {a b c : Affine} {pa pb pc : Option Nat} (ha : InI64 a.coeff ∧ InI64 a.offset) (hb : InI64 b.coeff ∧ InI64 b.offset) (hc : InI64 c.coeff ∧ InI64 c.offset) (hl : Laid vars a b c pa pb pc)
include ha hb hc hl

theorem productAccept_ok : Accepts vars (productAccept a b c pa pb pc) (ProductIs a b c pa pb pc) := by
  intro vals hw
  refine (slot_roo ha.1 ha.2 hl.spotA hw).bind fun av hav => (slot_roo hb.1 hb.2 hl.spotB hw).bind fun bv hbv => (slot_roo hc.1 hc.2 hl.spotC hw).bind fun cv hcv => ?_
  rw [productIfRepresentable_spec hav.2 hbv.2, ProductIs, ← hav.1, ← hbv.1, ← hcv.1]
  by_cases hp : InI64 (av * bv)
  · rw [if_pos hp]
    refine .pure ?_
    rw [decide_eq_true_iff]
    exact ⟨fun h => ⟨hcv.2, h⟩, fun h => h.2⟩
  · rw [if_neg hp]
    refine .pure ?_
    simp only [Bool.false_eq_true, false_iff]
    rintro ⟨h1, h2⟩
    exact hp (h2 ▸ h1)

omit ha hb hc hl in
theorem read_other {a : Affine} {p : Option Nat} {pos : Nat} (h : some pos ≠ p) (vals : List Int) (x : Int) : read a p (vals.set pos x) = read a p vals := by
  cases p with
  | none => rfl
  | some q =>
    have : pos ≠ q := fun e => h (by rw [e])
    simp [read, List.getD_eq_getElem?_getD, List.getElem?_set, this]

theorem solveProduct_ok {H : List Int → Prop} {pos : Nat} (hp : pc = some pos) (h1 : some pos ≠ pa) (h2 : some pos ≠ pb) (hu : c.coeff = 1 ∨ c.coeff = -1) :
    Determines vars (ProductIs a b c pa pb pc) H pos (solveProduct a b c pa pb) := by
  have hC := hl.spotC
  rw [hp] at hC
  obtain ⟨i, -, hi⟩ := hC.at
  refine ⟨⟨i, hi⟩, fun vals hw => ?_⟩
  have hlt : pos < vals.length := hw.1 ▸ (List.getElem?_eq_some_iff.1 hi).1
  refine (slot_roo ha.1 ha.2 hl.spotA hw).bind fun av hav => (slot_roo hb.1 hb.2 hl.spotB hw).bind fun bv hbv => ?_
  rw [productIfRepresentable_spec hav.2 hbv.2]
  have key : ∀ y, ProductIs a b c pa pb pc (vals.set pos y) → InI64 (av * bv) ∧ av * bv - c.offset = c.coeff * y := by
    rintro y ⟨k1, k2⟩
    rw [read_other h1, read_other h2, ← hav.1, ← hbv.1] at k2
    refine ⟨k2 ▸ k1, ?_⟩
    rw [k2, hp, read_set c (some pos) hlt]
    simp only [coeffAt, rest, if_true]; omega
  have hne : c.coeff ≠ 0 := by omega
  by_cases hrep : InI64 (av * bv)
  · rw [if_pos hrep]
    refine (sub_roo hrep hc.2).bind fun df hdf => (mod_roo hdf.2 hc.1 hne).bind fun r hr => ?_
    split
    · rename_i hr'
      refine .pure ⟨fun x h => (by cases h), fun y _ _ hy => ?_⟩
      rw [hr, hdf.1, (key y hy).2, Int.mul_tmod_right] at hr'
      exact absurd rfl hr'
    · refine (sub_roo hrep hc.2).bind fun df' hdf' => (div_roo hdf'.2 hc.1 hne).bind fun q hq => .pure ⟨fun x h => by cases h; exact hq.2, fun y _ _ hy => ?_⟩
      rw [hq.1, hdf'.1, (key y hy).2, Int.mul_tdiv_cancel_left _ hne]
  · rw [if_neg hrep]
    exact .pure ⟨fun x h => (by cases h), fun y _ _ hy => absurd (key y hy).1 hrep⟩

end

/-! ## Linear equalities -/

/-- The sum at the values, leaving one out. -/
def dot (skip : Option Nat) (vals : List Int) : Nat → List Linear.Term → Int
  | _, [] => 0
  | j, t :: ts => (if some j = skip then 0 else t.coeff * vals.getD j 0) + dot skip vals (j + 1) ts

theorem dotFrom_roo {skip : Option Nat} {vals : List Int} (hv : ∀ x ∈ vals, InI64 x) : ∀ (ts : List Linear.Term) (j : Nat) (acc : Int), (∀ t ∈ ts, InI64 t.coeff) → j + ts.length ≤ vals.length → InI64 acc →
    RightOrOverflow (dotFrom skip vals j acc ts) (fun r => r = acc + dot skip vals j ts ∧ InI64 r)
  | [], _, acc, _, _, ha => .pure ⟨by simp [dot], ha⟩
  | t :: ts, j, acc, ht, hl, ha => by
    simp only [List.length_cons] at hl
    rw [dotFrom]
    by_cases h : some j = skip
    · rw [if_pos h]
      exact (dotFrom_roo hv ts (j + 1) acc (fun t h => ht t (by simp [h])) (by omega) ha).mono fun r hr => ⟨by rw [hr.1, dot, if_pos h]; omega, hr.2⟩
    · rw [if_neg h]
      have hj : j < vals.length := by omega
      have e : vals[j]? = some vals[j] := List.getElem?_eq_getElem hj
      rw [show vecAt vals j = .ok vals[j] from by simp [vecAt, e]]
      refine (mul_roo (ht t (by simp)) (hv _ (List.getElem_mem hj))).bind fun m hm => (add_roo ha hm.2).bind fun a' ha' => ?_
      exact (dotFrom_roo hv ts (j + 1) a' (fun t h => ht t (by simp [h])) (by omega) ha'.2).mono fun r hr => ⟨by rw [hr.1, dot, if_neg h, ha'.1, hm.1, getD_of e]; omega, hr.2⟩

theorem dot_set {vals : List Int} {pos : Nat} {x : Int} (h : pos < vals.length) : ∀ (ts : List Linear.Term) (j : Nat) (skip : Option Nat), (skip = some pos ∨ pos < j) → dot skip (vals.set pos x) j ts = dot skip vals j ts
  | [], _, _, _ => rfl
  | t :: ts, j, skip, hs => by
    rw [dot, dot, dot_set h ts (j + 1) skip (hs.imp id fun h => by omega)]
    by_cases e : some j = skip
    · rw [if_pos e, if_pos e]
    · have : pos ≠ j := by
        rcases hs with hs | hs
        · exact fun e' => e (by rw [hs, e'])
        · omega
      rw [if_neg e, if_neg e]
      simp [List.getD_eq_getElem?_getD, List.getElem?_set, this]

/-- Taking out one term. -/
theorem dot_split {vals : List Int} : ∀ (ts : List Linear.Term) (j k : Nat) (t : Linear.Term), ts[k]? = some t → dot none vals j ts = t.coeff * vals.getD (j + k) 0 + dot (some (j + k)) vals j ts
  | [], _, _, _, h => by simp at h
  | t :: ts, j, 0, _, h => by
    simp only [List.getElem?_cons_zero, Option.some.injEq] at h; subst h
    have : ∀ (ts : List Linear.Term) (i : Nat), j < i → dot (some j) vals i ts = dot none vals i ts := by
      intro ts
      induction ts with
      | nil => intros; rfl
      | cons u us ih => intro i hi; rw [dot, dot, ih (i + 1) (by omega), if_neg (by simp; omega), if_neg (by simp)]
    simp only [dot, Nat.add_zero, if_true, reduceCtorEq, if_false]
    rw [this ts (j + 1) (by omega)]; omega
  | u :: ts, j, k + 1, t, h => by
    have := dot_split (vals := vals) ts (j + 1) k t (by simpa using h)
    rw [show j + 1 + k = j + (k + 1) from by omega] at this
    simp only [dot, reduceCtorEq, if_false]
    rw [this, if_neg (by simp)]; omega

section
variable {ts : List Linear.Term} {v : Int} (hc : ∀ t ∈ ts, InI64 t.coeff ∧ t.coeff ≠ 0) (hv : InI64 v) (hlen : ts.length ≤ vars.length)
include hc hv hlen

theorem linearAccept_ok : Accepts vars (linearAccept ts v) (fun vals => dot none vals 0 ts = v) := by
  intro vals hw
  refine (dotFrom_roo hw.2 ts 0 0 (fun t h => (hc t h).1) (by rw [hw.1]; omega) (by decide)).bind fun r hr => .pure ?_
  rw [decide_eq_true_iff, hr.1, Int.zero_add]

theorem linearSolve_ok {H : List Int → Prop} {idx : Nat} {t : Linear.Term} (ht : ts[idx]? = some t) (hi : vars[idx]? = some (.simple t.var)) :
    Determines vars (fun vals => dot none vals 0 ts = v) H idx (linearSolve ts v idx t.coeff) := by
  refine ⟨⟨_, hi⟩, fun vals hw => ?_⟩
  obtain ⟨ci, c0⟩ := hc t (List.mem_of_getElem? ht)
  have hlt : idx < vals.length := hw.1 ▸ (List.getElem?_eq_some_iff.1 hi).1
  refine (dotFrom_roo hw.2 ts 0 0 (fun t h => (hc t h).1) (by rw [hw.1]; omega) (by decide)).bind fun o ho => (sub_roo hv ho.2).bind fun df hdf => (mod_roo hdf.2 ci c0).bind fun r hr => ?_
  have key : ∀ y, dot none (vals.set idx y) 0 ts = v → v - o = t.coeff * y := by
    intro y hy
    rw [dot_split ts 0 idx t ht, Nat.zero_add, dot_set hlt ts 0 _ (.inl rfl), getD_of (x := y) (by simp [hlt])] at hy
    rw [ho.1]; omega
  split
  · rename_i hr'
    refine .pure ⟨fun x h => (by cases h), fun y _ _ hy => ?_⟩
    rw [hr, hdf.1, key y hy, Int.mul_tmod_right] at hr'
    exact absurd rfl hr'
  · refine (sub_roo hv ho.2).bind fun df' hdf' => (div_roo hdf'.2 ci c0).bind fun q hq => .pure ⟨fun x h => by cases h; exact hq.2, fun y _ _ hy => ?_⟩
    rw [hq.1, hdf'.1, key y hy, Int.mul_tdiv_cancel_left _ c0]

theorem linearDets_ok (H : List Int → Prop) (hn : vars.Nodup) (hp : ∀ (i : Nat) t, ts[i]? = some t → vars[i]? = some (.simple t.var)) : ∀ (us pre : List Linear.Term), ts = pre ++ us →
    ∀ x ∈ linearDets ts v pre.length us, ∃ pos, vars.idxOf? x.var = some pos ∧ Determines vars (fun vals => dot none vals 0 ts = v) H pos x.value
  | [], _, _, x, hx => by cases hx
  | u :: us, pre, e, x, hx => by
    have hu : ts[pre.length]? = some u := by rw [e]; simp
    rw [linearDets] at hx
    rcases List.mem_cons.1 hx with rfl | hx
    · exact ⟨pre.length, idxOf?_nodup hn (hp _ _ hu), linearSolve_ok hc hv hlen hu (hp _ _ hu)⟩
    · have := linearDets_ok H hn hp us (pre ++ [u]) (by simp [e]) x
      rw [List.length_append, List.length_singleton] at this
      exact this hx

end

/-! ## Reification -/

theorem holdsAt_spec (c : Cond) (a : Asg) : holdsAt c (c.var.eval a) = true ↔ c.holds a := by
  unfold holdsAt Cond.holds
  cases c.op <;> simp
  omega

theorem Determines.weaken {A A' H : List Int → Prop} {p : Nat} {f : List Int → Chk (Option Int)} (h : Determines vars A (fun _ => True) p f) (h' : ∀ vals, H vals → A' vals → A vals) : Determines vars A' H p f :=
  ⟨h.1, fun vals hw => (h.2 vals hw).mono fun _ ho => ⟨ho.1, fun x hx k1 k2 => ho.2 x hx trivial (h' _ k1 k2)⟩⟩

/-- What the reified tabulation accepts. -/
def reifies (r : Reif) (q : Nat) (A : List Int → Prop) (vals : List Int) : Prop := match r with
  | .mustHold => A vals
  | .mustNotHold => ¬ A vals
  | .ifCond c => holdsAt c (vals.getD q 0) = true → A vals
  | .notIf c => holdsAt c (vals.getD q 0) = true → ¬ A vals
  | .iffCond c => holdsAt c (vals.getD q 0) = true ↔ A vals

theorem reifies_holds {r : Reif} {q : Nat} {A : List Int → Prop} {P : Asg → Prop} {a : Asg} (hq : ∀ c, r = .ifCond c ∨ r = .notIf c ∨ r = .iffCond c → vars[q]? = some c.var) (h : A (valsOf vars a) ↔ P a) :
    reifies r q A (valsOf vars a) ↔ r.holds P a := by
  have key : ∀ c, (r = .ifCond c ∨ r = .notIf c ∨ r = .iffCond c) → (holdsAt c ((valsOf vars a).getD q 0) = true ↔ c.holds a) := by
    intro c hc
    rw [getD_of (x := c.var.eval a) (by rw [List.getElem?_map, hq c hc]; rfl), holdsAt_spec]
  cases r with
  | mustHold => exact h
  | mustNotHold => exact not_congr h
  | ifCond c => simp only [reifies, Reif.holds]; rw [key c (.inl rfl), h]
  | notIf c => simp only [reifies, Reif.holds]; rw [key c (.inr (.inl rfl)), h]
  | iffCond c => simp only [reifies, Reif.holds]; rw [key c (.inr (.inr rfl)), h]

/-- A relation over the first positions, whatever else is enumerated. -/
structure Base (vars : List VarId) (accept : List Int → Chk Bool) (dets : List Determined) (A : List Int → Prop) : Prop where
  accepts : ∀ tail, Accepts (vars ++ tail) accept A
  dets : ∀ tail, (vars ++ tail).Nodup → ∀ x ∈ dets, ∃ pos, (vars ++ tail).idxOf? x.var = some pos ∧ Determines (vars ++ tail) A (fun _ => True) pos x.value

theorem accept_cond {accept : List Int → Chk Bool} {A : List Int → Prop} {vals : List Int} {q : Nat} {w : VarId} (hw : Whole vars vals) (hq : vars[q]? = some w) (c : Cond) {f : Bool → Chk Bool} {P : List Int → Prop}
    (h : ∀ b, b = holdsAt c (vals.getD q 0) → RightOrOverflow (f b) (fun r => r = true ↔ P vals)) : RightOrOverflow (do f (holdsAt c (← vecAt vals q))) (fun r => r = true ↔ P vals) := by
  rw [(whole_at hw hq).1]
  exact h _ rfl

theorem reify_ok {r : Reif} {accept : List Int → Chk Bool} {dets : List Determined} {A : List Int → Prop} (hn : vars.Nodup) (hb : Base vars accept dets A) :
    ∃ q tail H, (reify r vars accept dets).vars = vars ++ tail ∧ (∀ w ∈ tail, w ∈ r.vars) ∧ (vars ++ tail).Nodup ∧ (∀ c, r = .ifCond c ∨ r = .notIf c ∨ r = .iffCond c → (vars ++ tail)[q]? = some c.var) ∧
      Accepts (vars ++ tail) (reify r vars accept dets).accept (reifies r q A) ∧ Setting d (vars ++ tail) (reify r vars accept dets).dets (reify r vars accept dets).reif (reifies r q A) H := by
  have hnil := hb.accepts []
  rw [List.append_nil] at hnil
  have hcond : ∀ c : Cond, r.vars = [c.var] → ∃ tail, (positionOf vars c.var).1 = vars ++ tail ∧ (∀ w ∈ tail, w ∈ r.vars) ∧ (vars ++ tail).Nodup ∧ (vars ++ tail)[(positionOf vars c.var).2]? = some c.var := by
    intro c hr
    obtain ⟨h1, h2, ⟨tail, h3⟩, h4⟩ := positionOf_spec hn c.var
    refine ⟨tail, h3, fun w hw => ?_, h3 ▸ h1, h3 ▸ h2⟩
    have hnd := h3 ▸ h1
    rcases h4 w (h3 ▸ List.mem_append_right _ hw) with h | h
    · exact absurd rfl ((List.nodup_append.1 hnd).2.2 w h w hw)
    · rw [hr, h]; simp
  cases r with
  | mustHold =>
    refine ⟨0, [], fun _ => True, by simp [reify], by simp, by simpa using hn, (by rintro c (h | h | h) <;> cases h), by rw [List.append_nil]; exact hnil, fun x hx => ?_, fun _ _ _ => trivial, fun r h => by cases h⟩
    obtain ⟨pos, h1, h2⟩ := hb.dets [] (by simpa using hn) x hx
    exact ⟨pos, h1, fun r h => (by cases h), h2⟩
  | mustNotHold =>
    refine ⟨0, [], fun _ => True, by simp [reify], by simp, by simpa using hn, (by rintro c (h | h | h) <;> cases h), ?_, fun x hx => (by cases hx), fun _ _ _ => trivial, fun r h => by cases h⟩
    rw [List.append_nil]; intro vals hw
    refine (hnil vals hw).bind fun b hb => .pure ?_
    rw [Bool.not_eq_true', ← Bool.not_eq_true, hb]; rfl
  | ifCond c =>
    obtain ⟨tail, h1, h2, h3, h4⟩ := hcond c rfl
    refine ⟨(positionOf vars c.var).2, tail, fun vals => holdsAt c (vals.getD (positionOf vars c.var).2 0) = true, h1, h2, h3, (by rintro c' (h | h | h) <;> cases h; exact h4), ?_, ?_⟩
    · intro vals hw
      refine accept_cond (accept := accept) (A := A) hw h4 c (f := fun b => if b then accept vals else return true) fun b hb' => ?_
      simp only [reifies, ← hb']
      cases b with
      | true => exact (hb.accepts tail vals hw).mono fun r hr => by rw [hr]; exact ⟨fun h _ => h, fun h => h rfl⟩
      | false => exact .pure ⟨fun _ h => (by cases h), fun _ => rfl⟩
    · refine ⟨fun x hx => ?_, fun h => (by cases h), fun r' h => ?_⟩
      · obtain ⟨hx1, hx2⟩ := List.mem_filter.1 hx
        obtain ⟨pos, k1, k2⟩ := hb.dets tail h3 x hx1
        refine ⟨pos, k1, fun r' h e => ?_, k2.weaken fun vals hh ha => ha hh⟩
        cases h
        have := (idxOf?_lt k1).symm.trans (idxOf?_lt e)
        exact absurd (Option.some.inj this) (by simpa using hx2)
      · cases h
        refine ⟨_, idxOf?_nodup h3 h4, fun vals x _ hx => ?_⟩
        simp only [reifies]
        rw [getD_of hx]
        by_cases hh : holdsAt c x = true
        · simp [hh]
        · simp [hh]
  | notIf c =>
    obtain ⟨tail, h1, h2, h3, h4⟩ := hcond c rfl
    refine ⟨(positionOf vars c.var).2, tail, fun _ => False, h1, h2, h3, (by rintro c' (h | h | h) <;> cases h; exact h4), ?_, ?_⟩
    · intro vals hw
      refine accept_cond (accept := accept) (A := A) hw h4 c (f := fun b => if b then (do return !(← accept vals)) else return true) fun b hb' => ?_
      simp only [reifies, ← hb']
      cases b with
      | true => exact (hb.accepts tail vals hw).bind fun r hr => .pure (by rw [Bool.not_eq_true', ← Bool.not_eq_true, hr]; exact ⟨fun h _ => h, fun h => h rfl⟩)
      | false => exact .pure ⟨fun _ h => (by cases h), fun _ => rfl⟩
    · refine ⟨fun x hx => (by cases hx), fun h => (by cases h), fun r' h => ?_⟩
      cases h
      refine ⟨_, idxOf?_nodup h3 h4, fun vals x _ hx => ?_⟩
      simp only [reifies]
      rw [getD_of hx]
      by_cases hh : holdsAt c x = true
      · simp [hh]
      · simp [hh]
  | iffCond c =>
    obtain ⟨tail, h1, h2, h3, h4⟩ := hcond c rfl
    refine ⟨(positionOf vars c.var).2, tail, fun vals => holdsAt c (vals.getD (positionOf vars c.var).2 0) = true, h1, h2, h3, (by rintro c' (h | h | h) <;> cases h; exact h4), ?_, ?_⟩
    · intro vals hw
      refine accept_cond (accept := accept) (A := A) hw h4 c (f := fun b => do return b == (← accept vals)) fun b hb' => ?_
      simp only [reifies, ← hb']
      refine (hb.accepts tail vals hw).bind fun r hr => .pure ?_
      rw [← hr]
      cases b <;> cases r <;> simp
    · refine ⟨fun x hx => ?_, fun h => (by cases h), fun r' h => ?_⟩
      · obtain ⟨hx1, hx2⟩ := List.mem_filter.1 hx
        obtain ⟨pos, k1, k2⟩ := hb.dets tail h3 x hx1
        refine ⟨pos, k1, fun r' h e => ?_, k2.weaken fun vals hh ha => ha.1 hh⟩
        cases h
        have := (idxOf?_lt k1).symm.trans (idxOf?_lt e)
        exact absurd (Option.some.inj this) (by simpa using hx2)
      · cases h
        refine ⟨_, idxOf?_nodup h3 h4, fun vals x _ hx => ?_⟩
        simp only [reifies]
        rw [getD_of hx]
        by_cases hh : holdsAt c x = true
        · simp [hh]
        · simp [hh]

end
end Tabulation
end Gcs
