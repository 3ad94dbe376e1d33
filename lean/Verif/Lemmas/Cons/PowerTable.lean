import Verif.Lemmas.Cons.Power
import Verif.Lemmas.Heuristics

/-!
Powers: the bounds that intermediate powers are given leave room for them, and tables of powers are exact.
-/

namespace Gcs
open IntervalSet

namespace Power
open Tabulation

/-! ## Bounds of intermediate powers -/

theorem clamp_mono {x y m : Int} (hm : 0 ≤ m) (h : x ≤ y) : clamp x (-m) m ≤ clamp y (-m) m := by
  unfold clamp; split <;> split <;> (try split) <;> (try split) <;> omega

theorem clamp_id {x m : Int} (h : -m ≤ x ∧ x ≤ m) : clamp x (-m) m = x := by
  unfold clamp; rw [if_neg (by omega), if_neg (by omega)]

theorem clamp_le {x m : Int} (hm : 0 ≤ m) : -m ≤ clamp x (-m) m ∧ clamp x (-m) m ≤ m := by
  unfold clamp; split <;> (try split) <;> omega

/-- A product that does not fit is beyond the limit on the side that signs say. -/
theorem saturating_eq {a b m : Int} (ha : InI64 a) (hb : InI64 b) (hm : InI64 m) (h0 : 0 ≤ m) : saturating a b m = clamp (a * b) (-m) m := by
  unfold saturating
  rw [productIfRepresentable_spec ha hb]
  by_cases h : InI64 (a * b)
  · rw [if_pos h]
  · rw [if_neg h]
    dsimp only
    have hz : a ≠ 0 ∧ b ≠ 0 := by
      constructor
      · rintro rfl; exact h (by rw [Int.zero_mul]; decide)
      · rintro rfl; exact h (by rw [Int.mul_zero]; decide)
    unfold InI64 at h hm
    unfold i64Min i64Max at *
    by_cases p : 0 < a <;> by_cases q : 0 < b
    · have := Int.mul_pos p q
      rw [if_pos (by simp [p, q]), clamp, if_neg (by omega), if_pos (by omega)]
    · have := Int.mul_neg_of_pos_of_neg p (by omega : b < 0)
      rw [if_neg (by simp [p, q]), clamp, if_pos (by omega)]
    · have := Int.mul_neg_of_neg_of_pos (by omega : a < 0) q
      rw [if_neg (by simp [p, q]), clamp, if_pos (by omega)]
    · have := Int.mul_pos_of_neg_of_neg (by omega : a < 0) (by omega : b < 0)
      rw [if_pos (by simp; omega), clamp, if_neg (by omega), if_pos (by omega)]

theorem nextRange_spec {x p : Int × Int} {m u v : Int} (hx : InI64 x.1 ∧ InI64 x.2) (hp : InI64 p.1 ∧ InI64 p.2) (hm : InI64 m) (h0 : 0 ≤ m) (hu : p.1 ≤ u ∧ u ≤ p.2) (hv : x.1 ≤ v ∧ v ≤ x.2) (h : -m ≤ u * v ∧ u * v ≤ m) :
    (InI64 (nextRange x m p).1 ∧ InI64 (nextRange x m p).2) ∧ (nextRange x m p).1 ≤ u * v ∧ u * v ≤ (nextRange x m p).2 := by
  unfold nextRange
  dsimp only
  rw [saturating_eq hp.1 hx.1 hm h0, saturating_eq hp.1 hx.2 hm h0, saturating_eq hp.2 hx.1 hm h0, saturating_eq hp.2 hx.2 hm h0]
  have hc := corners hu.1 hu.2 hv.1 hv.2
  have low : ∀ t, t ≤ u * v → clamp t (-m) m ≤ u * v := fun t ht => by have := clamp_mono h0 ht; rw [clamp_id h] at this; exact this
  have high : ∀ t, u * v ≤ t → u * v ≤ clamp t (-m) m := fun t ht => by have := clamp_mono h0 ht; rw [clamp_id h] at this; exact this
  have b1 := clamp_le (x := p.1 * x.1) h0
  have b2 := clamp_le (x := p.1 * x.2) h0
  have b3 := clamp_le (x := p.2 * x.1) h0
  have b4 := clamp_le (x := p.2 * x.2) h0
  refine ⟨⟨?_, ?_⟩, ?_, ?_⟩
  · unfold InI64 i64Min i64Max at *; omega
  · unfold InI64 i64Min i64Max at *; omega
  · have : p.1 * x.1 ≤ u * v ∨ p.1 * x.2 ≤ u * v ∨ p.2 * x.1 ≤ u * v ∨ p.2 * x.2 ≤ u * v := by omega
    rcases this with h | h | h | h <;> have := low _ h <;> omega
  · have : u * v ≤ p.1 * x.1 ∨ u * v ≤ p.1 * x.2 ∨ u * v ≤ p.2 * x.1 ∨ u * v ≤ p.2 * x.2 := by omega
    rcases this with h | h | h | h <;> have := high _ h <;> omega

theorem rangesFrom_spec {x : Int × Int} {m v : Int} (hx : InI64 x.1 ∧ InI64 x.2) (hm : InI64 m) (h0 : 0 ≤ m) (hv : x.1 ≤ v ∧ v ≤ x.2) : ∀ (c j : Nat) (p : Int × Int), InI64 p.1 ∧ InI64 p.2 → p.1 ≤ v ^ j ∧ v ^ j ≤ p.2 →
    (∀ i, i < c → -m ≤ v ^ (i + j + 1) ∧ v ^ (i + j + 1) ≤ m) → ∀ (i : Nat) r, (rangesFrom x m c p)[i]? = some r → r.1 ≤ v ^ (i + j + 1) ∧ v ^ (i + j + 1) ≤ r.2
  | 0, _, _, _, _, _, i, r, h => by simp [rangesFrom] at h
  | c + 1, j, p, hp, hu, hb, i, r, h => by
    have h0' := hb 0 (by omega)
    rw [Nat.zero_add, Int.pow_succ] at h0'
    have hn := nextRange_spec hx hp hm h0 hu hv h0'
    rw [← Int.pow_succ] at hn
    cases i with
    | zero => cases h; rw [Nat.zero_add]; exact hn.2
    | succ i =>
      have := rangesFrom_spec hx hm h0 hv c (j + 1) _ hn.1 hn.2 (fun i hi => by have := hb (i + 1) (by omega); rwa [show i + 1 + j + 1 = i + (j + 1) + 1 by omega] at this) i r h
      rwa [show i + 1 + j + 1 = i + (j + 1) + 1 by omega]

theorem rangesFrom_length {x : Int × Int} {m : Int} : ∀ (c : Nat) (p : Int × Int), (rangesFrom x m c p).length = c
  | 0, _ => rfl
  | c + 1, p => by rw [rangesFrom, List.length_cons, rangesFrom_length c]

/-- A power is no larger than one, or than a higher power. -/
theorem pow_bound {v : Int} {i k : Nat} (h : 1 ≤ i) (hk : i ≤ k) : (v ^ i).natAbs ≤ max 1 (v ^ k).natAbs := by
  rw [Int.natAbs_pow, Int.natAbs_pow]
  by_cases h0 : v.natAbs = 0
  · rw [h0, Nat.zero_pow (by omega)]; omega
  · have := Nat.pow_le_pow_right (n := v.natAbs) (by omega) hk
    omega

section
variable {σ μ : Type} {root : Doms} {base result : VarId} {k : Int}

/-- Intermediate powers of any solution are within the bounds that the variables for them are given. -/
theorem ranges_room (hd : DomsOK root) (hb : base.Valid root.length) (hr : result.Valid root.length) {rs : List (Int × Int)} (h : ranges base result k root = .ok rs) {a : Asg} (ha : Within root a)
    (hp : powSpec (base.eval a) k = some (result.eval a)) : ∀ (i : Nat) r, rs[i]? = some r → r.1 ≤ base.eval a ^ (i + 2) ∧ base.eval a ^ (i + 2) ≤ r.2 := by
  unfold ranges at h
  split at h
  · rename_i hch
    have hroo : RightOrOverflow (do let m ← magnitude root result; let x ← bounds root base; return rangesFrom x m (k.toNat - 2) x : Chk _) (fun rs => ∀ (i : Nat) r, rs[i]? = some r → r.1 ≤ base.eval a ^ (i + 2) ∧ base.eval a ^ (i + 2) ≤ r.2) := by
      refine (magnitude_roo hd hr).bind fun m hm => (bounds_roo hd hb).bind fun x hx => .pure fun i r hir => ?_
      have hbase := And.intro (hx.1.2.le ha) (hx.2.2.ge ha)
      refine rangesFrom_spec ⟨hx.1.1, hx.2.1⟩ hm.1 (by omega) hbase (k.toNat - 2) 1 x ⟨hx.1.1, hx.2.1⟩ (by rw [Int.pow_one]; exact hbase) (fun j hj => ?_) i r hir
      rw [powSpec, if_pos (by omega), Option.some.injEq] at hp
      have := pow_bound (v := base.eval a) (i := j + 1 + 1) (k := k.toNat) (by omega) (by omega)
      rw [hp] at this
      have := hm.2.2 a ha
      omega
    exact hroo.value h
  · cases h; intro i r e; simp at e

/-! ## Tables -/

/-- What a power says about the values, if they can be represented. -/
def PowerIs (k : Int) (a c : Affine) (pa pc : Option Nat) (vals : List Int) : Prop := InI64 (read c pc vals) ∧ powSpec (read a pa vals) k = some (read c pc vals)

section
variable {vars : List VarId} {a b c : Affine} {pa pb pc : Option Nat} (ha : InI64 a.coeff ∧ InI64 a.offset) (hc : InI64 c.coeff ∧ InI64 c.offset) (hl : Laid vars a b c pa pb pc)
include ha hc hl

theorem accept_ok : Accepts vars (accept k a c pa pc) (PowerIs k a c pa pc) := by
  intro vals hw
  refine (slot_roo ha.1 ha.2 hl.spotA hw).bind fun av hav => (slot_roo hc.1 hc.2 hl.spotC hw).bind fun cv hcv => ?_
  rw [checkedIntegerPower_exact av k hav.2, PowerIs, ← hav.1, ← hcv.1]
  cases hp : powSpec av k with
  | none => refine .pure ?_; simp
  | some w =>
    by_cases hi : InI64 w
    · dsimp only
      rw [if_pos hi]
      refine .pure ?_
      rw [decide_eq_true_iff, Option.some.injEq]
      exact ⟨fun h => ⟨hcv.2, h⟩, fun h => h.2⟩
    · dsimp only
      rw [if_neg hi]
      refine .pure ?_
      simp only [Bool.false_eq_true, false_iff]
      rintro ⟨h1, h2⟩
      cases h2
      exact hi h1

theorem solve_ok {H : List Int → Prop} {pos : Nat} (hp : pc = some pos) (h1 : some pos ≠ pa) (hu : c.coeff = 1 ∨ c.coeff = -1) :
    Determines vars (PowerIs k a c pa pc) H pos (solve k a c pa) := by
  have hC := hl.spotC
  rw [hp] at hC
  obtain ⟨i, -, hi⟩ := hC.at
  refine ⟨⟨i, hi⟩, fun vals hw => ?_⟩
  have hlt : pos < vals.length := hw.1 ▸ (List.getElem?_eq_some_iff.1 hi).1
  refine (slot_roo ha.1 ha.2 hl.spotA hw).bind fun av hav => ?_
  rw [checkedIntegerPower_exact av k hav.2]
  have key : ∀ y, PowerIs k a c pa pc (vals.set pos y) → ∃ w, InI64 w ∧ powSpec av k = some w ∧ w - c.offset = c.coeff * y := by
    rintro y ⟨k1, k2⟩
    rw [read_other h1, ← hav.1] at k2
    refine ⟨_, k1, k2, ?_⟩
    rw [hp, read_set c (some pos) hlt]
    simp only [coeffAt, rest, if_true]; omega
  have hne : c.coeff ≠ 0 := by omega
  cases hpw : powSpec av k with
  | none =>
    refine .pure ⟨fun x h => (by cases h), fun y _ _ hy => ?_⟩
    obtain ⟨w, _, h, _⟩ := key y hy
    rw [hpw] at h; cases h
  | some w =>
    dsimp only
    by_cases hrep : InI64 w
    · rw [if_pos hrep]
      have key : ∀ y, PowerIs k a c pa pc (vals.set pos y) → w - c.offset = c.coeff * y := fun y hy => by
        obtain ⟨w', _, h, h'⟩ := key y hy
        rw [hpw] at h; cases h; exact h'
      refine (sub_roo hrep hc.2).bind fun df hdf => (mod_roo hdf.2 hc.1 hne).bind fun r hr => ?_
      split
      · rename_i hr'
        refine .pure ⟨fun x h => (by cases h), fun y _ _ hy => ?_⟩
        rw [hr, hdf.1, key y hy, Int.mul_tmod_right] at hr'
        exact absurd rfl hr'
      · refine (sub_roo hrep hc.2).bind fun df' hdf' => (div_roo hdf'.2 hc.1 hne).bind fun q hq => .pure ⟨fun x h => by cases h; exact hq.2, fun y _ _ hy => ?_⟩
        rw [hq.1, hdf'.1, key y hy, Int.mul_tdiv_cancel_left _ hne]
    · rw [if_neg hrep]
      refine .pure ⟨fun x h => (by cases h), fun y _ _ hy => ?_⟩
      obtain ⟨w', h1, h, _⟩ := key y hy
      rw [hpw] at h; cases h
      exact absurd h1 hrep

end

theorem tableAt_roo (hd : DomsOK root) {limit : Int} {level : Level} (hx : base.Valid root.length) (hz : result.Valid root.length) :
    RightOrOverflow (tableAt limit level base result k root) (fun o => ∀ q, o = some q → Tabulates root (operands base base result) (fun a => InI64 (result.eval a) ∧ powSpec (base.eval a) k = some (result.eval a)) q) := by
  unfold tableAt
  split
  · exact .pure fun q e => nomatch e
  have hl := register3_spec (affineOf base) (affineOf base) (affineOf result)
  have ax := affineOf_ok hx
  have az := affineOf_ok hz
  refine table_roo (A := PowerIs k (affineOf base) (affineOf result) (register3 (affineOf base) (affineOf base) (affineOf result)).2.1 (register3 (affineOf base) (affineOf base) (affineOf result)).2.2.2)
    (H := fun _ => True) hd hl.nodup (laid_valid hx hx hz hl) (laid_about hl) (accept_ok ax az hl) ⟨fun x' hx' => ?_, fun _ _ _ => trivial, fun r h => by cases h⟩ fun a _ => ?_
  · unfold tabulation at hx'
    dsimp only at hx'
    split at hx'
    · rename_i z c o pz e1 e2
      split at hx'
      · rename_i hne
        rw [List.mem_singleton] at hx'; subst hx'
        have hC := hl.spotC
        rw [e2] at hC
        obtain ⟨i, h1, h2⟩ := hC.at
        rw [e1] at h1; cases h1
        refine ⟨pz, idxOf?_nodup hl.nodup h2, fun r h => (by cases h), ?_⟩
        have := solve_ok (k := k) (H := fun _ => True) ax az hl e2 hne (affineOf_unit (by rw [e1]))
        rw [← e1]; exact this
      · cases hx'
    · cases hx'
  · show PowerIs _ _ _ _ _ _ ↔ _
    rw [PowerIs, tabulation]
    dsimp only
    rw [read_valsOf hl.spotA, read_valsOf hl.spotC]

/-! ## Exponents that are not constant -/

theorem vals3 {x y z : VarId} {a : Asg} {p q r : Int} : [p, q, r] = valsOf [x, y, z] a ↔ p = x.eval a ∧ q = y.eval a ∧ r = z.eval a := by simp [valsOf]

theorem lists_nil {d : Doms} {vars : List VarId} {C : List Int → Prop} (h : ∀ a, Within d a → ¬ C (valsOf vars a)) : Tabulation.Lists d vars C [] :=
  ⟨(fun t ht => nomatch ht), fun a ha => ⟨(fun ⟨t, ht, _⟩ => nomatch ht), fun hc => absurd hc (h a ha)⟩⟩

/-- The tuples are exactly the powers within the domains. -/
theorem tuples_roo {exponent : VarId} (hd : DomsOK root) (hb : base.Valid root.length) (he : exponent.Valid root.length) (hr : result.Valid root.length) (hres : ∀ a, Within root a → InI64 (result.eval a)) :
    RightOrOverflow (tuples base exponent result root) (fun ts => Table.Shaped 3 ts ∧ ∀ a, Within root a → (InTable ts [base, exponent, result] a ↔ powSpec (base.eval a) (exponent.eval a) = some (result.eval a))) := by
  refine (values_roo hd hb).bind fun bs hbs => ?_
  have inner : ∀ v1 ∈ bs, RightOrOverflow (do tuplesFor root exponent result v1 (← valuesOf root exponent)) (Tabulation.Lists root [base, exponent, result] (fun vals => ∃ a, Within root a ∧ vals = valsOf [base, exponent, result] a ∧ v1 = base.eval a ∧ powSpec (base.eval a) (exponent.eval a) = some (result.eval a))) := by
    intro v1 h1
    have hv1 := hbs.2.2.2 v1 h1
    refine (values_roo hd he).bind fun es hes => ?_
    have one : ∀ v2 ∈ es, RightOrOverflow (do
        if ← inDomain root exponent v2 then
          match ← checkedIntegerPower v1 v2 with
          | some r => do return if ← inDomain root result r then [[some v1, some v2, some r]] else []
          | none => return []
        else return [] : Chk (List (List (Option Int)))) (Tabulation.Lists root [base, exponent, result] (fun vals => ∃ a, Within root a ∧ vals = valsOf [base, exponent, result] a ∧ v1 = base.eval a ∧ v2 = exponent.eval a ∧ powSpec (base.eval a) (exponent.eval a) = some (result.eval a))) := by
      intro v2 h2
      have hv2 := hes.2.2.2 v2 h2
      refine (inDomain_spec hd he v2 hv2).bind fun b hb' => ?_
      rw [if_pos (hb'.2 ((hes.2.2.1 v2).1 h2)), checkedIntegerPower_exact v1 v2 hv1]
      cases hp : powSpec v1 v2 with
      | none =>
        refine .pure (lists_nil fun a _ hc => ?_)
        obtain ⟨b, -, -, rfl, rfl, e⟩ := hc
        rw [hp] at e; cases e
      | some r =>
        by_cases hi : InI64 r
        · show RightOrOverflow (Except.bind (Except.ok (if InI64 r then some r else none)) _) _
          rw [if_pos hi]
          refine (inDomain_spec hd hr r hi).bind fun q hq => .pure ?_
          refine lists_one (vals := [v1, v2, r]) ⟨rfl, ?_⟩ fun a ha => ?_
          · intro x hx
            simp only [List.mem_cons, List.not_mem_nil, or_false] at hx
            rcases hx with rfl | rfl | rfl <;> assumption
          · rw [vals3]
            constructor
            · rintro ⟨b, hb, e, rfl, rfl, hpb⟩
              have e := vals3.1 (show [base.eval a, exponent.eval a, result.eval a] = _ from e)
              rw [hp] at hpb
              cases hpb
              exact ⟨hq.2 ⟨b, hb, rfl⟩, e.1.symm, e.2.1.symm, e.2.2.symm⟩
            · rintro ⟨_, e1, e2, e3⟩
              exact ⟨a, ha, rfl, e1, e2, by rw [← e1, ← e2, ← e3]; exact hp⟩
        · show RightOrOverflow (Except.bind (Except.ok (if InI64 r then some r else none)) _) _
          rw [if_neg hi]
          refine .pure (lists_nil fun a _ hc => ?_)
          obtain ⟨b, hb, -, rfl, rfl, e⟩ := hc
          rw [hp] at e
          cases e
          exact hi (hres b hb)
    refine (lists_collect one).mono fun ts hts => hts.congr fun a ha => ?_
    constructor
    · rintro ⟨v2, h2, b, hb, e, k1, k2, k3⟩; exact ⟨b, hb, e, k1, k3⟩
    · rintro ⟨b, hb, e, k1, k3⟩; exact ⟨exponent.eval b, (hes.2.2.1 _).2 ⟨b, hb, rfl⟩, b, hb, e, k1, rfl, k3⟩
  refine (lists_collect inner).mono fun ts hts => ⟨⟨fun t ht => (hts.1 t ht).1, fun t ht => (hts.1 t ht).2⟩, fun a ha => (hts.2 a ha).trans ?_⟩
  constructor
  · rintro ⟨v1, h1, b, hb, e, k1, k3⟩
    have e := vals3.1 (show [base.eval a, exponent.eval a, result.eval a] = _ from e)
    rw [e.1, e.2.1, e.2.2]; exact k3
  · intro h
    exact ⟨base.eval a, (hbs.2.2.1 _).2 ⟨a, ha, rfl⟩, a, ha, rfl, rfl, h⟩

end
end Power
end Gcs
