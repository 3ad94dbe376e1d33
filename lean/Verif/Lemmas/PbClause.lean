import Verif.Lemmas.PbHistory
import Verif.Lemmas.State

/-! Clauses, and when bits fit. -/

namespace Gcs.Pb

variable {t : Tracker} {α : Bools} {w : Vals}

/-- Terms of a clause. -/
def ClauseTerm (x : Int × Term) : Prop := x.1 = 1 ∧ ∃ c, x.2 = .item (.lit c)

theorem clause_total : ∀ (l : List (Int × Term)), (∀ x ∈ l, ClauseTerm x) → 0 ≤ total t α w l ∧ (1 ≤ total t α w l ↔ ∃ c : PLit, (1, .item (.lit c)) ∈ l ∧ c.Holds w)
  | [], _ => ⟨by simp [total], by simp [total]⟩
  | (k, v) :: l, h => by
    obtain ⟨h1, h2⟩ := clause_total l fun x hx => h x (List.mem_cons_of_mem _ hx)
    obtain ⟨e, c, hc⟩ := h (k, v) List.mem_cons_self
    dsimp only at e hc
    subst e hc
    rw [total]
    by_cases hh : c.Holds w
    · have e1 : Term.value t α w (.item (.lit c)) = 1 := if_pos hh
      rw [e1]
      exact ⟨by omega, fun _ => ⟨c, List.mem_cons_self, hh⟩, fun _ => by omega⟩
    · have e1 : Term.value t α w (.item (.lit c)) = 0 := if_neg hh
      rw [e1]
      refine ⟨by omega, ?_⟩
      rw [show 1 * 0 + total t α w l = total t α w l by omega, h2]
      constructor
      · rintro ⟨c', m, hc'⟩; exact ⟨c', List.mem_cons_of_mem _ m, hc'⟩
      · rintro ⟨c', m, hc'⟩
        rcases List.mem_cons.1 m with m | m
        · injection m with _ m; injection m with m; injection m with m; subst m; exact absurd hc' hh
        · exact ⟨c', m, hc'⟩

theorem clauseTerms_sound (hv : ∀ i neg add k, t.view i neg add = some k → w (.aux k) = (VarId.view i neg add).eval w.asg) : ∀ (ls : List PLit) {b : Bool} {l : List (Int × Term)}, clauseTerms t ls = .ok (b, l) →
    (∀ x ∈ l, ClauseTerm x) ∧ ((b = true ∨ ∃ c : PLit, (1, .item (.lit c)) ∈ l ∧ c.Holds w) ↔ ∃ c ∈ ls, c.Holds w)
  | [], b, l, h => by
    rw [clauseTerms] at h
    cases h
    simp
  | c :: ls, b, l, h => by
    rw [clauseTerms] at h
    obtain ⟨s, hs, h⟩ := bindOk h
    obtain ⟨⟨b', l'⟩, hr, h⟩ := bindOk h
    dsimp only at h
    obtain ⟨i1, i2⟩ := clauseTerms_sound hv ls hr
    have hc := simplify_sound hv hs
    simp only [List.mem_cons, exists_eq_or_imp]
    rw [← i2, ← hc]
    cases s with
    | tt => cases h; exact ⟨i1, by simp [SLit.Holds]⟩
    | ff => cases h; exact ⟨i1, by simp [SLit.Holds]⟩
    | cond p op v u =>
      dsimp only at h
      have key : ∃ d : PLit, (d.Holds w ↔ op.holds v u (w p)) ∧ b = b' ∧ l = if (1, Term.item (.lit d)) ∈ l' then l' else (1, .item (.lit d)) :: l' := by
        cases p with
        | real i => cases h; exact ⟨.lit (.cond ⟨.simple i, op, v, u⟩), Iff.rfl, rfl, rfl⟩
        | aux i => cases h; exact ⟨.aux i op v u, Iff.rfl, rfl, rfl⟩
      obtain ⟨d, hd, rfl, rfl⟩ := key
      have hh : (SLit.cond p op v u).Holds w ↔ d.Holds w := hd.symm
      rw [hh]
      split
      · rename_i hm
        refine ⟨i1, ?_⟩
        constructor
        · intro h; exact .inr h
        · rintro (h | h)
          · exact .inr ⟨d, hm, h⟩
          · exact h
      · refine ⟨fun x hx => ?_, ?_⟩
        · rcases List.mem_cons.1 hx with rfl | hx
          · exact ⟨rfl, d, rfl⟩
          · exact i1 x hx
        · constructor
          · rintro (h | ⟨c', m, hc'⟩)
            · exact .inr (.inl h)
            · rcases List.mem_cons.1 m with m | m
              · injection m with _ m; injection m with m; injection m with m; subst m; exact .inl hc'
              · exact .inr (.inr ⟨c', m, hc'⟩)
          · rintro (h | h | ⟨c', m, hc'⟩)
            · exact .inr ⟨d, List.mem_cons_self, h⟩
            · exact .inl h
            · exact .inr ⟨c', List.mem_cons_of_mem _ m, hc'⟩

theorem clause_means (m : Means t α w) {ls : List PLit} {row : Row} (h : addClause t ls = .ok row) : row.Holds α ↔ ∃ c ∈ ls, c.Holds w := by
  unfold addClause at h
  obtain ⟨⟨b, l⟩, hl, h⟩ := bindOk h
  obtain ⟨i, hi, h⟩ := bindOk h
  obtain ⟨i1, i2⟩ := clauseTerms_sound m.view ls hl
  obtain ⟨c1, c2⟩ := clause_total (t := t) (α := α) (w := w) l i1
  rw [emit_means m h, (atLeast_raw hi).2, ← i2]
  cases b with
  | true => simp; exact c1
  | false => simpa using c2

/-! ## When bits fit -/

theorem power2_ok {x : Int} (h0 : 0 ≤ x) (h1 : x < 63) : power2 x = .ok (2 ^ x.toNat) := by
  unfold power2
  rw [if_neg (by omega)]

theorem valueBits_ok (p : PVar) : ∀ (fuel : Nat) (b : Nat) (shift : Int), shift < 63 → ∃ bits, valueBits p b shift fuel = .ok bits
  | 0, _, _, _ => ⟨[], rfl⟩
  | fuel + 1, b, shift, hs => by
    rw [valueBits]
    split
    · obtain ⟨bits, hb⟩ := valueBits_ok p fuel (b + 1) shift hs
      rw [power2_ok (by omega) (by omega)]
      have e : ((b : Int) + 1) = ((b + 1 : Nat) : Int) := by simp
      rw [e, hb]
      exact ⟨_, rfl⟩
    · exact ⟨[], rfl⟩

theorem bitWidth_le {n k : Nat} (h : n < 2 ^ k) : bitWidth n ≤ k := by
  unfold bitWidth
  split
  · omega
  · rename_i h0
    have := (Nat.log2_lt h0).2 h
    omega

theorem highest_ok {l u : Int} (hl : InI64 l) (hm : l ≠ i64Min) : ∃ h, highestAbsValue l u = .ok h ∧ h = if l < 0 then max (- l - 1) u else u := by
  unfold highestAbsValue
  unfold InI64 at hl
  split
  · rename_i h0
    have e1 : iAbs l = .ok (-l) := by
      unfold iAbs
      rw [if_neg hm]
      unfold rawOut
      split
      · congr 1; omega
      · rename_i hx; exfalso; unfold InW at hx; simp only [i64Min, i64Max] at *; omega
    have e2 : iSub (-l) 1 = .ok (-l - 1) := iSub_total (by unfold InI64; simp only [i64Min, i64Max] at *; omega) (by decide) (by unfold InI64; simp only [i64Min, i64Max] at *; omega)
    exact ⟨max (-l - 1) u, by rw [e1]; show (iSub (-l) 1 >>= _) = _; rw [e2]; rfl, rfl⟩
  · exact ⟨u, rfl, rfl⟩

theorem registerBits_iff {p : PVar} {l u : Int} (hl : InI64 l) (hu : InI64 u) (hlu : l ≤ u) : (∃ b, registerBits p l u = .ok b) ↔ bitsEncodingFits l u = .ok true := by
  unfold bitsEncodingFits
  by_cases hm : l = i64Min
  · rw [if_pos hm]
    subst hm
    refine ⟨fun ⟨b, hb⟩ => ?_, fun h => by cases h⟩
    exfalso
    unfold registerBits getBitsEncodingCoeffs highestAbsValue at hb
    have : iAbs i64Min = .error .overflow := by decide
    rw [if_pos (by decide), this] at hb
    cases hb
  · rw [if_neg hm]
    obtain ⟨h, hh, he⟩ := highest_ok (u := u) hl hm
    unfold registerBits getBitsEncodingCoeffs
    rw [hh]
    show (∃ b, (Except.bind (Except.bind (Except.ok h) _) _) = _) ↔ (Except.bind (Except.ok h) _) = _
    simp only [Except.bind]
    unfold InI64 at hl hu
    have h0 : 0 ≤ h ∧ h ≤ i64Max := by simp only [i64Min, i64Max] at *; subst he; split <;> omega
    have hb : bitWidth (toUnsigned h) ≤ 63 := bitWidth_le (by unfold toUnsigned; simp only [i64Max] at h0; omega)
    have hbase : (if ((bitWidth (toUnsigned h) : Int) - 1) ≥ 0 then power2 ((bitWidth (toUnsigned h) : Int) - 1) else .ok 0) = .ok (if ((bitWidth (toUnsigned h) : Int) - 1) ≥ 0 then 2 ^ ((bitWidth (toUnsigned h) : Int) - 1).toNat else 0) := by
      split
      · exact power2_ok (by omega) (by omega)
      · rfl
    obtain ⟨vb, hvb⟩ := valueBits_ok p 64 0 ((bitWidth (toUnsigned h) : Int) - 1) (by omega)
    have hvb : valueBits p 0 ((bitWidth (toUnsigned h) : Int) - 1) 64 = .ok vb := hvb
    generalize hB : (bitWidth (toUnsigned h) : Int) - 1 = sh at *
    show (∃ b, (do let (shift, _, negative) ← (do let coeff ← (if sh ≥ 0 then power2 sh else .ok 0); let negative ← (if l < 0 then do iNeg (← power2 (sh + 1)) else .ok 0); return (sh, coeff, negative)); let bits ← valueBits p 0 shift 64; return if negative ≠ 0 then (negative, ⟨.sign p, false⟩) :: bits else bits : Chk Bits) = .ok b) ↔ (.ok (decide ((if l < 0 then sh + 1 else sh) < 63)) : Chk Bool) = .ok true
    rw [hbase]
    have ebool : ((.ok (decide ((if l < 0 then sh + 1 else sh) < 63)) : Chk Bool) = .ok true) ↔ (if l < 0 then sh + 1 else sh) < 63 := by
      constructor
      · intro h; injection h with h; exact of_decide_eq_true h
      · intro h; rw [decide_eq_true h]
    rw [ebool]
    by_cases hn : l < 0
    · rw [if_pos hn, if_pos hn]
      by_cases hs : sh + 1 < 63
      · refine ⟨fun _ => hs, fun _ => ?_⟩
        have e3 : ∃ ng, (do iNeg (← power2 (sh + 1)) : Chk Int) = .ok ng := by
          rw [power2_ok (by omega) hs]
          show ∃ ng, iNeg (2 ^ (sh + 1).toNat) = .ok ng
          have hp : (2 : Int) ^ (sh + 1).toNat ≤ 2 ^ 62 := by
            exact_mod_cast Nat.pow_le_pow_right (by decide) (show (sh + 1).toNat ≤ 62 by omega)
          have hp0 : (0 : Int) < 2 ^ (sh + 1).toNat := Int.pow_pos (by decide)
          exact ⟨_, iNeg_total (by unfold InI64; simp only [i64Min, i64Max]; omega) (by unfold InI64; simp only [i64Min, i64Max]; omega)⟩
        obtain ⟨ng, e3⟩ := e3
        rw [e3]
        simp only [bind, Except.bind, pure, Except.pure, hvb]
        exact ⟨_, rfl⟩
      · refine ⟨fun ⟨b, hb⟩ => ?_, fun h => absurd h hs⟩
        exfalso
        have : power2 (sh + 1) = .error .unimplemented := by unfold power2; rw [if_pos (by omega)]
        rw [this] at hb
        cases hb
    · rw [if_neg hn, if_neg hn]
      refine ⟨fun _ => by omega, fun _ => ?_⟩
      simp only [bind, Except.bind, pure, Except.pure, hvb]
      exact ⟨_, rfl⟩

end Gcs.Pb
