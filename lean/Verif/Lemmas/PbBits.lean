import Verif.Lemmas.PbDefs

/-! Two's complement: every integer within the bounds has its bits, and only these. -/

namespace Gcs.Pb

variable {α β : Bools} {w : Vals} {f : Nat → Bool}

theorem bitWidth_lt (n : Nat) : n < 2 ^ bitWidth n := by
  unfold bitWidth
  split
  · omega
  · exact Nat.lt_log2_self

theorem emod_two_pow_succ (y : Int) (n : Nat) : y % 2 ^ (n + 1) = y % 2 + 2 * (y / 2 % 2 ^ n) := by
  have hp : (0 : Int) < 2 ^ n := Int.pow_pos (by decide)
  rw [Int.pow_succ, Int.mul_comm]
  have h1 := Int.mul_ediv_add_emod y 2
  have h2 := Int.mul_ediv_add_emod (y / 2) (2 ^ n)
  have h3 := Int.emod_nonneg (y / 2) (Int.ne_of_gt hp)
  have h4 := Int.emod_lt_of_pos (y / 2) hp
  generalize y / 2 / 2 ^ n = q at *
  generalize y / 2 % 2 ^ n = r at *
  have e : y = 2 * 2 ^ n * q + (y % 2 + 2 * r) := by
    rw [Int.mul_assoc]; omega
  have e2 : y % (2 * 2 ^ n) = (y % 2 + 2 * r) % (2 * 2 ^ n) := by
    conv => lhs; rw [e, Int.mul_add_emod_self_left]
  rw [e2, Int.emod_eq_of_lt] <;> omega

/-- The sum of value bits is a multiple of the first power and not too large. -/
theorem valueBits_form (p : PVar) : ∀ (fuel : Nat) (b : Nat) (n : Nat) {bits : Bits}, n ≤ fuel → valueBits p b (b + n - 1) fuel = .ok bits → ∀ α : Bools,
    (∃ m : Int, 0 ≤ m ∧ m < 2 ^ n ∧ sum α bits = 2 ^ b * m) ∧
    (∀ β : Bools, sum α bits = sum β bits → ∀ x ∈ bits, α x.2.var = β x.2.var) ∧
    (∀ y : Int, (∀ k : Nat, α (.bit p k) = decide (y / 2 ^ k % 2 = 1)) → sum α bits = 2 ^ b * (y / 2 ^ b % 2 ^ n)) := by
  intro fuel
  induction fuel with
  | zero =>
    intro b n bits hn h α
    cases h
    have : n = 0 := by omega
    subst this
    refine ⟨⟨0, by omega, by decide, by simp [sum]⟩, fun _ _ x hx => (nomatch hx), fun y _ => ?_⟩
    rw [Int.pow_zero, Int.emod_one]; simp [sum]
  | succ fuel ih =>
    intro b n bits hn h α
    rw [valueBits] at h
    cases n with
    | zero =>
      rw [if_neg (by omega)] at h
      cases h
      refine ⟨⟨0, by omega, by decide, by simp [sum]⟩, fun _ _ x hx => (nomatch hx), fun y _ => ?_⟩
      rw [Int.pow_zero, Int.emod_one]; simp [sum]
    | succ n =>
      rw [if_pos (by omega)] at h
      obtain ⟨c, hc, h⟩ := bindOk h
      obtain ⟨rest, hr, h⟩ := bindOk h
      cases h
      have ec : c = 2 ^ b := by
        unfold power2 at hc
        split at hc
        · cases hc
        · cases hc; simp
      subst ec
      have hr' : valueBits p ((b + 1 : Nat) : Int) (((b + 1 : Nat) : Int) + n - 1) fuel = .ok rest := by
        rw [← hr]; congr 1; simp; omega
      have key := ih (b + 1) n (by omega) hr'
      have hp : (0 : Int) < 2 ^ b := Int.pow_pos (by decide)
      have hb2 : (2 : Int) ^ (b + 1) = 2 ^ b * 2 := Int.pow_succ ..
      refine ⟨?_, ?_, ?_⟩
      · obtain ⟨m, h1, h2, h3⟩ := (key α).1
        have h01 := tv_01 (α := α) ⟨.bit p b, false⟩
        refine ⟨tv α ⟨.bit p b, false⟩ + 2 * m, by omega, by rw [Int.pow_succ]; omega, ?_⟩
        rw [sum_cons, h3, hb2, Int.mul_add, Int.mul_assoc]
      · intro β hs
        obtain ⟨m, _, _, h3⟩ := (key α).1
        obtain ⟨m', _, _, h3'⟩ := (key β).1
        rw [sum_cons, sum_cons, h3, h3', hb2, Int.mul_assoc, Int.mul_assoc, ← Int.mul_add, ← Int.mul_add] at hs
        have hs := Int.eq_of_mul_eq_mul_left (Int.ne_of_gt hp) hs
        have h01 := tv_01 (α := α) ⟨.bit p b, false⟩
        have h01' := tv_01 (α := β) ⟨.bit p b, false⟩
        have e1 : tv α ⟨.bit p b, false⟩ = tv β ⟨.bit p b, false⟩ := by omega
        have e2 : m = m' := by omega
        intro x hx
        rcases List.mem_cons.1 hx with rfl | hx
        · unfold tv XLit.Holds at e1
          dsimp only at e1 ⊢
          cases h1 : α (.bit p b) <;> cases h2 : β (.bit p b) <;> simp [h1, h2] at e1 <;> rfl
        · exact (key α).2.1 β (by rw [h3, h3', e2]) x hx
      · intro y hy
        have := (key α).2.2 y hy
        rw [sum_cons, this, hb2]
        have e : y / (2 ^ b * 2) = y / 2 ^ b / 2 := (Int.ediv_ediv_of_nonneg (Int.le_of_lt hp)).symm
        rw [e, emod_two_pow_succ, Int.mul_add, Int.mul_assoc]
        congr 2
        have hv := tv_val (α := α) (x := ⟨.bit p b, false⟩) (p := y / 2 ^ b % 2 = 1) (by simp [XLit.Holds, hy b])
        omega

/-- The bits of a variable: the sign first if there may be negative values. -/
theorem registerBits_form {p : PVar} {l u : Int} {bits : Bits} (hu : InI64 u) (h : registerBits p l u = .ok bits) :
    ∃ (n : Nat) (vb : Bits), valueBits p (0 : Nat) (((0 : Nat) : Int) + n - 1) 64 = .ok vb ∧ n ≤ 64 ∧ (0 ≤ u → u < 2 ^ n) ∧ (l < 0 → - 2 ^ n ≤ l ∧ u < 2 ^ n) ∧
      bits = if l < 0 then (- 2 ^ n, ⟨.sign p, false⟩) :: vb else vb := by
  unfold registerBits at h
  obtain ⟨⟨shift, coeff, negative⟩, hc, h⟩ := bindOk h
  dsimp only at h
  obtain ⟨vb, hv, h⟩ := bindOk h
  cases h
  unfold getBitsEncodingCoeffs at hc
  obtain ⟨hh, hhe, hc⟩ := bindOk hc
  obtain ⟨c, hcc, hc⟩ := bindOk hc
  obtain ⟨ng, hng, hc⟩ := bindOk hc
  have hp : ((bitWidth (toUnsigned hh) : Int) - 1, c, ng) = (shift, coeff, negative) := by injection hc
  simp only [Prod.mk.injEq] at hp
  obtain ⟨rfl, rfl, rfl⟩ := hp
  have hw : toUnsigned hh < 2 ^ 64 := by unfold toUnsigned; omega
  have hN : bitWidth (toUnsigned hh) ≤ 64 := by
    unfold bitWidth
    split
    · omega
    · rename_i h0
      have := (Nat.log2_lt h0).2 hw
      omega
  have hlt := bitWidth_lt (toUnsigned hh)
  have hlt' : (toUnsigned hh : Int) < 2 ^ bitWidth (toUnsigned hh) := by exact_mod_cast hlt
  have hi : i64Max = 9223372036854775807 := rfl
  refine ⟨bitWidth (toUnsigned hh), vb, ?_, hN, ?_, ?_, ?_⟩
  · rw [← hv]; congr 1; simp
  · intro h0
    have : u ≤ toUnsigned hh := by
      unfold highestAbsValue at hhe
      split at hhe
      · obtain ⟨a, ha, hhe⟩ := bindOk hhe
        obtain ⟨a', ha', hhe⟩ := bindOk hhe
        cases hhe
        have hr : InI64 a := by
          unfold iAbs at ha
          split at ha
          · cases ha
          · unfold rawOut at ha
            split at ha
            · cases ha; rename_i k; unfold InW at k; unfold InI64 i64Min; omega
            · cases ha
        have := iSub_eq ha'
        unfold toUnsigned; omega
      · cases hhe
        unfold toUnsigned; omega
    omega
  · intro h0
    unfold highestAbsValue at hhe
    rw [if_pos h0] at hhe
    obtain ⟨a, ha, hhe⟩ := bindOk hhe
    obtain ⟨a', ha', hhe⟩ := bindOk hhe
    cases hhe
    have hr : InI64 a := by
      unfold iAbs at ha
      split at ha
      · cases ha
      · unfold rawOut at ha
        split at ha
        · cases ha; rename_i k; unfold InW at k; unfold InI64 i64Min; omega
        · cases ha
    have e1 := iAbs_eq ha
    have e2 := iSub_eq ha'
    have : (toUnsigned (max a' u) : Int) = max a' u := by unfold toUnsigned; omega
    omega
  · split at hng
    · rename_i h0
      obtain ⟨pw, hpw, hng⟩ := bindOk hng
      have := iNeg_eq hng
      unfold power2 at hpw
      split at hpw
      · cases hpw
      · cases hpw
        have e : ((bitWidth (toUnsigned hh) : Int) - 1 + 1).toNat = bitWidth (toUnsigned hh) := by omega
        rw [e] at this
        have hp : (0 : Int) < 2 ^ bitWidth (toUnsigned hh) := Int.pow_pos (by decide)
        rw [if_pos (show ng ≠ 0 by omega), if_pos h0, this]
    · rename_i h0
      cases hng
      rw [if_neg (by simp), if_neg h0]

/-- Every value within the bounds has bits. -/
theorem bits_encode {p : PVar} {l u : Int} {bits : Bits} (hu : InI64 u) (h : registerBits p l u = .ok bits) (hw : l ≤ w p ∧ w p ≤ u) : sum (encode w f) bits = w p := by
  obtain ⟨n, vb, hv, hn, h1, h2, rfl⟩ := registerBits_form hu h
  have key := ((valueBits_form p 64 0 n hn hv (encode w f)).2.2 (w p) fun k => by simp [encode])
  have hp : (0 : Int) < 2 ^ n := Int.pow_pos (by decide)
  rw [Int.pow_zero, Int.one_mul, Int.ediv_one] at key
  split
  · rename_i h0
    obtain ⟨h3, h4⟩ := h2 h0
    rw [sum_cons, key]
    by_cases hneg : w p < 0
    · have : tv (encode w f) ⟨.sign p, false⟩ = 1 := tv_one.2 (by simp [XLit.Holds, encode, hneg])
      rw [this, ← Int.add_emod_right, Int.emod_eq_of_lt (by omega) (by omega)]; omega
    · have : tv (encode w f) ⟨.sign p, false⟩ = 0 := by unfold tv; rw [if_neg]; simp [XLit.Holds, encode, hneg]
      rw [this, Int.emod_eq_of_lt (by omega) (by omega)]; omega
  · have := h1 (by omega)
    rw [key, Int.emod_eq_of_lt (by omega) (by omega)]

/-- And only these. -/
theorem bits_unique {p : PVar} {l u : Int} {bits : Bits} (hu : InI64 u) (h : registerBits p l u = .ok bits) (hs : sum α bits = sum β bits) : ∀ x ∈ bits, α x.2.var = β x.2.var := by
  obtain ⟨n, vb, hv, hn, h1, h2, rfl⟩ := registerBits_form hu h
  obtain ⟨⟨m, a1, a2, a3⟩, ku, _⟩ := valueBits_form p 64 0 n hn hv α
  obtain ⟨⟨m', b1, b2, b3⟩, _, _⟩ := valueBits_form p 64 0 n hn hv β
  rw [Int.pow_zero, Int.one_mul] at a3 b3
  have hp : (0 : Int) < 2 ^ n := Int.pow_pos (by decide)
  split at hs <;> rename_i h0
  · rw [if_pos h0]
    rw [sum_cons, sum_cons] at hs
    have h01 := tv_01 (α := α) ⟨.sign p, false⟩
    have h01' := tv_01 (α := β) ⟨.sign p, false⟩
    have c1 : tv α ⟨.sign p, false⟩ = 0 ∨ tv α ⟨.sign p, false⟩ = 1 := by omega
    have c2 : tv β ⟨.sign p, false⟩ = 0 ∨ tv β ⟨.sign p, false⟩ = 1 := by omega
    have e1 : tv α ⟨.sign p, false⟩ = tv β ⟨.sign p, false⟩ := by
      rcases c1 with e | e <;> rcases c2 with e' | e' <;> rw [e, e'] at hs ⊢ <;> omega
    rw [e1] at hs
    intro x hx
    rcases List.mem_cons.1 hx with rfl | hx
    · unfold tv XLit.Holds at e1
      dsimp only at e1 ⊢
      cases h1 : α (.sign p) <;> cases h2 : β (.sign p) <;> simp [h1, h2] at e1 <;> rfl
    · exact ku β (by omega) x hx
  · rw [if_neg h0]
    exact ku β hs

end Gcs.Pb
