import Verif.Model.Cons.Power
import Verif.Lemmas.Cons.Stages
import Verif.Lemmas.Cons.Multiply
import Verif.Lemmas.Cons.PlusMinus
import Verif.Lemmas.Cons.TabulationInstall
import Verif.Lemmas.Cons.AllDifferentPost
import Verif.Props.Integer

/-!
Powers with a constant exponent: what is decided on says that the result is the power, and the propagator enforces it.
-/

namespace Gcs
open IntervalSet

namespace Power
open Stages Linear

/-- `result` is `base` to the power of `k`, and the other variables are the powers in between. -/
def Powers (base result : VarId) (k : Int) (aux : List Nat) (a : Asg) : Prop :=
  powSpec (base.eval a) k = some (result.eval a) ∧ ∀ (i v : Nat), aux[i]? = some v → a v = base.eval a ^ (i + 2)

/-- What was decided on holds. -/
structure Says (p : Plan) (base : VarId) (a : Asg) : Prop where
  specs : ∀ s ∈ p.specs, s.Holds a
  links : ∀ l ∈ p.links, l.1.eval a * l.2.1.eval a = l.2.2.eval a
  prune : p.pruneZero = true → base.eval a ≠ 0

section
variable {σ μ : Type} {n m : Nat} {R : Err → Prop} {root d : Doms} {base result : VarId} {k : Int} {aux : List Nat} {a : Asg}

/-! ## Numbers -/

theorem tmod_two (k : Int) : k.tmod 2 = 0 ↔ k % 2 = 0 := by
  rw [← Int.dvd_iff_tmod_eq_zero, Int.dvd_iff_emod_eq_zero]

theorem parity_pow (k : Nat) : (-1 : Int) ^ k = if (k : Int).tmod 2 = 0 then 1 else -1 := by
  rw [neg_one_pow]
  by_cases h : k % 2 = 0
  · rw [if_pos h, if_pos ((tmod_two _).2 (by omega))]
  · rw [if_neg h, if_neg fun e => h (by have := (tmod_two _).1 e; omega)]

theorem pow_neg {b : Int} (hk : k < 0) (r : Int) :
    powSpec b k = some r ↔ b ≠ 0 ∧ (b = 1 → r = 1) ∧ (b = -1 → r = if k.tmod 2 = 0 then 1 else -1) ∧ (2 ≤ b → r = 0) ∧ (b < -1 → r = 0) := by
  obtain ⟨e, rfl⟩ : ∃ e : Nat, k = -(e : Int) := ⟨(-k).toNat, by omega⟩
  rw [powSpec, if_neg (by omega), Int.neg_neg, Int.toNat_natCast]
  by_cases h0 : b = 0
  · rw [if_pos h0]
    exact ⟨(fun e => nomatch e), fun e => absurd h0 e.1⟩
  rw [if_neg h0, Option.some.injEq]
  by_cases h1 : b = 1
  · subst h1
    rw [Int.one_pow]
    exact ⟨fun e => ⟨by omega, fun _ => e.symm, fun h => absurd h (by decide), fun h => absurd h (by decide), fun h => absurd h (by decide)⟩, fun e => (e.2.1 rfl).symm⟩
  by_cases h2 : b = -1
  · subst h2
    have : Int.tdiv 1 ((-1) ^ e) = if (-(e : Int)).tmod 2 = 0 then 1 else -1 := by
      rw [parity_pow, Int.neg_tmod]
      by_cases h : (e : Int).tmod 2 = 0
      · rw [if_pos h, if_pos (by omega)]; rfl
      · rw [if_neg h, if_neg (by omega)]; rfl
    rw [this]
    exact ⟨fun e => ⟨by omega, fun h => absurd h (by decide), fun _ => e.symm, fun h => absurd h (by decide), fun h => absurd h (by decide)⟩, fun e => (e.2.2.1 rfl).symm⟩
  have : Int.tdiv 1 (b ^ e) = 0 := by
    apply Int.natAbs_eq_zero.1
    rw [Int.natAbs_tdiv, Int.natAbs_pow]
    have h4 : 2 ^ e ≤ b.natAbs ^ e := Nat.pow_le_pow_left (by omega) e
    have h5 : 2 ^ 1 ≤ 2 ^ e := Nat.pow_le_pow_right (by decide) (by omega)
    exact Nat.div_eq_of_lt (by show 1 < _; omega)
  rw [this]
  exact ⟨fun e => ⟨h0, fun h => absurd h h1, fun h => absurd h h2, fun _ => e.symm, fun _ => e.symm⟩, fun e => by
    by_cases h : b < 2
    · exact (e.2.2.2.2 (by omega)).symm
    · exact (e.2.2.2.1 (by omega)).symm⟩

theorem pow_big {b r : Int} (hk : 62 < k) (hr : InI64 r) (h63 : k = 63 → r ≠ i64Min) :
    powSpec b k = some r ↔ (b ≤ 1 ∧ -b ≤ 1) ∧ (b = 0 → r = 0) ∧ (b = 1 → r = 1) ∧ (b = -1 → r = if k.tmod 2 = 0 then 1 else -1) := by
  obtain ⟨e, rfl⟩ : ∃ e : Nat, k = e := ⟨k.toNat, by omega⟩
  rw [powSpec, if_pos (by omega), Int.toNat_natCast, Option.some.injEq]
  by_cases h : b ≤ 1 ∧ -b ≤ 1
  · have hb : b = 0 ∨ b = 1 ∨ b = -1 := by omega
    rcases hb with rfl | rfl | rfl
    · rw [Int.zero_pow (by omega)]
      constructor
      · intro e; exact ⟨h, fun _ => e.symm, fun h => absurd h (by decide), fun h => absurd h (by decide)⟩
      · intro e; exact (e.2.1 rfl).symm
    · rw [Int.one_pow]
      constructor
      · intro e; exact ⟨h, fun h => absurd h (by decide), fun _ => e.symm, fun h => absurd h (by decide)⟩
      · intro e; exact (e.2.2.1 rfl).symm
    · rw [parity_pow]
      constructor
      · intro e; exact ⟨h, fun h => absurd h (by decide), fun h => absurd h (by decide), fun _ => e.symm⟩
      · intro e; exact (e.2.2.2 rfl).symm
  · constructor
    · intro he
      exfalso
      have h2 : 2 ≤ b.natAbs := by omega
      have h3 : r.natAbs = b.natAbs ^ e := by rw [← he, Int.natAbs_pow]
      have h4 : 2 ^ e ≤ b.natAbs ^ e := Nat.pow_le_pow_left h2 e
      have h5 : 2 ^ 63 ≤ 2 ^ e := Nat.pow_le_pow_right (by decide) (by omega)
      have h6 : ¬ e = 63 → 2 ^ 64 ≤ 2 ^ e := fun h => Nat.pow_le_pow_right (by decide) (by omega)
      unfold InI64 i64Min i64Max at hr
      unfold i64Min at h63
      by_cases he' : e = 63
      · have := h63 (by omega); omega
      · have := h6 he'; omega
    · exact fun e => absurd e.1 h

/-! ## The plan -/

theorem gated_eq {g : Cond} {v : Int} (h : v = 0 ∨ v = 1 ∨ v = -1) : gatedEquality result g v = .ok [le [(1, result)] v (some g), le [(-1, result)] (-v) (some g)] := by
  rcases h with rfl | rfl | rfl <;> rfl

theorem holds_le {v : Int} {x : VarId} {g : Option Cond} : (le [(1, x)] v g).Holds a ↔ ((∀ c, g = some c → c.holds a) → x.eval a ≤ v) := by
  unfold Spec.Holds Spec.Rel le
  simp [wsum]

theorem holds_ge {v : Int} {x : VarId} {g : Option Cond} : (le [(-1, x)] v g).Holds a ↔ ((∀ c, g = some c → c.holds a) → -x.eval a ≤ v) := by
  unfold Spec.Holds Spec.Rel le
  simp [wsum]

theorem holds_gated {v : Int} {g : Cond} : (∀ s ∈ [le [(1, result)] v (some g), le [(-1, result)] (-v) (some g)], s.Holds a) ↔ (g.holds a → result.eval a = v) := by
  simp only [List.mem_cons, List.not_mem_nil, or_false, forall_eq_or_imp, forall_eq, holds_le, holds_ge, Option.some.injEq, forall_eq']
  constructor
  · rintro ⟨h1, h2⟩ h; have := h1 h; have := h2 h; omega
  · intro h; exact ⟨fun h' => by have := h h'; omega, fun h' => by have := h h'; omega⟩

theorem holds_equality {v : Int} {ts : List WTerm} : (Stages.equality ts v).Holds a ↔ wsum ts a = v := by
  unfold Spec.Holds Spec.Rel Stages.equality
  constructor
  · intro h; exact (h (fun g e => by cases e)).2 rfl
  · intro h _; exact ⟨by dsimp only; omega, fun _ => h⟩

theorem chain_says : ∀ (aux : List Nat) (prev : VarId) (j : Nat), prev.eval a = base.eval a ^ j →
    ((∀ l ∈ chain base result prev aux, l.1.eval a * l.2.1.eval a = l.2.2.eval a) ↔ (∀ (i v : Nat), aux[i]? = some v → a v = base.eval a ^ (i + j + 1)) ∧ base.eval a ^ (j + aux.length + 1) = result.eval a)
  | [], prev, j, h => by
    simp only [chain, List.mem_singleton, forall_eq, h, List.getElem?_nil, List.length_nil, Nat.add_zero]
    rw [← Int.pow_succ]
    simp
  | w :: aux, prev, j, h => by
    simp only [chain, List.mem_cons, forall_eq_or_imp]
    rw [h, ← Int.pow_succ]
    constructor
    · rintro ⟨h1, h2⟩
      obtain ⟨k1, k2⟩ := (chain_says aux (.simple w) (j + 1) h1.symm).1 h2
      refine ⟨fun i v hv => ?_, ?_⟩
      · cases i with
        | zero => cases hv; rw [Nat.zero_add]; exact h1.symm
        | succ i => rw [k1 i v hv]; congr 1; omega
      · rw [← k2, List.length_cons]; congr 1; omega
    · rintro ⟨h1, h2⟩
      have h0 := h1 0 w rfl
      rw [Nat.zero_add] at h0
      refine ⟨h0.symm, (chain_says aux (.simple w) (j + 1) h0).2 ⟨fun i v hv => ?_, ?_⟩⟩
      · rw [h1 (i + 1) v hv]; congr 1; omega
      · rw [← h2, List.length_cons]; congr 1; omega

/-- A linear piece is about the base and the result only. -/
structure Piece (n : Nat) (base result : VarId) (s : Spec) : Prop where
  ok : s.OK n
  openSum : s.equality = true → ∃ a, s.value ≤ wsum s.sum a
  sums : ∀ t ∈ s.sum, t.2 = base ∨ t.2 = result
  gates : ∀ g, s.gate = some g → g.var = base

/-- Everything about a plan that its propagator needs. -/
structure Planned (n : Nat) (root : Doms) (base result : VarId) (k : Int) (aux : List Nat) (p : Plan) : Prop where
  iff : ∀ a, Within root a → (Says p base a ↔ Powers base result k aux a)
  pieces : ∀ s ∈ p.specs, Piece n base result s
  links : p.links = [] ∨ p.links = chain base result base aux

/-- No equality is between things one of which is always less than the other. -/
def Open (base result : VarId) (k : Int) : Prop := match base with
  | .const b => ∀ v, powSpec b k = some v → ∃ a, v ≤ result.eval a
  | _ => (k = 0 → ∃ a, 1 ≤ result.eval a) ∧ (k = 1 → ∃ a, result.eval a ≤ base.eval a)

theorem plan_eq (h : base.isConst = false) : plan base result k aux =
    if k = 0 then .ok (some ⟨[Stages.equality [(1, result)] 1], [], false⟩)
    else if k = 1 then .ok (some ⟨[Stages.equality [(1, base), (-1, result)] 0], [], false⟩)
    else if k < 0 then .ok (some ⟨[le [(1, result)] 0 (some (Cond.ge base 2)), le [(-1, result)] (-0) (some (Cond.ge base 2))] ++ [le [(1, result)] 0 (some (Cond.lt base (-1))), le [(-1, result)] (-0) (some (Cond.lt base (-1)))] ++
        [le [(1, result)] 1 (some (Cond.eq base 1)), le [(-1, result)] (-1) (some (Cond.eq base 1))] ++
        [le [(1, result)] (if k.tmod 2 = 0 then 1 else -1) (some (Cond.eq base (-1))), le [(-1, result)] (-(if k.tmod 2 = 0 then 1 else -1)) (some (Cond.eq base (-1)))], [], true⟩)
    else if 62 < k then .ok (some ⟨[le [(1, base)] 1 none, le [(-1, base)] 1 none] ++ [le [(1, result)] 0 (some (Cond.eq base 0)), le [(-1, result)] (-0) (some (Cond.eq base 0))] ++
        [le [(1, result)] 1 (some (Cond.eq base 1)), le [(-1, result)] (-1) (some (Cond.eq base 1))] ++
        [le [(1, result)] (if k.tmod 2 = 0 then 1 else -1) (some (Cond.eq base (-1))), le [(-1, result)] (-(if k.tmod 2 = 0 then 1 else -1)) (some (Cond.eq base (-1)))], [], false⟩)
    else .ok (some ⟨[], chain base result base aux, false⟩) := by
  have hp : (if k.tmod 2 = 0 then 1 else -1 : Int) = 0 ∨ (if k.tmod 2 = 0 then 1 else -1 : Int) = 1 ∨ (if k.tmod 2 = 0 then 1 else -1 : Int) = -1 := by split <;> simp
  have : plan base result k aux = if k = 0 then .ok (some ⟨[Stages.equality [(1, result)] 1], [], false⟩)
    else if k = 1 then .ok (some ⟨[Stages.equality [(1, base), (-1, result)] 0], [], false⟩)
    else if k < 0 ∨ k > 62 then do
      let parity : Int := if k.tmod 2 = 0 then 1 else -1
      let first ← if k < 0 then do
          let p ← gatedEquality result (Cond.ge base 2) 0
          let q ← gatedEquality result (Cond.lt base (-1)) 0
          pure (p ++ q)
        else do
          let z ← gatedEquality result (Cond.eq base 0) 0
          pure ([le [(1, base)] 1 none, le [(-1, base)] 1 none] ++ z)
      let one ← gatedEquality result (Cond.eq base 1) 1
      let minus ← gatedEquality result (Cond.eq base (-1)) parity
      return some ⟨first ++ one ++ minus, [], decide (k < 0)⟩
    else .ok (some ⟨[], chain base result base aux, false⟩) := by
    cases base with
    | const c => cases h
    | simple i => rfl
    | view i ng v => rfl
  rw [this, gated_eq (result := result) (g := Cond.ge base 2) (v := 0) (.inl rfl), gated_eq (result := result) (g := Cond.lt base (-1)) (v := 0) (.inl rfl), gated_eq (result := result) (g := Cond.eq base 0) (v := 0) (.inl rfl),
    gated_eq (result := result) (g := Cond.eq base 1) (v := 1) (.inr (.inl rfl))]
  dsimp only
  rw [gated_eq (result := result) (g := Cond.eq base (-1)) hp]
  by_cases h0 : k = 0
  · rw [if_pos h0, if_pos h0]
  by_cases h1 : k = 1
  · rw [if_neg h0, if_neg h0, if_pos h1, if_pos h1]
  rw [if_neg h0, if_neg h0, if_neg h1, if_neg h1]
  by_cases h2 : k < 0
  · rw [if_pos (.inl h2), if_pos h2, if_pos h2, decide_eq_true h2]; rfl
  by_cases h3 : 62 < k
  · rw [if_pos (.inr h3), if_neg h2, if_neg h2, if_pos h3, decide_eq_false h2]; rfl
  · rw [if_neg (by omega), if_neg h2, if_neg h3]

theorem piece_gated {g : Cond} {v : Int} (hr : result.Valid n) (hg : GateOK n g) (hb : g.var = base) (hv : v = 0 ∨ v = 1 ∨ v = -1) : ∀ s ∈ [le [(1, result)] v (some g), le [(-1, result)] (-v) (some g)], Piece n base result s := by
  intro s hs
  simp only [List.mem_cons, List.not_mem_nil, or_false] at hs
  rcases hs with rfl | rfl
  · refine ⟨⟨?_, ?_, ?_⟩, (fun e => nomatch e), ?_, ?_⟩
    · simpa [le, TermsOK, hr] using (by decide : InI64 1)
    · show InI64 v; rcases hv with rfl | rfl | rfl <;> decide
    · rintro _ ⟨⟩; exact hg
    · intro t ht; cases List.mem_singleton.1 ht; exact .inr rfl
    · rintro _ ⟨⟩; exact hb
  · refine ⟨⟨?_, ?_, ?_⟩, (fun e => nomatch e), ?_, ?_⟩
    · simpa [le, TermsOK, hr] using (by decide : InI64 (-1))
    · show InI64 (-v); rcases hv with rfl | rfl | rfl <;> decide
    · rintro _ ⟨⟩; exact hg
    · intro t ht; cases List.mem_singleton.1 ht; exact .inr rfl
    · rintro _ ⟨⟩; exact hb

theorem piece_base {c : Int} (hb : base.Valid n) (hc : c = 1 ∨ c = -1) : Piece n base result (le [(c, base)] 1 none) := by
  refine ⟨⟨?_, (by decide : InI64 1), (fun _ e => nomatch e)⟩, (fun e => nomatch e), ?_, (fun _ e => nomatch e)⟩
  · rcases hc with rfl | rfl
    · simpa [le, TermsOK, hb] using (by decide : InI64 1)
    · simpa [le, TermsOK, hb] using (by decide : InI64 (-1))
  · intro t ht; cases List.mem_singleton.1 ht; exact .inl rfl

theorem piece_equality {v : Int} (hr : result.Valid n) (hv : InI64 v) (ho : ∃ a, v ≤ result.eval a) : Piece n base result (Stages.equality [(1, result)] v) := by
  refine ⟨⟨?_, hv, (fun _ e => nomatch e)⟩, fun _ => ?_, ?_, (fun _ e => nomatch e)⟩
  · simpa [Stages.equality, TermsOK, hr] using (by decide : InI64 1)
  · obtain ⟨a, h⟩ := ho
    exact ⟨a, by simpa [Stages.equality, wsum] using h⟩
  · intro t ht; cases List.mem_singleton.1 ht; exact .inr rfl

theorem forall_append {P : Spec → Prop} {xs ys : List Spec} : (∀ s ∈ xs ++ ys, P s) ↔ (∀ s ∈ xs, P s) ∧ ∀ s ∈ ys, P s := by
  simp only [List.mem_append]
  exact ⟨fun h => ⟨fun s hs => h s (.inl hs), fun s hs => h s (.inr hs)⟩, fun h s hs => hs.elim (h.1 s) (h.2 s)⟩

theorem says_nil {specs : List Spec} : Says ⟨specs, [], false⟩ base a ↔ ∀ s ∈ specs, s.Holds a :=
  ⟨fun h => h.specs, fun h => ⟨h, (fun _ hl => nomatch hl), (fun h => nomatch h)⟩⟩

theorem says_prune {specs : List Spec} : Says ⟨specs, [], true⟩ base a ↔ (∀ s ∈ specs, s.Holds a) ∧ base.eval a ≠ 0 :=
  ⟨fun h => ⟨h.specs, h.prune rfl⟩, fun h => ⟨h.1, (fun _ hl => nomatch hl), fun _ => h.2⟩⟩

theorem holds_base : (∀ s ∈ [le [(1, base)] 1 none, le [(-1, base)] 1 none], s.Holds a) ↔ base.eval a ≤ 1 ∧ -base.eval a ≤ 1 := by
  simp only [List.mem_cons, List.not_mem_nil, or_false, forall_eq_or_imp, forall_eq, holds_le, holds_ge]
  simp

theorem powers_nil : Powers base result k [] a ↔ powSpec (base.eval a) k = some (result.eval a) :=
  ⟨fun h => h.1, fun h => ⟨h, fun _ _ e => by simp at e⟩⟩

theorem plan_roo (hb : base.Valid n) (hr : result.Valid n) (hres : ∀ a, Within root a → InI64 (result.eval a)) (ho : Open base result k) (haux : aux.length = if Chained base k then k.toNat - 2 else 0)
    (h63 : k = 63 → base.isConst = false → ∀ a, Within root a → result.eval a ≠ i64Min) :
    RightOrOverflow (plan base result k aux) (fun o => match o with | none => ∀ a, Within root a → ¬ Powers base result k aux a | some p => Planned n root base result k aux p) := by
  cases hc : base.isConst with
  | true =>
    cases base with
    | simple i => cases hc
    | view i ng v => cases hc
    | const b =>
      have : aux = [] := by
        rw [if_neg (by rintro ⟨h, -⟩; cases h)] at haux
        exact List.eq_nil_of_length_eq_zero haux
      subst this
      show RightOrOverflow ((checkedIntegerPower b k).bind _) _
      rw [checkedIntegerPower_exact b k hb]
      cases hp : powSpec b k with
      | none =>
        refine .pure fun a _ h => ?_
        have := h.1
        rw [show (VarId.const b).eval a = b from rfl, hp] at this
        cases this
      | some v =>
        by_cases hv : InI64 v
        · show RightOrOverflow (Except.bind (Except.ok (if InI64 v then some v else none)) _) _
          rw [if_pos hv]
          refine .pure ⟨fun a ha => ?_, ?_, .inl rfl⟩
          · rw [says_nil, powers_nil, show (VarId.const b).eval a = b from rfl, hp, Option.some.injEq]
            simp only [List.mem_singleton, forall_eq, holds_equality]
            simp [wsum]
            exact eq_comm
          · intro s hs
            cases List.mem_singleton.1 hs
            exact piece_equality hr hv (ho v hp)
        · show RightOrOverflow (Except.bind (Except.ok (if InI64 v then some v else none)) _) _
          rw [if_neg hv]
          refine .pure fun a ha h => hv ?_
          have := h.1
          rw [show (VarId.const b).eval a = b from rfl, hp] at this
          cases this
          exact hres a ha
  | false =>
    have ho' : (k = 0 → ∃ a, 1 ≤ result.eval a) ∧ (k = 1 → ∃ a, result.eval a ≤ base.eval a) := by
      cases base with
      | const c => cases hc
      | simple i => exact ho
      | view i ng v => exact ho
    rw [plan_eq hc]
    have gate : ∀ v, v = 0 ∨ v = 1 ∨ v = -1 → GateOK n (Cond.eq base v) := fun v hv => ⟨.eq hb (by rcases hv with rfl | rfl | rfl <;> decide), .inr (.inr rfl)⟩
    have parity : (if k.tmod 2 = 0 then 1 else -1 : Int) = 0 ∨ (if k.tmod 2 = 0 then 1 else -1 : Int) = 1 ∨ (if k.tmod 2 = 0 then 1 else -1 : Int) = -1 := by split <;> simp
    have hnil : ¬ Chained base k → aux = [] := fun h => by
      rw [if_neg h] at haux
      exact List.eq_nil_of_length_eq_zero haux
    by_cases h0 : k = 0
    · rw [if_pos h0]
      have := hnil (by rintro ⟨-, h, -⟩; omega)
      subst this
      refine .pure ⟨fun a _ => ?_, ?_, .inl rfl⟩
      · rw [says_nil, powers_nil, h0, powSpec, if_pos (by decide), Option.some.injEq]
        simp only [List.mem_singleton, forall_eq, holds_equality]
        simp [wsum]
        exact eq_comm
      · intro s hs
        cases List.mem_singleton.1 hs
        exact piece_equality hr (by decide) (ho'.1 h0)
    rw [if_neg h0]
    by_cases h1 : k = 1
    · rw [if_pos h1]
      have := hnil (by rintro ⟨-, h, -⟩; omega)
      subst this
      refine .pure ⟨fun a _ => ?_, ?_, .inl rfl⟩
      · rw [says_nil, powers_nil, h1, powSpec, if_pos (by decide), Option.some.injEq, show (1 : Int).toNat = 1 from rfl, Int.pow_one]
        simp only [List.mem_singleton, forall_eq, holds_equality]
        simp [wsum]
        omega
      · intro s hs
        cases List.mem_singleton.1 hs
        refine ⟨⟨?_, (by decide : InI64 0), (fun _ e => nomatch e)⟩, fun _ => ?_, ?_, (fun _ e => nomatch e)⟩
        · simp [Stages.equality, TermsOK, hr, hb]; decide
        · obtain ⟨a, h⟩ := ho'.2 h1
          exact ⟨a, by simp [Stages.equality, wsum]; omega⟩
        · intro t ht
          simp only [Stages.equality, List.mem_cons, List.not_mem_nil, or_false] at ht
          rcases ht with rfl | rfl
          · exact .inl rfl
          · exact .inr rfl
    rw [if_neg h1]
    by_cases h2 : k < 0
    · rw [if_pos h2]
      have := hnil (by rintro ⟨-, h, -⟩; omega)
      subst this
      refine .pure ⟨fun a _ => ?_, ?_, .inl rfl⟩
      · rw [powers_nil, pow_neg h2]
        rw [says_prune]
        simp only [forall_append, holds_gated]
        exact ⟨fun ⟨⟨⟨⟨h1, h2⟩, h3⟩, h4⟩, h5⟩ => ⟨h5, h3, h4, h1, h2⟩, fun ⟨h5, h3, h4, h1, h2⟩ => ⟨⟨⟨⟨h1, h2⟩, h3⟩, h4⟩, h5⟩⟩
      · simp only [forall_append]
        refine ⟨⟨⟨piece_gated hr ⟨.ge hb (by decide), .inl rfl⟩ rfl (.inl rfl), piece_gated hr ⟨.lt hb (by decide), .inr (.inl rfl)⟩ rfl (.inl rfl)⟩, piece_gated hr (gate 1 (.inr (.inl rfl))) rfl (.inr (.inl rfl))⟩,
          piece_gated hr (gate (-1) (.inr (.inr rfl))) rfl parity⟩
    rw [if_neg h2]
    by_cases h3 : 62 < k
    · rw [if_pos h3]
      have := hnil (by rintro ⟨-, -, h⟩; omega)
      subst this
      refine .pure ⟨fun a ha => ?_, ?_, .inl rfl⟩
      · rw [powers_nil, pow_big h3 (hres a ha) fun e => h63 e hc a ha, says_nil]
        simp only [forall_append, holds_gated, holds_base]
        exact ⟨fun ⟨⟨⟨h1, h3⟩, h4⟩, h5⟩ => ⟨h1, h3, h4, h5⟩, fun ⟨h1, h3, h4, h5⟩ => ⟨⟨⟨h1, h3⟩, h4⟩, h5⟩⟩
      · simp only [forall_append]
        refine ⟨⟨⟨?_, piece_gated hr (gate 0 (.inl rfl)) rfl (.inl rfl)⟩, piece_gated hr (gate 1 (.inr (.inl rfl))) rfl (.inr (.inl rfl))⟩, piece_gated hr (gate (-1) (.inr (.inr rfl))) rfl parity⟩
        intro s hs
        simp only [List.mem_cons, List.not_mem_nil, or_false] at hs
        rcases hs with rfl | rfl
        · exact piece_base hb (.inl rfl)
        · exact piece_base hb (.inr rfl)
    rw [if_neg h3]
    refine .pure ⟨fun a _ => ?_, (fun s hs => nomatch hs), .inr rfl⟩
    rw [if_pos ⟨hc, by omega, by omega⟩] at haux
    have hs : Says ⟨[], chain base result base aux, false⟩ base a ↔ ∀ l ∈ chain base result base aux, l.1.eval a * l.2.1.eval a = l.2.2.eval a :=
      ⟨fun h => h.links, fun h => ⟨(fun _ hs => nomatch hs), h, (fun h => nomatch h)⟩⟩
    have e : 1 + (k.toNat - 2) + 1 = k.toNat := by clear ho ho' parity hs; omega
    rw [hs, chain_says aux base 1 (Int.pow_one _).symm, Powers, powSpec, if_pos (by clear ho ho' parity hs; omega), Option.some.injEq, haux, e]
    exact ⟨fun ⟨h1, h2⟩ => ⟨h2, h1⟩, fun ⟨h1, h2⟩ => ⟨h2, h1⟩⟩

/-! ## Propagation -/

theorem avoidZero_ver {J : Job} (ho : J.R .overflow) {prune : Bool} (hb : base.Valid J.n) (hC : ∀ a, J.C a → prune = true → base.eval a ≠ 0) (hd : DomsOK d) (hl : d.length = J.n) :
    (avoidZero prune base : Prog σ μ Unit).Ver J (fun _ => False) (fun _ d' => prune = true → ∀ a, Within d' a → base.eval a ≠ 0) d := by
  unfold avoidZero
  split
  · rename_i hp
    refine ver_ask (f := (inDomain · base 0)) ho (inDomain_spec hd (hl ▸ hb) 0 (by decide)) fun b hb' => ?_
    split
    · refine ver_tell_last (.ne hb (by decide)) (fun a _ h => ?_) fun d' _ _ h _ a ha => ?_
      · exact hC a h hp
      · exact ((h a).1 ha).2
    · rename_i hn
      exact fun _ a ha e => hn (hb'.2 ⟨a, ha, e⟩)
  · rename_i hp
    exact fun h => absurd h hp

/-- A multiplication has done its work. -/
def LinkDone (l : VarId × VarId × VarId) (d d' : Doms) : Prop := Known d l.1 → Known d l.2.1 → ∀ a, Within d' a → l.1.eval a * l.2.1.eval a = l.2.2.eval a

theorem multiplyAll_ver {J : Job} (ho : J.R .overflow) : ∀ (ls : List (VarId × VarId × VarId)) (d : Doms), (∀ l ∈ ls, l.1.Valid J.n ∧ l.2.1.Valid J.n ∧ l.2.2.Valid J.n) → (∀ a, J.C a → ∀ l ∈ ls, l.1.eval a * l.2.1.eval a = l.2.2.eval a) →
    DomsOK d → d.length = J.n → (multiplyAll ls : Prog σ μ Unit).Ver J (fun _ => False) (fun _ d' => ∀ l ∈ ls, LinkDone l d d') d
  | [], _, _, _, _, _ => (fun _ h => nomatch h)
  | l :: ls, d, hv, hC, hd, hl => by
    have h := hv l (by simp)
    refine ver_seq (S := fun _ => False) hd hl (fun _ h => h) (Multiply.pass_ver ho h.1 h.2.1 h.2.2 (fun s hs => hC s hs l (by simp)) hd hl) fun _ d1 hd1 hl1 s1 hq => ?_
    refine ver_mono (fun _ d' hh => ?_) _ _ (ver_facts _ _ hd1 hl1 (multiplyAll_ver ho ls d1 (fun l hl => hv l (by simp [hl])) (fun a ha l hl => hC a ha l (by simp [hl])) hd1 hl1))
    intro l' hl'
    rcases List.mem_cons.1 hl' with rfl | hl'
    · exact fun k1 k2 a ha => hq k1 k2 a (hh.1.2.2 a ha)
    · exact fun k1 k2 => hh.2 l' hl' (k1.sub s1) (k2.sub s1)

theorem prop_enforces (ho : R .overflow) {stages : List Stage} {links : List (VarId × VarId × VarId)} {prune : Bool} {P : Asg → Prop} {xs : List VarId} (hs : ∀ s ∈ stages, s.OK n) (hls : ∀ l ∈ links, l.1.Valid n ∧ l.2.1.Valid n ∧ l.2.2.Valid n) (hb : base.Valid n)
    (hP : ∀ a, Within root a → P a → (∀ s ∈ stages, s.Holds a) ∧ (∀ l ∈ links, l.1.eval a * l.2.1.eval a = l.2.2.eval a) ∧ (prune = true → base.eval a ≠ 0))
    (hfin : ∀ d, (∀ x ∈ xs, Known d x) → (∀ s ∈ stages, s.Done d d) → (∀ l ∈ links, LinkDone l d d) → (prune = true → ∀ a, Within d a → base.eval a ≠ 0) → ∀ a, Within d a → Within root a → P a) :
    Enforces n m R root P xs (prop (σ := σ) (μ := μ) stages links prune base) := by
  intro d hd hl
  refine ver_mono (fun ps d' h => ?_) _ _ (ver_facts _ _ hd hl (ver_untilQuietOr (J := { n, m, R, C := fun s => Within root s ∧ P s }) (fun _ => True)
    (fun d => (∀ s ∈ stages, s.Done d d) ∧ (∀ l ∈ links, LinkDone l d d) ∧ (prune = true → ∀ a, Within d a → base.eval a ≠ 0)) (fun d hd hl _ => ?_) hd hl trivial))
  · obtain ⟨⟨_, _, hs⟩, hps, -, h1, h2, h3⟩ := h
    exact .intro (fun hk a ha hr => hfin d' (fun x hx => (hk x hx).sub hs) h1 h2 h3 a ha hr) (fun _ hk a ha hr => hfin d' hk h1 h2 h3 a ha hr) (fun e => by rw [hps] at e; cases e)
  · refine ver_seq (S := fun _ => False) hd hl (fun _ h => h) (avoidZero_ver ho hb (fun a h => (hP a h.1 h.2).2.2) hd hl) fun _ d1 hd1 hl1 s1 q1 => ?_
    refine ver_unless hd1 hl1 (all_ver ho stages d1 hs (fun a h => (hP a h.1 h.2).1) hd1 hl1) rfl fun d2 hd2 hl2 s2 q2 => ?_
    refine ver_seq (S := fun _ => False) hd2 hl2 (fun _ h => h) (multiplyAll_ver ho links d2 hls (fun a h => (hP a h.1 h.2).2.1) hd2 hl2) fun _ d3 hd3 hl3 s3 q3 => ?_
    refine ⟨rfl, trivial, ?_⟩
    rintro rfl
    refine ⟨fun s hs => (q2 s hs).mono s1 fun a ha => s3 a ha, fun l hl k1 k2 => q3 l hl (k1.sub fun a ha => s1 a (s2 a ha)) (k2.sub fun a ha => s1 a (s2 a ha)), fun hp a ha => q1 hp a (s2 a (s3 a ha))⟩

/-- Links of a chain are settled one after another. -/
theorem chain_settled (hb : Known d base) : ∀ (aux : List Nat) (prev : VarId), Known d prev → (∀ l ∈ chain base result prev aux, LinkDone l d d) → ∀ a, Within d a → ∀ l ∈ chain base result prev aux, l.1.eval a * l.2.1.eval a = l.2.2.eval a
  | [], prev, hp, h, a, ha, l, hl => by
    cases List.mem_singleton.1 hl
    exact h _ (by simp [chain]) hp hb a ha
  | w :: aux, prev, hp, h, a, ha, l, hl => by
    have h0 := h (prev, base, .simple w) (by simp [chain]) hp hb
    rcases List.mem_cons.1 hl with rfl | hl
    · exact h0 a ha
    · refine chain_settled hb aux (.simple w) (fun b c hb' hc => ?_) (fun l hl => h l (List.mem_cons_of_mem _ hl)) a ha l hl
      have := h0 b hb'; have := h0 c hc
      have e1 := hp b c hb' hc
      have e2 := hb b c hb' hc
      simp_all

theorem chain_valid (hb : base.Valid n) (hr : result.Valid n) : ∀ (aux : List Nat) (prev : VarId), (∀ i ∈ aux, i < n) → prev.Valid n → ∀ l ∈ chain base result prev aux, l.1.Valid n ∧ l.2.1.Valid n ∧ l.2.2.Valid n
  | [], prev, _, hp, l, hl => by
    cases List.mem_singleton.1 hl
    exact ⟨hp, hb, hr⟩
  | w :: aux, prev, ha, hp, l, hl => by
    rcases List.mem_cons.1 hl with rfl | hl
    · exact ⟨hp, hb, ha w (by simp)⟩
    · exact chain_valid hb hr aux (.simple w) (fun i hi => ha i (by simp [hi])) (ha w (by simp)) l hl

theorem planned_enforces (ho : R .overflow) (hb : base.Valid n) (hr : result.Valid n) (haux : ∀ i ∈ aux, i < n) {p : Plan} {stages : List Stage} (hp : Planned n root base result k aux p)
    (hm : (∀ t ∈ stages, ∃ s ∈ p.specs, Made n s t) ∧ ∀ s ∈ p.specs, ∃ t ∈ stages, Made n s t) :
    Enforces n m R root (Powers base result k aux) [base, result] (prop (σ := σ) (μ := μ) stages p.links p.pruneZero base) := by
  refine prop_enforces ho (fun t ht => ?_) (fun l hl => ?_) hb (fun a ha h => ?_) fun d hk h1 h2 h3 a ha hr => ?_
  · obtain ⟨s, hs, e⟩ := hm.1 t ht
    exact e.ok (hp.pieces s hs).ok.gate (hp.pieces s hs).openSum
  · rcases hp.links with e | e
    · rw [e] at hl; cases hl
    · rw [e] at hl
      exact chain_valid hb hr aux base haux hb l hl
  · have h := (hp.iff a ha).2 h
    refine ⟨fun t ht => ?_, h.links, h.prune⟩
    obtain ⟨s, hs, e⟩ := hm.1 t ht
    exact (e.holds a).2 (h.specs s hs)
  · refine (hp.iff a hr).1 ⟨fun s hs => ?_, fun l hl => ?_, fun hp => h3 hp a ha⟩
    · obtain ⟨t, ht, e⟩ := hm.2 s hs
      have hpc := hp.pieces s hs
      refine e.settled (fun g hg => ?_) (fun u hu => ?_) (h1 t ht) a ha
      · rw [hpc.gates g hg]; exact hk _ (by simp)
      · rcases hpc.sums u hu with e | e <;> rw [e] <;> exact hk _ (by simp)
    · rcases hp.links with e | e
      · rw [e] at hl; cases hl
      · rw [e] at hl h2
        exact chain_settled (hk base (by simp)) aux base (hk base (by simp)) h2 a ha l hl

theorem readLinks_roo (hd : DomsOK root) : ∀ ls : List (VarId × VarId × VarId), (∀ l ∈ ls, l.1.Valid root.length ∧ l.2.1.Valid root.length ∧ l.2.2.Valid root.length) → RightOrOverflow (readLinks root ls) (fun _ => True)
  | [], _ => .pure trivial
  | l :: ls, h => (bounds_roo hd (h l (by simp)).1).bind fun _ _ => (bounds_roo hd (h l (by simp)).2.1).bind fun _ _ => readLinks_roo hd ls fun l hl => h l (by simp [hl])

theorem magnitude_roo (hd : DomsOK root) (hr : result.Valid root.length) : RightOrOverflow (magnitude root result) (fun m => InI64 m ∧ 1 ≤ m ∧ ∀ a, Within root a → -m ≤ result.eval a ∧ result.eval a ≤ m) := by
  refine (bounds_roo hd hr).bind fun b hb => ?_
  have h1 : RightOrOverflow (size b.1) (fun l => InI64 l ∧ -l ≤ b.1) := by
    unfold size
    split
    · exact (neg_roo hb.1.1).mono fun v h => ⟨h.2, by omega⟩
    · exact .pure ⟨hb.1.1, by omega⟩
  have h2 : RightOrOverflow (size b.2) (fun l => InI64 l ∧ b.2 ≤ l) := by
    unfold size
    split
    · exact (neg_roo hb.2.1).mono fun v h => ⟨h.2, by omega⟩
    · exact .pure ⟨hb.2.1, by omega⟩
  refine h1.bind fun l hl => h2.bind fun h hh => .pure ⟨?_, by omega, fun a ha => ?_⟩
  · have : InI64 1 := by decide
    unfold InI64 at *
    omega
  · have := hb.1.2.le ha; have := hb.2.2.ge ha
    omega

theorem ranges_roo (hd : DomsOK root) (hb : base.Valid root.length) (hr : result.Valid root.length) : RightOrOverflow (ranges base result k root) (fun _ => True) := by
  unfold ranges
  split
  · exact (magnitude_roo hd hr).bind fun _ _ => (bounds_roo hd hb).bind fun _ _ => .pure trivial
  · exact .pure trivial

theorem install_roo (ho : R .overflow) (hd : DomsOK root) (hl : root.length = n) (hb : base.Valid n) (hr : result.Valid n) (hres : ∀ a, Within root a → InI64 (result.eval a)) (hopen : Open base result k)
    (hlen : aux.length = if Chained base k then k.toNat - 2 else 0) (haux : ∀ i ∈ aux, i < n) (h63 : k = 63 → base.isConst = false → ∀ a, Within root a → result.eval a ≠ i64Min) :
    RightOrOverflow (install (σ := σ) (μ := μ) base result k aux root) (Posts n m R root (Powers base result k aux) [base, result]) := by
  refine (plan_roo hb hr hres hopen hlen h63).bind fun o hp => ?_
  cases o with
  | none => exact .pure (AllDifferent.refuse_ok hp)
  | some p =>
    have hp : Planned n root base result k aux p := hp
    refine (ranges_roo hd (hl ▸ hb) (hl ▸ hr)).bind fun _ _ => ?_
    refine (readLinks_roo hd p.links fun l hl' => ?_).bind fun _ _ => (make_roo p.specs fun s hs => (hp.pieces s hs).ok).bind fun stages hm => .pure ?_
    · rcases hp.links with e | e
      · rw [e] at hl'; cases hl'
      · rw [e] at hl'
        rw [hl]
        exact chain_valid hb hr aux base haux hb l hl'
    · refine Linear.posts_prop (fun _ _ => Iff.rfl) (planned_enforces ho hb hr haux hp hm) (fun _ h => h) ?_ rfl
      intro v hv
      exact Multiply.wakes_watched (base :: result :: linkVars p.links) v (by simp only [List.mem_cons, List.not_mem_nil, or_false] at hv ⊢; rcases hv with h | h <;> simp [h])

end
end Power
end Gcs
