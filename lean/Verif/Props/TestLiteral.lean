import Verif.Props.Query

/-!
# C15: `test_literal`
-/

namespace Gcs
open IntervalSet

/-- The answer is right for a literal over the assignments within the domains. -/
def AnswerRight (d : Doms) (l : Lit) (r : LiteralIs) : Prop :=
  (r = .definitelyTrue ↔ ∀ a, Within d a → l.holds a) ∧ (r = .definitelyFalse ↔ ∀ a, Within d a → ¬ l.holds a)

/-- Range conditions are made with `in_range` / `not_in_range`, which insist on `lower ≤ upper` (gcs/variable_condition.hh). -/
def Lit.RangeOK : Lit → Prop
  | .cond c => (c.op = .inRange ∨ c.op = .notInRange) → c.value ≤ c.upper
  | _ => True

variable {d : Doms}

theorem RightUnless.drop {α : Type} {bad : Prop} {x : Chk α} {R : α → Prop} (h : RightUnless bad x R) : RightOrOverflow x R := by
  rcases h with h | h
  · exact .inl h.1
  · exact .inr h

theorem RightOrOverflow.bind {α β : Type} {x : Chk α} {R : α → Prop} {f : α → Chk β} {Q : β → Prop} (h : RightOrOverflow x R)
    (hf : ∀ r, R r → RightOrOverflow (f r) Q) : RightOrOverflow (x >>= f) Q := by
  rcases h with h1 | ⟨r, h1, h2⟩
  · left; rw [h1]; rfl
  · rw [h1]; exact hf r h2

theorem RightOrOverflow.pure {α : Type} {r : α} {R : α → Prop} (h : R r) : RightOrOverflow (Except.ok r) R := .inr ⟨r, rfl, h⟩

/-- Reduction to the set of possible values. -/
theorem answerRight_iff {c : Cond} {r : LiteralIs} :
    AnswerRight d (.cond c) r ↔ (r = .definitelyTrue ↔ ∀ y, Poss d c.var y → c.op.holds c.value c.upper y) ∧
      (r = .definitelyFalse ↔ ∀ y, Poss d c.var y → ¬ c.op.holds c.value c.upper y) := by
  have h1 : ∀ Q : Int → Prop, (∀ a, Within d a → Q (c.var.eval a)) ↔ ∀ y, Poss d c.var y → Q y := fun Q =>
    ⟨fun h y ⟨a, ha, he⟩ => he ▸ h a ha, fun h a ha => h _ ⟨a, ha, rfl⟩⟩
  unfold AnswerRight
  rw [← h1 (fun y => c.op.holds c.value c.upper y), ← h1 (fun y => ¬ c.op.holds c.value c.upper y)]
  rfl

theorem poss_nonempty (hd : DomsOK d) (v : VarId) : ∃ y, Poss d v y := by
  obtain ⟨a, ha⟩ := exists_within hd; exact ⟨_, a, ha, rfl⟩

/-- C15: `test_literal` says true exactly if every assignment within the domains satisfies the literal, false exactly if none does. -/
theorem testLiteral_spec (d : Doms) (l : Lit) (hd : DomsOK d) (hl : l.Valid d.length) (hr : l.RangeOK) :
    RightOrOverflow (testLiteral d l) (AnswerRight d l) := by
  cases l with
  | tt => exact .pure ⟨by simp [Lit.holds], by obtain ⟨a, ha⟩ := exists_within hd; simp [Lit.holds]; exact ⟨a, ha⟩⟩
  | ff => exact .pure ⟨by obtain ⟨a, ha⟩ := exists_within hd; simp [Lit.holds]; exact ⟨a, ha⟩, by simp [Lit.holds]⟩
  | cond c =>
    obtain ⟨v, op, x, u⟩ := c
    obtain ⟨h1, h2, h3⟩ := hl
    simp only at h1 h2 h3
    obtain ⟨y0, hy0⟩ := poss_nonempty hd v
    have hlow := (lowerBound_spec hd h1).drop
    have hupp := (upperBound_spec hd h1).drop
    simp only [testLiteral, testCond]
    cases op
    · simp only
      refine (inDomain_spec hd h1 x h2).bind fun b hb => ?_
      by_cases hbt : b = true
      · have hp := hb.1 hbt
        rw [if_neg (by simp [hbt])]
        obtain ⟨b2, e2, hb2⟩ := hasSingleValue_spec hd h1
        rw [e2]
        simp only [Bind.bind, Except.bind]
        by_cases hs : b2 = true
        · rw [if_pos hs]
          obtain ⟨y, hy⟩ := hb2.1 hs
          refine .pure (answerRight_iff.2 ?_)
          simp only [CondOp.holds, hy]
          have := (hy x).1 hp
          subst this
          simp
        · rw [if_neg hs]
          refine .pure (answerRight_iff.2 ?_)
          simp only [CondOp.holds, reduceCtorEq, false_iff]
          refine ⟨fun h => hs (hb2.2 ⟨x, fun z => ⟨fun hz => h z hz, fun hz => hz ▸ hp⟩⟩), fun h => h x hp rfl⟩
      · rw [if_pos (by simpa using hbt)]
        have hnp : ¬ Poss d v x := fun hh => hbt (hb.2 hh)
        refine .pure (answerRight_iff.2 ?_)
        simp only [CondOp.holds, reduceCtorEq, false_iff, true_iff]
        exact ⟨fun h => hnp (h y0 hy0 ▸ hy0), fun y hy he => hnp (he ▸ hy)⟩
    · simp only
      refine (inDomain_spec hd h1 x h2).bind fun b hb => ?_
      by_cases hbt : b = true
      · have hp := hb.1 hbt
        rw [if_neg (by simp [hbt])]
        obtain ⟨b2, e2, hb2⟩ := hasSingleValue_spec hd h1
        rw [e2]
        simp only [Bind.bind, Except.bind]
        by_cases hs : b2 = true
        · rw [if_pos hs]
          obtain ⟨y, hy⟩ := hb2.1 hs
          refine .pure (answerRight_iff.2 ?_)
          simp only [CondOp.holds, hy]
          have := (hy x).1 hp
          subst this
          simp
        · rw [if_neg hs]
          refine .pure (answerRight_iff.2 ?_)
          simp only [CondOp.holds, reduceCtorEq, false_iff]
          refine ⟨fun h => h x hp rfl, fun h => hs (hb2.2 ⟨x, fun z => ⟨fun hz => by simpa using h z hz, fun hz => hz ▸ hp⟩⟩)⟩
      · rw [if_pos (by simpa using hbt)]
        have hnp : ¬ Poss d v x := fun hh => hbt (hb.2 hh)
        refine .pure (answerRight_iff.2 ?_)
        simp only [CondOp.holds, reduceCtorEq, false_iff, true_iff]
        exact ⟨fun y hy he => hnp (he ▸ hy), fun h => h y0 hy0 fun he => hnp (he ▸ hy0)⟩
    · simp only
      refine hupp.bind fun ub hub => ?_
      by_cases hx : ub ≥ x
      · rw [if_pos hx]
        refine hlow.bind fun lb hlb => ?_
        by_cases hx2 : lb ≥ x
        · rw [if_pos hx2]
          refine .pure (answerRight_iff.2 ?_)
          simp only [CondOp.holds, reduceCtorEq, false_iff, true_iff]
          refine ⟨fun y hy => by have := hlb.2 y hy; omega, fun h => h ub hub.1 hx⟩
        · rw [if_neg hx2]
          refine .pure (answerRight_iff.2 ?_)
          simp only [CondOp.holds, reduceCtorEq, false_iff]
          refine ⟨fun h => hx2 (h lb hlb.1), fun h => h ub hub.1 hx⟩
      · rw [if_neg hx]
        refine .pure (answerRight_iff.2 ?_)
        simp only [CondOp.holds, reduceCtorEq, false_iff, true_iff]
        exact ⟨fun h => hx (h ub hub.1), fun y hy => by have := hub.2 y hy; omega⟩
    · simp only
      refine hlow.bind fun lb hlb => ?_
      by_cases hx : lb < x
      · rw [if_pos hx]
        refine hupp.bind fun ub hub => ?_
        by_cases hx2 : ub < x
        · rw [if_pos hx2]
          refine .pure (answerRight_iff.2 ?_)
          simp only [CondOp.holds, reduceCtorEq, false_iff, true_iff]
          refine ⟨fun y hy => by have := hub.2 y hy; omega, fun h => h lb hlb.1 hx⟩
        · rw [if_neg hx2]
          refine .pure (answerRight_iff.2 ?_)
          simp only [CondOp.holds, reduceCtorEq, false_iff]
          refine ⟨fun h => hx2 (h ub hub.1), fun h => h lb hlb.1 hx⟩
      · rw [if_neg hx]
        refine .pure (answerRight_iff.2 ?_)
        simp only [CondOp.holds, reduceCtorEq, false_iff, true_iff]
        exact ⟨fun h => hx (h lb hlb.1), fun y hy => by have := hlb.2 y hy; omega⟩
    · have hxu : x ≤ u := hr (.inl rfl)
      have hint := (domainIntersectsWith_spec hd h1 (single x u) (by simp [single, WF, hxu])).drop
      have hmem : ∀ y, Mem y (single x u) ↔ x ≤ y ∧ y ≤ u := fun y => by simp [single, Mem]
      simp only [hmem] at hint
      simp only
      refine hlow.bind fun lb hlb => hupp.bind fun ub hub => ?_
      by_cases hx : lb ≥ x ∧ ub ≤ u
      · rw [if_pos hx]
        refine .pure (answerRight_iff.2 ?_)
        simp only [CondOp.holds, reduceCtorEq, false_iff, true_iff]
        refine ⟨fun y hy => by have := hlb.2 y hy; have := hub.2 y hy; omega, fun h => h lb hlb.1 ⟨hx.1, by have := hlb.2 ub hub.1; omega⟩⟩
      · rw [if_neg hx]
        refine hint.bind fun b hb => ?_
        by_cases hbt : b = true
        · rw [if_neg (by simp [hbt])]
          obtain ⟨y, hy, hy2⟩ := hb.1 hbt
          refine .pure (answerRight_iff.2 ?_)
          simp only [CondOp.holds, reduceCtorEq, false_iff]
          refine ⟨fun h => hx ⟨(h lb hlb.1).1, (h ub hub.1).2⟩, fun h => h y hy hy2⟩
        · rw [if_pos (by simpa using hbt)]
          have hn : ∀ y, Poss d v y → ¬ (x ≤ y ∧ y ≤ u) := fun y hy hh => hbt (hb.2 ⟨y, hy, hh⟩)
          refine .pure (answerRight_iff.2 ?_)
          simp only [CondOp.holds, reduceCtorEq, false_iff, true_iff]
          exact ⟨fun h => hn y0 hy0 (h y0 hy0), hn⟩
    · have hxu : x ≤ u := hr (.inr rfl)
      have hint := (domainIntersectsWith_spec hd h1 (single x u) (by simp [single, WF, hxu])).drop
      have hmem : ∀ y, Mem y (single x u) ↔ x ≤ y ∧ y ≤ u := fun y => by simp [single, Mem]
      simp only [hmem] at hint
      simp only
      refine hint.bind fun b hb => ?_
      by_cases hbt : b = true
      · rw [if_neg (by simp [hbt])]
        obtain ⟨y, hy, hy2⟩ := hb.1 hbt
        refine hlow.bind fun lb hlb => hupp.bind fun ub hub => ?_
        by_cases hx : lb ≥ x ∧ ub ≤ u
        · rw [if_pos hx]
          refine .pure (answerRight_iff.2 ?_)
          simp only [CondOp.holds, reduceCtorEq, false_iff, true_iff]
          refine ⟨fun h => h y hy hy2, fun z hz hh => hh (by have := hlb.2 z hz; have := hub.2 z hz; omega)⟩
        · rw [if_neg hx]
          refine .pure (answerRight_iff.2 ?_)
          simp only [CondOp.holds, reduceCtorEq, false_iff]
          refine ⟨fun h => h y hy hy2, fun h => hx ⟨(Classical.not_not.1 (h lb hlb.1)).1, (Classical.not_not.1 (h ub hub.1)).2⟩⟩
      · rw [if_pos (by simpa using hbt)]
        have hn : ∀ y, Poss d v y → ¬ (x ≤ y ∧ y ≤ u) := fun y hy hh => hbt (hb.2 ⟨y, hy, hh⟩)
        refine .pure (answerRight_iff.2 ?_)
        simp only [CondOp.holds, reduceCtorEq, false_iff, true_iff]
        exact ⟨hn, fun h => h y0 hy0 (hn y0 hy0)⟩

/-- `infer` reports `NoChange` exactly if the literal already holds everywhere. -/
theorem infer_noChange_iff (d : Doms) (l : Lit) (hd : DomsOK d) (hl : l.Valid d.length) {r : Inference × Doms} (hr : infer d l = .ok r) :
    r.1 = .noChange ↔ ∀ a, Within d a → l.holds a := by
  rcases infer_spec d l hd hl with h | ⟨r', h1, h2⟩
  · rw [h] at hr; cases hr
  rw [h1] at hr; cases hr
  have hm := inferMeaning_of_spec hd h2
  constructor
  · intro hn a ha
    have := (hm.within (by rw [hn]; simp) a).1
    rw [hm.noChange hn] at this
    exact (this ha).2
  · intro hall
    have hnc : r.1 ≠ .contradiction := fun h => by
      obtain ⟨a, ha⟩ := exists_within hd
      exact hm.contra.1 h a ha (hall a ha)
    cases hu : l.underlying with
    | none =>
      rcases (h2.noVar hu).2 with h | h
      · exact h.1
      · exact absurd h.1 hnc
    | some i =>
      obtain ⟨s, s', hs, hs', hc⟩ := h2.own i hu
      have hsame : ¬ Changed s s' := by
        simp only [Changed, Classical.not_not]
        intro x
        rw [hc.mem hnc x]
        constructor
        · exact fun h => h.1
        · intro hx
          obtain ⟨a, ha, rfl⟩ := exists_within_at hd hs hx
          exact ⟨hx, (holds_congr hu a).2 (hall a ha)⟩
      have hk := hc.kind
      cases hr1 : r.1 with
      | noChange => rfl
      | contradiction => exact absurd hr1 hnc
      | instantiated => rw [hr1] at hk; exact absurd hk.1 hsame
      | boundsChanged => rw [hr1] at hk; exact absurd hk.1 hsame
      | interiorValuesChanged => rw [hr1] at hk; exact absurd hk.1 hsame

/-- C15: testing agrees with inferring. -/
theorem testLiteral_consistent (d : Doms) (l : Lit) (hd : DomsOK d) (hl : l.Valid d.length) (hr : l.RangeOK) {t : LiteralIs} (ht : testLiteral d l = .ok t)
    {r : Inference × Doms} (hi : infer d l = .ok r) : (t = .definitelyTrue ↔ r.1 = .noChange) ∧ (t = .definitelyFalse ↔ r.1 = .contradiction) := by
  rcases testLiteral_spec d l hd hl hr with h | ⟨t', h1, h2⟩
  · rw [h] at ht; cases ht
  rw [h1] at ht; cases ht
  refine ⟨h2.1.trans (infer_noChange_iff d l hd hl hi).symm, ?_⟩
  rcases infer_spec d l hd hl with h | ⟨r', h3, h4⟩
  · rw [h] at hi; cases hi
  rw [h3] at hi; cases hi
  exact h2.2.trans (inferMeaning_of_spec hd h4).contra.symm

/-- All domains are small. -/
def DomsSmall (d : Doms) : Prop := ∀ s ∈ d, ∀ x, Mem x s → Small x

theorem fits_of_small {v : VarId} (hs : DomsSmall d) (hv : v.Valid d.length) (hc : v.SmallConst) : Fits d v := by
  intro a ha
  cases v with
  | simple i => trivial
  | const c => trivial
  | view i n k =>
    have h1 := hs _ (List.getElem_mem hv.1) _ (ha i _ (List.getElem?_eq_getElem hv.1))
    have h2 : Small k := hc
    refine ⟨fun _ => ?_, ?_⟩
    · unfold InI64 i64Min i64Max; omega
    · unfold InI64 i64Min i64Max; split <;> omega

theorem inDomain_total {v : VarId} {x : Int} (hd : DomsOK d) (hv : v.Valid d.length) (hc : v.SmallConst) (hx : Small x) : ∃ b, inDomain d v x = .ok b := by
  rw [inDomain_eq hd hv hx.inI64]
  obtain ⟨w, hw⟩ := adjust_total (deview v).2.1 hx (deview_add_small hc)
  rw [hw]; exact ⟨_, rfl⟩

/-- C15: with values and constants of magnitude at most 2^61, `test_literal` always answers. -/
theorem testLiteral_total (d : Doms) (l : Lit) (hd : DomsOK d) (hs : DomsSmall d) (hl : l.Valid d.length) (hr : l.RangeOK) (hc : l.SmallConst) :
    ∃ t, testLiteral d l = .ok t := by
  cases l with
  | tt => exact ⟨_, rfl⟩
  | ff => exact ⟨_, rfl⟩
  | cond c =>
    obtain ⟨v, op, x, u⟩ := c
    obtain ⟨h1, -, -⟩ := hl
    obtain ⟨c1, c2, c3⟩ := hc
    simp only at h1 c1 c2 c3
    have hf := fits_of_small hs h1 c1
    obtain ⟨lb, elb, -⟩ := (lowerBound_spec hd h1).total (by simpa using hf)
    obtain ⟨ub, eub, -⟩ := (upperBound_spec hd h1).total (by simpa using hf)
    obtain ⟨b, eb⟩ := inDomain_total hd h1 c1 c2
    obtain ⟨s, es, -⟩ := hasSingleValue_spec hd h1
    simp only [testLiteral, testCond]
    have hint : x ≤ u → ∃ b, domainIntersectsWith d v (single x u) = .ok b := fun hxu => by
      obtain ⟨b, hb, -⟩ := (domainIntersectsWith_spec hd h1 (single x u) (by simp [single, WF, hxu])).total (by simpa using hf)
      exact ⟨b, hb⟩
    cases op <;> simp only [elb, eub, eb, es, Bind.bind, Except.bind]
    · repeat' split
      all_goals exact ⟨_, rfl⟩
    · repeat' split
      all_goals exact ⟨_, rfl⟩
    · repeat' split
      all_goals exact ⟨_, rfl⟩
    · repeat' split
      all_goals exact ⟨_, rfl⟩
    · obtain ⟨b, hb⟩ := hint (hr (.inl rfl))
      rw [hb]
      simp only []
      repeat' split
      all_goals exact ⟨_, rfl⟩
    · obtain ⟨b, hb⟩ := hint (hr (.inr rfl))
      rw [hb]
      simp only []
      repeat' split
      all_goals exact ⟨_, rfl⟩

/-- `RangeOK` is needed: a condition built by hand with `lower > upper` holds nowhere, and `infer` treats it so, but `test_literal` calls it undecided. -/
theorem testLiteral_needs_rangeOK :
    testLiteral [[(0, 9)]] (.cond ⟨.simple 0, .inRange, 6, 3⟩) = .ok .undecided ∧
    (∀ a, ¬ (Lit.cond ⟨.simple 0, .inRange, 6, 3⟩).holds a) := by
  refine ⟨by decide +kernel, fun a => ?_⟩
  simp only [Lit.holds, Cond.holds, CondOp.holds]; omega

example : testLiteral [[(0, 3), (5, 9)]] (.cond ⟨.view 0 true 3, .inRange, -1, -1⟩) = .ok .definitelyFalse ∧
    testLiteral [[(0, 3), (5, 9)]] (.cond ⟨.view 0 true 3, .inRange, -2, -1⟩) = .ok .undecided ∧
    testLiteral [[(0, 3), (5, 9)]] (.cond ⟨.view 0 true 3, .less, 4, 0⟩) = .ok .definitelyTrue := by decide +kernel
example : DomsSmall [[(0, 3), (5, 9)]] := by intro s hs x hx; simp at hs; subst hs; simp [Mem] at hx; omega

#print axioms testLiteral_spec
#print axioms testLiteral_consistent
#print axioms testLiteral_total
#print axioms testLiteral_needs_rangeOK

end Gcs
