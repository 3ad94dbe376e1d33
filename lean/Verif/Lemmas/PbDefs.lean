import Verif.Lemmas.PbMeans

/-! The rows that define literals, bounds and views, in terms of the 0/1 variables. -/

namespace Gcs.Pb

variable {t : Tracker} {α : Bools} {w : Vals}

/-! ## Turning inequalities round -/

theorem negTerms_raw : ∀ {l l' : List (Int × Term)}, (l.mapM fun (x : Int × Term) => match x with | (c, v) => (do return (← iNeg c, v) : Chk (Int × Term))) = .ok l' →
    rawTotal t α l' = - rawTotal t α l ∧ total t α w l' = - total t α w l := by
  intro l
  induction l with
  | nil => intro l' h; cases h; exact ⟨rfl, rfl⟩
  | cons x xs ih =>
    obtain ⟨c, v⟩ := x
    intro l' h
    rw [List.mapM_cons] at h
    obtain ⟨y, hy, h⟩ := bindOk h
    obtain ⟨ys, hys, h⟩ := bindOk h
    obtain ⟨n, hn, hy⟩ := bindOk hy
    cases hy
    cases h
    have := ih hys
    have e := iNeg_eq hn
    simp only [rawTotal, total, e, Int.neg_mul, this.1, this.2]
    omega

theorem atLeast_raw {l : List (Int × Term)} {r : Int} {i : Ineq} (h : atLeast l r = .ok i) :
    (rawTotal t α i.lhs ≤ i.rhs ↔ r ≤ rawTotal t α l) ∧ (i.Holds t α w ↔ r ≤ total t α w l) := by
  unfold atLeast at h
  obtain ⟨l', hl, h⟩ := bindOk h
  obtain ⟨n, hn, h⟩ := bindOk h
  cases h
  have := negTerms_raw (t := t) (α := α) (w := w) hl
  have := iNeg_eq hn
  unfold Ineq.Holds
  dsimp only
  omega

theorem negate_raw {i j : Ineq} (h : negateInequality i = .ok j) :
    (rawTotal t α j.lhs ≤ j.rhs ↔ ¬ rawTotal t α i.lhs ≤ i.rhs) ∧ (j.Holds t α w ↔ ¬ i.Holds t α w) := by
  unfold negateInequality at h
  obtain ⟨l', hl, h⟩ := bindOk h
  obtain ⟨n, hn, h⟩ := bindOk h
  obtain ⟨n', hn', h⟩ := bindOk h
  cases h
  have := negTerms_raw (t := t) (α := α) (w := w) hl
  have := iNeg_eq hn
  have := iSub_eq hn'
  unfold Ineq.Holds
  dsimp only
  omega

/-! ## Reified on one item -/

theorem reifs_nots {k : Int} (hk : k ≠ 0) : ∀ (rs : Reifs) {out : List (Int × XLit)} {rhs : Int} {q},
    emitTerms t (rs.map fun r => (k, .item r.not)) out rhs = .ok q → ∀ r ∈ rs, rawItem t α r.not = 1 - rawItem t α r := by
  intro rs
  induction rs with
  | nil => intro _ _ _ _ r hr; cases hr
  | cons r rs ih =>
    intro out rhs q h
    rw [List.map_cons, emitTerms, if_neg hk] at h
    obtain ⟨z, hz, h⟩ := bindOk h
    intro r' hr'
    rcases List.mem_cons.1 hr' with rfl | hr'
    · exact rawItem_not hz
    · exact ih h r' hr'

theorem add_nots {i : Ineq} {rs : Reifs} {row : Row} (h : addConstraint t i (some rs) = .ok row) : ∀ r ∈ rs, rawItem t α r.not = 1 - rawItem t α r := by
  unfold addConstraint at h
  obtain ⟨i', hi, h⟩ := bindOk h
  unfold reify at hi
  obtain ⟨⟨k, e⟩, hs, hi⟩ := bindOk hi
  cases hi
  unfold reificationShape at hs
  obtain ⟨m, hm, hs⟩ := bindOk hs
  obtain ⟨n, hn, hs⟩ := bindOk hs
  obtain ⟨k', hk, hs⟩ := bindOk hs
  obtain ⟨e', he, hs⟩ := bindOk hs
  have hp : (min k' (-1), e') = (k, e) := by injection hs
  rw [Prod.mk.injEq] at hp
  obtain ⟨rfl, rfl⟩ := hp
  unfold emitInequality at h
  obtain ⟨d, hd, h⟩ := bindOk h
  obtain ⟨q, hq, h⟩ := bindOk h
  dsimp only at hq
  rw [emitTerms_append] at hq
  obtain ⟨z, hz, hq⟩ := bindOk hq
  exact reifs_nots (by omega) rs hq

theorem add_of {i i' : Ineq} {rs : Reifs} {row : Row} (hi : reify t i rs = .ok i') (h : emitInequality t i' = .ok row) : addConstraint t i (some rs) = .ok row := by
  show (reify t i rs >>= emitInequality t) = _
  rw [hi]; exact h

theorem one_ok {i : Ineq} {r : PItem} {row : Row} (h : addConstraint t i (some [r]) = .ok row) : row.Holds α ↔ (rawItem t α r = 1 → rawTotal t α i.lhs ≤ i.rhs) := by
  rw [reified_ok h]; simp

/-- Two rows, one for the item and one for its negation, define the item. -/
theorem both_ok {i j : Ineq} {r : PItem} {f g : Row} (hf : addConstraint t i (some [r]) = .ok f) (hg : addConstraint t j (some [r.not]) = .ok g)
    (hn : rawTotal t α j.lhs ≤ j.rhs ↔ ¬ rawTotal t α i.lhs ≤ i.rhs) : (f.Holds α ∧ g.Holds α) ↔ (rawItem t α r = 1 ↔ rawTotal t α i.lhs ≤ i.rhs) := by
  rw [one_ok hf, one_ok hg, hn, add_nots hf r (List.mem_singleton.2 rfl)]
  have := rawItem_01 (t := t) (α := α) r
  have e : 1 - rawItem t α r = 1 ↔ ¬ rawItem t α r = 1 := by omega
  rw [e]
  constructor
  · exact fun ⟨a, b⟩ => ⟨a, fun k => Classical.byContradiction fun c => b c k⟩
  · exact fun a => ⟨a.1, fun c k => c (a.2 k)⟩

theorem red_ok {i : Ineq} {r : PItem} {q : Row × Row} (h : redReifying t i r = .ok q) :
    (q.1.Holds α ∧ q.2.Holds α) ↔ (rawItem t α r = 1 ↔ rawTotal t α i.lhs ≤ i.rhs) := by
  unfold redReifying at h
  obtain ⟨i', hi', h⟩ := bindOk h
  obtain ⟨f, hf, h⟩ := bindOk h
  obtain ⟨n, hn, h⟩ := bindOk h
  obtain ⟨j, hj, h⟩ := bindOk h
  obtain ⟨j', hj', h⟩ := bindOk h
  obtain ⟨g, hg, h⟩ := bindOk h
  cases h
  have hf' : addConstraint t i (some [r]) = .ok f := add_of hi' hf
  have hg' : addConstraint t j (some [r.not]) = .ok g := add_of hj' hg
  refine both_ok hf' hg' ?_
  rw [(atLeast_raw (t := t) (α := α) (w := fun _ => 0) hj).1, iAdd_eq hn]
  omega

theorem red_named {i : Ineq} {r : PItem} {q : Row × Row} (h : redReifying t i r = .ok q) :
    (∃ out rhs z, emitTerms t i.lhs out rhs = .ok z) ∧ Named t r := by
  unfold redReifying at h
  obtain ⟨i', hi', h⟩ := bindOk h
  obtain ⟨f, hf, h⟩ := bindOk h
  have hf' : addConstraint t i (some [r]) = .ok f := add_of hi' hf
  have := add_parts hf'
  exact ⟨this.1, this.2 r (List.mem_singleton.2 rfl)⟩

theorem twoWay_ok {i : Ineq} {n : Nat} {b : Bool} {q : Row × Row} (h : addTwoWay t i n b = .ok q) :
    (q.1.Holds α ∧ q.2.Holds α) ↔ (α (.flag n) = b ↔ rawTotal t α i.lhs ≤ i.rhs) := by
  unfold addTwoWay at h
  obtain ⟨f, hf, h⟩ := bindOk h
  obtain ⟨j, hj, h⟩ := bindOk h
  obtain ⟨g, hg, h⟩ := bindOk h
  cases h
  rw [both_ok hf hg (negate_raw (w := fun _ => 0) hj).1]
  have : rawItem t α (.flag n b) = 1 ↔ α (.flag n) = b := by
    simp only [rawItem, tv, XLit.Holds, Bool.not_not]
    split <;> simp_all
  rw [this]

/-! ## Conditions on a variable -/

theorem condOf_not (p : PVar) (op : CondOp) (v : Int) : (condOf p op v).not = condOf p (notOp op) v := by
  cases p <;> cases op <;> rfl

theorem condOf_simplify {p : PVar} {op : CondOp} {v u : Int} (h : isRangeOp op = false) : ∃ l, condOf p op v u = .lit l ∧ simplifyLiteral t l = .ok (.cond p op v u) := by
  cases p <;> refine ⟨_, rfl, ?_⟩ <;> simp [simplifyLiteral, h]

theorem condOf_raw {p : PVar} {op : CondOp} {v : Int} {x : XLit} (h : isRangeOp op = false) (hx : t.find p op v 0 = .ok x) : rawItem t α (condOf p op v) = tv α x := by
  obtain ⟨l, e, hs⟩ := condOf_simplify (t := t) (p := p) (op := op) (v := v) (u := 0) h
  rw [e]
  simp only [rawItem, hs, rawSimple, hx]

theorem find_ge {p : PVar} {v u : Int} {x : XLit} (h : t.ge p v = some x) : t.find p .greaterEqual v u = .ok x := by simp [Tracker.find, h]
theorem find_lt {p : PVar} {v u : Int} {x : XLit} (h : t.ge p v = some x) : t.find p .less v u = .ok x.not := by simp [Tracker.find, h]
theorem find_eq {p : PVar} {v u : Int} {x : XLit} (h : t.eq p v = some x) : t.find p .equal v u = .ok x := by simp [Tracker.find, h]
theorem find_in {p : PVar} {v u : Int} {x : XLit} (h : t.within p v u = some x) : t.find p .inRange v u = .ok x := by simp [Tracker.find, h]

theorem ge_raw {p : PVar} {v : Int} {x : XLit} (h : t.ge p v = some x) : rawItem t α (condOf p .greaterEqual v) = tv α x := condOf_raw rfl (find_ge h)
theorem lt_raw {p : PVar} {v : Int} {x : XLit} (h : t.ge p v = some x) : rawItem t α (condOf p .greaterEqual v).not = 1 - tv α x := by
  rw [condOf_not, show notOp .greaterEqual = .less from rfl, condOf_raw rfl (find_lt h), tv_not]
theorem eq_raw {p : PVar} {v : Int} {x : XLit} (h : t.eq p v = some x) : rawItem t α (condOf p .equal v) = tv α x := condOf_raw rfl (find_eq h)

theorem in_raw {p : PVar} {v u : Int} {x : XLit} (hlt : v < u) (h : t.within p v u = some x) : rawItem t α (condOf p .inRange v u) = tv α x := by
  have hs : ∃ l, condOf p .inRange v u = .lit l ∧ simplifyLiteral t l = .ok (.cond p .inRange v u) := by
    have hc : canonicaliseRange p .inRange v u = .cond p .inRange v u := by
      unfold canonicaliseRange
      rw [if_neg (by omega), if_neg (by omega)]
    cases p <;> refine ⟨_, rfl, ?_⟩ <;> simp [simplifyLiteral, isRangeOp, hc]
  obtain ⟨l, e, hs⟩ := hs
  rw [e]
  simp only [rawItem, hs, rawSimple, find_in h]

theorem tv_one {x : XLit} : tv α x = 1 ↔ x.Holds α := by unfold tv; split <;> simp_all

theorem varTerm_raw {p : PVar} : rawTerm t α (varTerm p) = rawBits t α p := by cases p <;> rfl

/-- The rows defining `p ≥ v` in the model. -/
theorem geRows_ok {p : PVar} {v : Int} {b : Bits} {x : XLit} {q : Row × Row} (hb : t.bits p = some b) (hx : t.ge p v = some x) (h : geRows t p v = .ok q) :
    (q.1.Holds α ∧ q.2.Holds α) ↔ (x.Holds α ↔ v ≤ sum α b) := by
  unfold geRows at h
  obtain ⟨i, hi, h⟩ := bindOk h
  obtain ⟨f, hf, h⟩ := bindOk h
  obtain ⟨n, hn, h⟩ := bindOk h
  obtain ⟨n', hn', h⟩ := bindOk h
  obtain ⟨j, hj, h⟩ := bindOk h
  obtain ⟨g, hg, h⟩ := bindOk h
  cases h
  have h1 := (atLeast_raw (t := t) (α := α) (w := fun _ => 0) hi).1
  have h2 := (atLeast_raw (t := t) (α := α) (w := fun _ => 0) hj).1
  simp only [rawTotal, varTerm_raw, rawBits_of hb] at h1 h2
  have e := iNeg_eq hn
  have e' := iAdd_eq hn'
  have := both_ok (α := α) hf (r := condOf p .greaterEqual v) (by rw [condOf_not]; exact hg) (by rw [h1, h2]; omega)
  rw [this, ge_raw hx, tv_one, h1]
  constructor <;> intro k <;> rw [k] <;> constructor <;> intro _ <;> omega

/-- The rows defining `p ≥ v` in the proof. -/
theorem geRowsRed_ok {p : PVar} {v : Int} {b : Bits} {x : XLit} {q : Row × Row} (hb : t.bits p = some b) (hx : t.ge p v = some x) (h : geRowsRed t p v = .ok q) :
    (q.1.Holds α ∧ q.2.Holds α) ↔ (x.Holds α ↔ v ≤ sum α b) := by
  unfold geRowsRed at h
  obtain ⟨i, hi, h⟩ := bindOk h
  have h1 := (atLeast_raw (t := t) (α := α) (w := fun _ => 0) hi).1
  simp only [rawTotal, varTerm_raw, rawBits_of hb] at h1
  rw [red_ok h, ge_raw hx, tv_one, h1]
  constructor <;> intro k <;> rw [k] <;> constructor <;> intro _ <;> omega

/-- Order literals can only be defined for variables with bits. -/
theorem geRows_bits {p : PVar} {v : Int} {q : Row × Row} (h : geRows t p v = .ok q) : ∃ b, t.bits p = some b := by
  unfold geRows at h
  obtain ⟨i, hi, h⟩ := bindOk h
  obtain ⟨f, hf, h⟩ := bindOk h
  obtain ⟨⟨out, rhs, z, hz⟩, _⟩ := add_parts hf
  unfold atLeast at hi
  obtain ⟨l', hl, hi⟩ := bindOk hi
  obtain ⟨n, hn, hi⟩ := bindOk hi
  cases hi
  rw [List.mapM_cons] at hl
  obtain ⟨y, hy, hl⟩ := bindOk hl
  obtain ⟨m, hm, hy⟩ := bindOk hy
  cases hy
  cases hl
  have e := iNeg_eq hm
  dsimp only at hz
  rw [emitTerms, if_neg (by omega)] at hz
  obtain ⟨y, hy, hz⟩ := bindOk hz
  cases p <;> (simp only [varTerm, appendOrFold] at hy; obtain ⟨b, hb, hy⟩ := bindOk hy; exact ⟨b, eachBit_ok hb⟩)

theorem geRowsRed_bits {p : PVar} {v : Int} {q : Row × Row} (h : geRowsRed t p v = .ok q) : ∃ b, t.bits p = some b := by
  unfold geRowsRed at h
  obtain ⟨i, hi, h⟩ := bindOk h
  obtain ⟨⟨out, rhs, z, hz⟩, _⟩ := red_named h
  unfold atLeast at hi
  obtain ⟨l', hl, hi⟩ := bindOk hi
  obtain ⟨n, hn, hi⟩ := bindOk hi
  cases hi
  rw [List.mapM_cons] at hl
  obtain ⟨y, hy, hl⟩ := bindOk hl
  obtain ⟨m, hm, hy⟩ := bindOk hy
  cases hy
  cases hl
  have e := iNeg_eq hm
  dsimp only at hz
  rw [emitTerms, if_neg (by omega)] at hz
  obtain ⟨y, hy, hz⟩ := bindOk hz
  cases p <;> (simp only [varTerm, appendOrFold] at hy; obtain ⟨b, hb, hy⟩ := bindOk hy; exact ⟨b, eachBit_ok hb⟩)

theorem raw_one (i : PItem) : rawTotal t α [(1, .item i)] = rawItem t α i := by simp [rawTotal, rawTerm]
theorem raw_two (i j : PItem) : rawTotal t α [(1, .item i), (1, .item j)] = rawItem t α i + rawItem t α j := by simp [rawTotal, rawTerm]

/-- What the rows of `p = v` need to be known about order literals. -/
structure EqNeeds (t : Tracker) (α : Bools) (p : PVar) (v : Int) (bounds : Option (Int × Int)) (y : Int) : Prop where
  lower : bounds.map Prod.fst = some v → v ≤ y
  upper : bounds.map Prod.snd = some v → y ≤ v
  ge : bounds.map Prod.fst ≠ some v → ∃ g, t.ge p v = some g ∧ (g.Holds α ↔ v ≤ y)
  gt : (bounds.map Prod.fst = some v ∨ bounds.map Prod.snd ≠ some v) → ∃ g, t.ge p (v + 1) = some g ∧ (g.Holds α ↔ v + 1 ≤ y)

theorem tv_val {x : XLit} {p : Prop} (h : x.Holds α ↔ p) : (tv α x = 1 ∧ p) ∨ (tv α x = 0 ∧ ¬ p) := by
  by_cases hp : p
  · exact .inl ⟨tv_one.2 (h.2 hp), hp⟩
  · refine .inr ⟨?_, hp⟩
    unfold tv; rw [if_neg fun k => hp (h.1 k)]

/-- The rows defining `p = v` in the model. -/
theorem eqRows_ok {p : PVar} {v y : Int} {bounds : Option (Int × Int)} {x : XLit} {q : Row × Row} (hx : t.eq p v = some x) (hn : EqNeeds t α p v bounds y)
    (h : eqRows t p v bounds = .ok q) : (q.1.Holds α ∧ q.2.Holds α) ↔ (x.Holds α ↔ y = v) := by
  unfold eqRows at h
  obtain ⟨next, hnext, h⟩ := bindOk h
  have e := iAdd_eq hnext
  subst e
  by_cases h1 : bounds.map Prod.fst = some v
  · simp only [h1, if_true] at h
    obtain ⟨i, hi, h⟩ := bindOk h
    obtain ⟨f, hf, h⟩ := bindOk h
    obtain ⟨j, hj, h⟩ := bindOk h
    obtain ⟨g, hg, h⟩ := bindOk h
    cases h
    obtain ⟨a, ha, hav⟩ := hn.gt (.inl h1)
    have k1 := (atLeast_raw (t := t) (α := α) (w := fun _ => 0) hi).1
    have k2 := (atLeast_raw (t := t) (α := α) (w := fun _ => 0) hj).1
    rw [raw_one, lt_raw ha] at k1
    rw [raw_one, ge_raw ha] at k2
    have k3 := tv_val hav
    have := both_ok (α := α) hf (r := condOf p .equal v) (by rw [condOf_not]; exact hg) (by rw [k1, k2]; omega)
    rw [this, eq_raw hx, tv_one, k1]
    have := hn.lower h1
    constructor <;> intro k <;> rw [k] <;> constructor <;> intro _ <;> omega
  · simp only [h1, if_false] at h
    obtain ⟨b, hb, hbv⟩ := hn.ge h1
    have k4 := tv_val hbv
    by_cases h2 : bounds.map Prod.snd = some v
    · simp only [h2, if_true] at h
      obtain ⟨i, hi, h⟩ := bindOk h
      obtain ⟨f, hf, h⟩ := bindOk h
      obtain ⟨j, hj, h⟩ := bindOk h
      obtain ⟨g, hg, h⟩ := bindOk h
      cases h
      have k1 := (atLeast_raw (t := t) (α := α) (w := fun _ => 0) hi).1
      have k2 := (atLeast_raw (t := t) (α := α) (w := fun _ => 0) hj).1
      rw [raw_one, ge_raw hb] at k1
      rw [raw_one, lt_raw hb] at k2
      have := both_ok (α := α) hf (r := condOf p .equal v) (by rw [condOf_not]; exact hg) (by rw [k1, k2]; omega)
      rw [this, eq_raw hx, tv_one, k1]
      have := hn.upper h2
      constructor <;> intro k <;> rw [k] <;> constructor <;> intro _ <;> omega
    · simp only [h2, if_false] at h
      obtain ⟨i, hi, h⟩ := bindOk h
      obtain ⟨f, hf, h⟩ := bindOk h
      obtain ⟨j, hj, h⟩ := bindOk h
      obtain ⟨g, hg, h⟩ := bindOk h
      cases h
      obtain ⟨a, ha, hav⟩ := hn.gt (.inr h2)
      have k1 := (atLeast_raw (t := t) (α := α) (w := fun _ => 0) hi).1
      have k2 := (atLeast_raw (t := t) (α := α) (w := fun _ => 0) hj).1
      rw [raw_two, ge_raw hb, lt_raw ha] at k1
      rw [raw_two, lt_raw hb, ge_raw ha] at k2
      have k3 := tv_val hav
      have := both_ok (α := α) hf (r := condOf p .equal v) (by rw [condOf_not]; exact hg) (by rw [k1, k2]; omega)
      rw [this, eq_raw hx, tv_one, k1]
      constructor <;> intro k <;> rw [k] <;> constructor <;> intro _ <;> omega

/-- The rows defining `p = v` in the proof. -/
theorem eqRowsRed_ok {p : PVar} {v y : Int} {bounds : Option (Int × Int)} {x : XLit} {q : Row × Row} (hx : t.eq p v = some x) (hn : EqNeeds t α p v bounds y)
    (h : eqRowsRed t p v bounds = .ok q) : (q.1.Holds α ∧ q.2.Holds α) ↔ (x.Holds α ↔ y = v) := by
  unfold eqRowsRed at h
  obtain ⟨next, hnext, h⟩ := bindOk h
  have e := iAdd_eq hnext
  subst e
  obtain ⟨i, hi, h⟩ := bindOk h
  have k1 := (atLeast_raw (t := t) (α := α) (w := fun _ => 0) hi).1
  rw [red_ok h, eq_raw hx, tv_one, k1]
  clear k1 hi h
  by_cases h1 : bounds.map Prod.fst = some v
  · rw [if_pos h1]
    obtain ⟨a, ha, hav⟩ := hn.gt (.inl h1)
    have k3 := tv_val hav
    rw [raw_one, lt_raw ha]
    have := hn.lower h1
    constructor <;> intro k <;> rw [k] <;> constructor <;> intro _ <;> omega
  · rw [if_neg h1]
    obtain ⟨b, hb, hbv⟩ := hn.ge h1
    have k4 := tv_val hbv
    by_cases h2 : bounds.map Prod.snd = some v
    · rw [if_pos h2, raw_one, ge_raw hb]
      have := hn.upper h2
      constructor <;> intro k <;> rw [k] <;> constructor <;> intro _ <;> omega
    · rw [if_neg h2]
      obtain ⟨a, ha, hav⟩ := hn.gt (.inr h2)
      have k3 := tv_val hav
      rw [raw_two, ge_raw hb, lt_raw ha]
      constructor <;> intro k <;> rw [k] <;> constructor <;> intro _ <;> omega

/-- The rows defining `lo ≤ p ≤ hi`. -/
theorem withinRows_ok {p : PVar} {lo hi y : Int} {x a b : XLit} {q : Row × Row} (hlt : lo < hi) (hx : t.within p lo hi = some x) (ha : t.ge p lo = some a) (hb : t.ge p (hi + 1) = some b)
    (hav : a.Holds α ↔ lo ≤ y) (hbv : b.Holds α ↔ hi + 1 ≤ y) (h : withinRows t p lo hi = .ok q) : (q.1.Holds α ∧ q.2.Holds α) ↔ (x.Holds α ↔ lo ≤ y ∧ y ≤ hi) := by
  unfold withinRows at h
  obtain ⟨next, hnext, h⟩ := bindOk h
  have e := iAdd_eq hnext
  subst e
  obtain ⟨i, hi', h⟩ := bindOk h
  have k1 := (atLeast_raw (t := t) (α := α) (w := fun _ => 0) hi').1
  rw [red_ok h, in_raw hlt hx, tv_one, k1, raw_two, ge_raw ha, lt_raw hb]
  have k3 := tv_val hav
  have k4 := tv_val hbv
  constructor <;> intro k <;> rw [k] <;> constructor <;> intro _ <;> omega

/-! ## Bounds, views, direct encodings -/

theorem negBits_sum : ∀ {b n : Bits}, (b.mapM fun (x : Int × XLit) => match x with | (c, x) => (do return (← iNeg c, x) : Chk (Int × XLit))) = .ok n → sum α n = - sum α b := by
  intro b
  induction b with
  | nil => intro n h; cases h; rfl
  | cons x xs ih =>
    obtain ⟨c, x⟩ := x
    intro n h
    rw [List.mapM_cons] at h
    obtain ⟨y, hy, h⟩ := bindOk h
    obtain ⟨ys, hys, h⟩ := bindOk h
    obtain ⟨m, hm, hy⟩ := bindOk hy
    cases hy
    cases h
    have := ih hys
    rw [sum_cons, sum_cons, iNeg_eq hm, this, Int.neg_mul]; omega

theorem boundRows_ok {b : Bits} {l u : Int} {q : Row × Row} (h : boundRows b l u = .ok q) : (q.1.Holds α ∧ q.2.Holds α) ↔ (l ≤ sum α b ∧ sum α b ≤ u) := by
  unfold boundRows at h
  obtain ⟨n, hn, h⟩ := bindOk h
  obtain ⟨m, hm, h⟩ := bindOk h
  cases h
  have h1 := negBits_sum (α := α) hn
  have h2 := iNeg_eq hm
  unfold Row.Holds
  dsimp only
  omega

theorem viewRows_ok {k i : Nat} {neg : Bool} {add : Int} {bk bi : Bits} {q : Row × Row} (hk : t.bits (.aux k) = some bk) (hi : t.bits (.real i) = some bi)
    (h : viewRows t k i neg add = .ok q) : (q.1.Holds α ∧ q.2.Holds α) ↔ sum α bk = (if neg then - sum α bi else sum α bi) + add := by
  unfold viewRows addEquality at h
  obtain ⟨f, hf, h⟩ := bindOk h
  obtain ⟨j, hj, h⟩ := bindOk h
  obtain ⟨g, hg, h⟩ := bindOk h
  cases h
  have h1 := emit_ok (α := α) (show emitInequality t _ = .ok f from hf)
  have h2 := emit_ok (α := α) (show emitInequality t _ = .ok g from hg)
  have h3 := (atLeast_raw (t := t) (α := α) (w := fun _ => 0) hj).1
  simp only [rawTotal, rawTerm, rawBits_of hk, rawBits_of hi] at h1 h3
  rw [h1, h2, h3]
  cases neg <;> simp <;> omega

theorem viewRows_bits {k i : Nat} {neg : Bool} {add : Int} {q : Row × Row} (h : viewRows t k i neg add = .ok q) : ∃ b, t.bits (.real i) = some b := by
  unfold viewRows addEquality at h
  obtain ⟨f, hf, h⟩ := bindOk h
  unfold addConstraint emitInequality at hf
  obtain ⟨n, hn, hf⟩ := bindOk hf
  obtain ⟨z, hz, hf⟩ := bindOk hf
  dsimp only at hz
  rw [emitTerms, if_neg (by decide)] at hz
  obtain ⟨⟨o, r⟩, hy, hz⟩ := bindOk hz
  dsimp only at hz
  rw [emitTerms, if_neg (by cases neg <;> decide)] at hz
  obtain ⟨y', hy', hz⟩ := bindOk hz
  simp only [appendOrFold] at hy'
  obtain ⟨b, hb, _⟩ := bindOk hy'
  exact ⟨b, eachBit_ok hb⟩

theorem mem_valuesBetween {l u v : Int} : v ∈ valuesBetween l u ↔ l ≤ v ∧ v ≤ u := by
  unfold valuesBetween
  rw [List.mem_map]
  constructor
  · rintro ⟨k, hk, rfl⟩
    rw [List.mem_range] at hk
    omega
  · rintro ⟨h1, h2⟩
    exact ⟨(v - l).toNat, List.mem_range.2 (by omega), by omega⟩

theorem valuesBetween_nodup (l u : Int) : (valuesBetween l u).Nodup := by
  unfold valuesBetween
  rw [List.nodup_iff_pairwise_ne, List.pairwise_map]
  have := List.nodup_range (n := (u - l + 1).toNat)
  rw [List.nodup_iff_pairwise_ne] at this
  exact this.imp fun h e => h (by omega)

/-- How many of the literals are true. -/
theorem count_rows {p : PVar} (vs : List Int) (hn : vs.Nodup) :
    0 ≤ sum α (vs.map fun v => (1, ⟨.eq p v, false⟩)) ∧
    (1 ≤ sum α (vs.map fun v => (1, ⟨.eq p v, false⟩)) ↔ ∃ v ∈ vs, α (.eq p v) = true) ∧
    (sum α (vs.map fun v => (1, ⟨.eq p v, false⟩)) ≤ 1 ↔ ∀ v ∈ vs, ∀ v' ∈ vs, α (.eq p v) = true → α (.eq p v') = true → v = v') ∧
    sum α (vs.map fun v => (-1, ⟨.eq p v, false⟩)) = - sum α (vs.map fun v => (1, ⟨.eq p v, false⟩)) := by
  induction vs with
  | nil => simp [sum]
  | cons v vs ih =>
    rw [List.nodup_cons] at hn
    obtain ⟨i1, i2, i3, i4⟩ := ih hn.2
    simp only [List.map_cons, sum_cons]
    generalize sum α (vs.map fun v => (1, ⟨.eq p v, false⟩)) = s at *
    generalize sum α (vs.map fun v => (-1, ⟨.eq p v, false⟩)) = s' at *
    by_cases hv : α (.eq p v) = true
    · have e : tv α ⟨.eq p v, false⟩ = 1 := tv_one.2 (by simp [XLit.Holds, hv])
      rw [e]
      refine ⟨by omega, ⟨fun _ => ⟨v, List.mem_cons_self .., hv⟩, fun _ => by omega⟩, ⟨fun h a ha b hb h1 h2 => ?_, fun h => ?_⟩, by omega⟩
      · have none : ∀ c ∈ vs, ¬ α (.eq p c) = true := fun c hc k => by have := i2.2 ⟨c, hc, k⟩; omega
        rcases List.mem_cons.1 ha with e | ha'
        · rcases List.mem_cons.1 hb with e' | hb'
          · rw [e, e']
          · exact absurd h2 (none _ hb')
        · exact absurd h1 (none _ ha')
      · have : ¬ 1 ≤ s := fun k => by
          obtain ⟨c, hc, k⟩ := i2.1 k
          have := h v (List.mem_cons_self ..) c (List.mem_cons_of_mem _ hc) hv k
          exact hn.1 (this ▸ hc)
        omega
    · have e : tv α ⟨.eq p v, false⟩ = 0 := by unfold tv; rw [if_neg]; simp [XLit.Holds, hv]
      rw [e]
      refine ⟨by omega, ?_, ?_, by omega⟩
      · rw [show 1 * 0 + s = s by omega, i2]
        constructor
        · rintro ⟨c, hc, k⟩; exact ⟨c, List.mem_cons_of_mem _ hc, k⟩
        · rintro ⟨c, hc, k⟩
          rcases List.mem_cons.1 hc with rfl | hc
          · exact absurd k hv
          · exact ⟨c, hc, k⟩
      · rw [show 1 * 0 + s = s by omega, i3]
        constructor
        · intro h a ha b hb h1 h2
          rcases List.mem_cons.1 ha with rfl | ha
          · exact absurd h1 hv
          rcases List.mem_cons.1 hb with rfl | hb
          · exact absurd h2 hv
          exact h a ha b hb h1 h2
        · intro h a ha b hb
          exact h a (List.mem_cons_of_mem _ ha) b (List.mem_cons_of_mem _ hb)

/-- The rows of a direct encoding say that there is exactly one value. -/
theorem directRows_ok {p : PVar} {l u : Int} :
    ((directRows p l u).1.Holds α ∧ (directRows p l u).2.Holds α) ↔ ∃ y, (l ≤ y ∧ y ≤ u) ∧ ∀ v, l ≤ v ∧ v ≤ u → (α (.eq p v) = true ↔ y = v) := by
  obtain ⟨h1, h2, h3, h4⟩ := count_rows (α := α) (p := p) _ (valuesBetween_nodup l u)
  unfold Row.Holds directRows
  dsimp only
  rw [h4, h2, show ∀ s : Int, -1 ≤ -s ↔ s ≤ 1 from fun s => by omega, h3]
  constructor
  · rintro ⟨⟨y, hy, k⟩, hu⟩
    refine ⟨y, mem_valuesBetween.1 hy, fun v hv => ⟨fun e => hu y hy v (mem_valuesBetween.2 hv) k e, fun e => e ▸ k⟩⟩
  · rintro ⟨y, hy, k⟩
    refine ⟨⟨y, mem_valuesBetween.2 hy, (k y hy).2 rfl⟩, fun a ha b hb h1 h2 => ?_⟩
    rw [← (k a (mem_valuesBetween.1 ha)).1 h1, ← (k b (mem_valuesBetween.1 hb)).1 h2]

end Gcs.Pb
