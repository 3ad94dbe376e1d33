import Verif.Spec.Pb

/-! Rendering inequalities as rows: what the row says about the 0/1 variables, whatever the literals mean. -/

namespace Gcs.Pb

/-! ## Arithmetic that did not throw is exact -/

theorem bindOk {α β : Type} {x : Chk α} {f : α → Chk β} {r : β} (h : (x >>= f) = .ok r) : ∃ a, x = .ok a ∧ f a = .ok r := by
  cases x with
  | error e => cases h
  | ok a => exact ⟨a, rfl, h⟩

theorem rawOut_eq {m x r : Int} (h : rawOut m x = .ok r) : r = x := by
  unfold rawOut at h; split at h
  · cases h; rfl
  · cases h

theorem iAdd_eq {a b r : Int} (h : iAdd a b = .ok r) : r = a + b := by
  unfold iAdd throwIf at h
  obtain ⟨o, ho, h⟩ := bindOk h
  cases o with
  | none => cases h
  | some v =>
    cases h
    unfold addOverflows at ho
    split at ho
    · obtain ⟨y, _, ho⟩ := bindOk ho
      split at ho
      · cases ho
      · obtain ⟨z, hz, ho⟩ := bindOk ho
        cases ho; exact rawOut_eq hz
    · obtain ⟨y, _, ho⟩ := bindOk ho
      split at ho
      · cases ho
      · obtain ⟨z, hz, ho⟩ := bindOk ho
        cases ho; exact rawOut_eq hz

theorem iSub_eq {a b r : Int} (h : iSub a b = .ok r) : r = a - b := by
  unfold iSub throwIf at h
  obtain ⟨o, ho, h⟩ := bindOk h
  cases o with
  | none => cases h
  | some v =>
    cases h
    unfold subOverflows at ho
    split at ho
    · obtain ⟨y, _, ho⟩ := bindOk ho
      split at ho
      · cases ho
      · obtain ⟨z, hz, ho⟩ := bindOk ho
        cases ho; exact rawOut_eq hz
    · obtain ⟨y, _, ho⟩ := bindOk ho
      split at ho
      · cases ho
      · obtain ⟨z, hz, ho⟩ := bindOk ho
        cases ho; exact rawOut_eq hz

theorem iMul_eq {a b r : Int} (h : iMul a b = .ok r) : r = a * b := by
  unfold iMul throwIf at h
  obtain ⟨o, ho, h⟩ := bindOk h
  cases o with
  | none => cases h
  | some v =>
    cases h
    have key : ∀ {x : Chk OvResult}, x = .ok (some r) → x = (do return some (← rawMul i64Max a b)) → r = a * b := by
      intro x h1 h2
      rw [h1] at h2
      obtain ⟨z, hz, h2⟩ := bindOk h2.symm
      cases h2; exact rawOut_eq hz
    unfold mulOverflows at ho
    split at ho <;> split at ho
    all_goals first
      | (obtain ⟨y, _, ho⟩ := bindOk ho
         split at ho
         · cases ho
         · exact key ho rfl)
      | (split at ho
         · obtain ⟨y, _, ho⟩ := bindOk ho
           split at ho
           · cases ho
           · exact key ho rfl
         · exact key ho rfl)

theorem iNeg_eq {a r : Int} (h : iNeg a = .ok r) : r = -a := by
  unfold iNeg at h; split at h
  · cases h
  · exact rawOut_eq h

theorem iAbs_eq {a r : Int} (h : iAbs a = .ok r) : r = a.natAbs := by
  unfold iAbs at h; split at h
  · cases h
  · exact rawOut_eq h

/-! ## Sums -/

variable {t : Tracker} {α : Bools}

theorem sum_append (a b : List (Int × XLit)) : sum α (a ++ b) = sum α a + sum α b := by
  induction a with
  | nil => simp [sum]
  | cons x xs ih => obtain ⟨c, x⟩ := x; simp only [List.cons_append, sum, ih]; omega

theorem holds_not (x : XLit) : x.not.Holds α ↔ ¬ x.Holds α := by
  unfold XLit.Holds XLit.not
  cases α x.var <;> cases x.neg <;> simp

theorem not_not (x : XLit) : x.not.not = x := by cases x; simp [XLit.not]

/-- 1 or 0 -/
def tv (α : Bools) (x : XLit) : Int := if x.Holds α then 1 else 0

theorem tv_not (x : XLit) : tv α x.not = 1 - tv α x := by
  unfold tv
  by_cases h : x.Holds α
  · rw [if_neg (by rw [holds_not]; exact fun k => k h), if_pos h]; rfl
  · rw [if_pos (by rw [holds_not]; exact h), if_neg h]; rfl

theorem tv_01 (x : XLit) : 0 ≤ tv α x ∧ tv α x ≤ 1 := by unfold tv; split <;> omega

theorem sum_single (c : Int) (x : XLit) : sum α [(c, x)] = c * tv α x := by
  unfold sum tv; split <;> simp [sum]

theorem sum_cons (c : Int) (x : XLit) (l) : sum α ((c, x) :: l) = c * tv α x + sum α l := by
  unfold tv; rw [sum]; split <;> simp

theorem bitTerms_sum {c : Int} : ∀ {b r}, bitTerms c b = .ok r → sum α r = c * sum α b := by
  intro b
  induction b with
  | nil => intro r h; cases h; simp [sum]
  | cons x xs ih =>
    obtain ⟨k, x⟩ := x
    intro r h
    rw [bitTerms] at h
    obtain ⟨m, hm, h⟩ := bindOk h
    obtain ⟨q, hq, h⟩ := bindOk h
    cases h
    rw [sum_cons, sum_cons, ih hq, iMul_eq hm, Int.mul_add, Int.mul_assoc]

/-! ## What a term stands for -/

/-- The literal of a literal, as the row has it. -/
def rawSimple (t : Tracker) (α : Bools) : SLit → Int
  | .tt => 1
  | .ff => 0
  | .cond p op v u => match t.find p op v u with | .ok x => tv α x | .error _ => 0

def rawItem (t : Tracker) (α : Bools) : PItem → Int
  | .lit l => match simplifyLiteral t l with | .ok s => rawSimple t α s | .error _ => 0
  | .flag n b => tv α ⟨.flag n, !b⟩
  | .bit p k b => match t.getBit p k b with | .ok x => tv α x | .error _ => 0

def rawBits (t : Tracker) (α : Bools) (p : PVar) : Int := match t.bits p with | some b => sum α b | none => 0

def rawTerm (t : Tracker) (α : Bools) : Term → Int
  | .item i => rawItem t α i
  | .aux i => rawBits t α (.aux i)
  | .var (.simple i) => rawBits t α (.real i)
  | .var (.view i neg add) =>
    match t.view i neg add with
    | some k => rawBits t α (.aux k)
    | none => (if neg then - rawBits t α (.real i) else rawBits t α (.real i)) + add
  | .var (.const c) => c

def rawTotal (t : Tracker) (α : Bools) : List (Int × Term) → Int
  | [] => 0
  | (c, v) :: ts => c * rawTerm t α v + rawTotal t α ts

theorem rawTotal_append (a b) : rawTotal t α (a ++ b) = rawTotal t α a + rawTotal t α b := by
  induction a with
  | nil => simp [rawTotal]
  | cons x xs ih => obtain ⟨c, x⟩ := x; simp only [List.cons_append, rawTotal, ih]; omega

theorem eachBit_ok {p : PVar} {b : Bits} (h : t.eachBit p = .ok b) : t.bits p = some b := by
  unfold Tracker.eachBit at h
  cases e : t.bits p with
  | none => rw [e] at h; cases h
  | some c => rw [e] at h; cases h; rfl

theorem rawBits_of {p : PVar} {b : Bits} (h : t.bits p = some b) : rawBits t α p = sum α b := by unfold rawBits; rw [h]

theorem rawSimple_01 (s : SLit) : 0 ≤ rawSimple t α s ∧ rawSimple t α s ≤ 1 := by
  cases s with
  | tt => simp [rawSimple]
  | ff => simp [rawSimple]
  | cond p op v u =>
    simp only [rawSimple]
    cases e : t.find p op v u with
    | ok x => simp only []; exact tv_01 x
    | error e => simp

theorem rawItem_01 (i : PItem) : 0 ≤ rawItem t α i ∧ rawItem t α i ≤ 1 := by
  cases i with
  | lit l =>
    simp only [rawItem]
    cases simplifyLiteral t l with
    | ok s => simp only []; exact rawSimple_01 s
    | error e => simp
  | flag n b => exact tv_01 _
  | bit p k b =>
    simp only [rawItem]
    cases t.getBit p k b with
    | ok x => simp only []; exact tv_01 x
    | error e => simp

/-- The row so far, as a number: sum minus degree. -/
theorem appendOrFold_ok {w : Int} {v : Term} {out : List (Int × XLit)} {rhs : Int} {r : List (Int × XLit) × Int} (h : appendOrFold t w v out rhs = .ok r) :
    sum α r.1 - r.2 = sum α out - rhs - w * rawTerm t α v := by
  have bitsCase : ∀ (p : PVar), (do
      let bits ← t.eachBit p
      return (out ++ (← bitTerms (← iNeg w) bits), rhs) : Chk _) = .ok r → sum α r.1 - r.2 = sum α out - rhs - w * rawBits t α p := by
    intro p h
    obtain ⟨b, hb, h⟩ := bindOk h
    obtain ⟨n, hn, h⟩ := bindOk h
    obtain ⟨q, hq, h⟩ := bindOk h
    cases h
    simp only [sum_append, bitTerms_sum hq, iNeg_eq hn, rawBits_of (eachBit_ok hb), Int.neg_mul]
    omega
  unfold appendOrFold at h
  split at h
  · rename_i l
    obtain ⟨s, hs, h⟩ := bindOk h
    simp only [rawTerm, rawItem, hs]
    cases s with
    | tt =>
      obtain ⟨q, hq, h⟩ := bindOk h
      cases h
      simp only [rawSimple, iAdd_eq hq]; omega
    | ff => cases h; simp only [rawSimple]; omega
    | cond p op v u =>
      obtain ⟨n, hn, h⟩ := bindOk h
      obtain ⟨x, hx, h⟩ := bindOk h
      cases h
      simp only [rawSimple, hx, sum_append, sum_single, iNeg_eq hn, Int.neg_mul]; omega
  · obtain ⟨n, hn, h⟩ := bindOk h
    cases h
    simp only [rawTerm, rawItem, sum_append, sum_single, iNeg_eq hn, Int.neg_mul]; omega
  · obtain ⟨x, hx, h⟩ := bindOk h
    obtain ⟨n, hn, h⟩ := bindOk h
    cases h
    simp only [rawTerm, rawItem, hx, sum_append, sum_single, iNeg_eq hn, Int.neg_mul]; omega
  · exact bitsCase _ h
  · exact bitsCase _ h
  · rename_i i neg add
    simp only [rawTerm]
    split at h
    · rename_i k hk
      simp only [hk]
      exact bitsCase _ h
    · rename_i hk
      simp only [hk]
      cases neg with
      | true =>
        rw [if_pos rfl] at h
        obtain ⟨b, hb, h⟩ := bindOk h
        obtain ⟨q, hq, h⟩ := bindOk h
        obtain ⟨m, hm, h⟩ := bindOk h
        obtain ⟨z, hz, h⟩ := bindOk h
        cases h
        simp only [sum_append, bitTerms_sum hq, rawBits_of (eachBit_ok hb), iAdd_eq hz, iMul_eq hm, Int.mul_add, if_true, Int.mul_neg]
        omega
      | false =>
        rw [if_neg (by decide)] at h
        obtain ⟨b, hb, h⟩ := bindOk h
        obtain ⟨n, hn, h⟩ := bindOk h
        obtain ⟨q, hq, h⟩ := bindOk h
        obtain ⟨m, hm, h⟩ := bindOk h
        obtain ⟨z, hz, h⟩ := bindOk h
        cases h
        rw [if_neg (by decide)]
        simp only [sum_append, bitTerms_sum hq, iNeg_eq hn, rawBits_of (eachBit_ok hb), iAdd_eq hz, iMul_eq hm, Int.mul_add, Int.neg_mul]
        omega
  · obtain ⟨m, hm, h⟩ := bindOk h
    obtain ⟨z, hz, h⟩ := bindOk h
    cases h
    simp only [rawTerm, iAdd_eq hz, iMul_eq hm]; omega

theorem emitTerms_ok : ∀ (l : List (Int × Term)) {out : List (Int × XLit)} {rhs : Int} {r : List (Int × XLit) × Int}, emitTerms t l out rhs = .ok r →
    sum α r.1 - r.2 = sum α out - rhs - rawTotal t α l := by
  intro l
  induction l with
  | nil => intro out rhs r h; cases h; simp [rawTotal]
  | cons x xs ih =>
    obtain ⟨w, v⟩ := x
    intro out rhs r h
    rw [emitTerms] at h
    split at h
    · rename_i hw
      rw [ih h, rawTotal, hw, Int.zero_mul]; omega
    · obtain ⟨q, hq, h⟩ := bindOk h
      have := ih h
      have := appendOrFold_ok (α := α) hq
      rw [rawTotal]; omega

/-- A row says that the sum is at most the right hand side. -/
theorem emit_ok {i : Ineq} {row : Row} (h : emitInequality t i = .ok row) : row.Holds α ↔ rawTotal t α i.lhs ≤ i.rhs := by
  unfold emitInequality at h
  obtain ⟨n, hn, h⟩ := bindOk h
  obtain ⟨q, hq, h⟩ := bindOk h
  cases h
  have := emitTerms_ok (α := α) _ hq
  have e : sum α [] = 0 := rfl
  have := iNeg_eq hn
  unfold Row.Holds
  dsimp only
  omega

/-! ## Reification -/

theorem positiveBits_ok {c : Int} : ∀ {b : Bits} {m r : Int}, positiveBits c b m = .ok r → m ≤ r ∧ m + c * sum α b ≤ r := by
  intro b
  induction b with
  | nil => intro m r h; cases h; simp [sum]
  | cons x xs ih =>
    obtain ⟨k, x⟩ := x
    intro m r h
    rw [positiveBits] at h
    obtain ⟨q, hq, h⟩ := bindOk h
    obtain ⟨n, hn, h⟩ := bindOk h
    have h1 := ih h
    have h2 := iAdd_eq hn
    have h3 := iMul_eq hq
    rw [sum]
    split
    · rw [Int.mul_add, ← h3]; omega
    · rw [Int.zero_add]; omega

theorem rawMul_le (w : Int) {y : Int} (h : 0 ≤ y ∧ y ≤ 1) : w * y ≤ max 0 w := by
  have : y = 0 ∨ y = 1 := by omega
  rcases this with rfl | rfl <;> simp <;> omega

theorem maxContribution_ok {w : Int} {v : Term} {m r : Int} (h : maxContribution t w v m = .ok r) : m ≤ r ∧ m + w * rawTerm t α v ≤ r := by
  unfold maxContribution at h
  split at h
  · rename_i i
    have := iAdd_eq h
    have := rawMul_le w (rawItem_01 (t := t) (α := α) i)
    simp only [rawTerm]; omega
  · obtain ⟨b, hb, h⟩ := bindOk h
    have := positiveBits_ok (α := α) h
    simp only [rawTerm]; rw [rawBits_of (eachBit_ok hb)]; exact this
  · obtain ⟨b, hb, h⟩ := bindOk h
    have := positiveBits_ok (α := α) h
    simp only [rawTerm]; rw [rawBits_of (eachBit_ok hb)]; exact this
  · rename_i i neg add
    simp only [rawTerm]
    split at h
    · rename_i k hk
      simp only [hk]
      obtain ⟨b, hb, h⟩ := bindOk h
      have := positiveBits_ok (α := α) h
      rw [rawBits_of (eachBit_ok hb)]; exact this
    · rename_i hk
      simp only [hk]
      cases neg with
      | true =>
        rw [if_pos rfl] at h
        obtain ⟨n, hn, h⟩ := bindOk h
        obtain ⟨b, hb, h⟩ := bindOk h
        obtain ⟨m', hm', h⟩ := bindOk h
        obtain ⟨z, hz, h⟩ := bindOk h
        have h1 := positiveBits_ok (α := α) hm'
        have h2 := iAdd_eq h
        have h3 := iMul_eq hz
        rw [iNeg_eq hn, Int.neg_mul] at h1
        rw [if_pos rfl, rawBits_of (eachBit_ok hb), Int.mul_add, Int.mul_neg, ← h3]
        omega
      | false =>
        rw [if_neg (by decide)] at h
        obtain ⟨b, hb, h⟩ := bindOk h
        obtain ⟨m', hm', h⟩ := bindOk h
        obtain ⟨z, hz, h⟩ := bindOk h
        have h1 := positiveBits_ok (α := α) hm'
        have h2 := iAdd_eq h
        have h3 := iMul_eq hz
        rw [if_neg (by decide), rawBits_of (eachBit_ok hb), Int.mul_add, ← h3]
        omega
  · obtain ⟨z, hz, h⟩ := bindOk h
    have h2 := iAdd_eq h
    have h3 := iMul_eq hz
    simp only [rawTerm]; rw [← h3]; omega

theorem maxContributions_ok : ∀ (l : List (Int × Term)) {m r : Int}, maxContributions t l m = .ok r → m ≤ r ∧ m + rawTotal t α l ≤ r := by
  intro l
  induction l with
  | nil => intro m r h; cases h; simp [rawTotal]
  | cons x xs ih =>
    obtain ⟨w, v⟩ := x
    intro m r h
    rw [maxContributions] at h
    obtain ⟨q, hq, h⟩ := bindOk h
    have := ih h
    have := maxContribution_ok (α := α) hq
    rw [rawTotal]; omega

/-! ### Negation -/

theorem find_not (t : Tracker) {p : PVar} {op : CondOp} {v u u' : Int} (hu : isRangeOp op = true → u' = u) :
    t.find p (notOp op) v u' = (t.find p op v u).map XLit.not := by
  unfold Tracker.find
  cases op <;> dsimp only [notOp]
  · cases t.eq p v <;> rfl
  · cases t.eq p v <;> simp [Except.map, not_not]
  · cases t.ge p v <;> rfl
  · cases t.ge p v <;> simp [Except.map, not_not]
  · rw [hu rfl]; cases t.within p v u <;> rfl
  · rw [hu rfl]; cases t.within p v u <;> simp [Except.map, not_not]

/-- One is the negation of the other. -/
inductive SNot : SLit → SLit → Prop where
  | tt : SNot .tt .ff
  | ff : SNot .ff .tt
  | cond {p op v u op' u'} : (∀ t : Tracker, t.find p op' v u' = (t.find p op v u).map XLit.not) → SNot (.cond p op v u) (.cond p op' v u')

/-- The negation is simplified to the negation, or fails in the same way. -/
def Opposite (x y : Chk SLit) : Prop := (∃ e, x = .error e ∧ y = .error e) ∨ ∃ s s', x = .ok s ∧ y = .ok s' ∧ SNot s s'

theorem Opposite.ok {s s' : SLit} (h : SNot s s') : Opposite (.ok s) (.ok s') := .inr ⟨s, s', rfl, rfl, h⟩

theorem opposite_bind {x : Chk Int} {f g : Int → Chk SLit} (h : ∀ v, Opposite (f v) (g v)) : Opposite (x >>= f) (x >>= g) := by
  cases x with
  | error e => exact .inl ⟨e, rfl, rfl⟩
  | ok a => exact h a

theorem opposite_ofBool (p q : Prop) [Decidable p] [Decidable q] (h : q ↔ ¬ p) : SNot (ofBool p) (ofBool q) := by
  unfold ofBool
  by_cases hp : p
  · have hq : ¬ q := fun k => (h.1 k) hp
    simp only [hp, hq, decide_true, decide_false]
    exact .tt
  · have hq : q := h.2 hp
    simp only [hp, hq, decide_true, decide_false]
    exact .ff

theorem snot_cond {p : PVar} {op : CondOp} {v u u' : Int} (hu : isRangeOp op = true → u' = u) : SNot (.cond p op v u) (.cond p (notOp op) v u') :=
  .cond fun t => find_not t hu

theorem snot_plain {p : PVar} {op : CondOp} {v u u' : Int} (hu : isRangeOp op = true → u' = u) :
    SNot (if isRangeOp op then canonicaliseRange p op v u else .cond p op v u)
      (if isRangeOp (notOp op) then canonicaliseRange p (notOp op) v u' else .cond p (notOp op) v u') := by
  cases op <;> simp only [isRangeOp, notOp] at hu ⊢
  · exact snot_cond (op := .equal) fun h => nomatch h
  · exact snot_cond (op := .notEqual) fun h => nomatch h
  · exact snot_cond (op := .greaterEqual) fun h => nomatch h
  · exact snot_cond (op := .less) fun h => nomatch h
  · have e := hu (by decide)
    subst e
    simp only [canonicaliseRange, decide_true, Bool.or_true, Bool.true_or, if_true, reduceCtorEq, if_false]
    split
    · exact .ff
    · split
      · exact snot_cond (op := .equal) fun h => nomatch h
      · exact snot_cond (op := .inRange) fun h => rfl
  · have e := hu (by decide)
    subst e
    simp only [canonicaliseRange, decide_true, Bool.or_true, Bool.true_or, if_true, reduceCtorEq, if_false]
    split
    · exact .tt
    · split
      · exact snot_cond (op := .notEqual) fun h => nomatch h
      · exact snot_cond (op := .notInRange) fun h => rfl

theorem cond_not_eq (c : Cond) : c.not = ⟨c.var, notOp c.op, c.value, if isRangeOp c.op then c.upper else 0⟩ := by
  obtain ⟨v, op, x, u⟩ := c
  cases op <;> rfl

theorem simplify_not (l : PLit) : ∃ l', PItem.not (.lit l) = .lit l' ∧ Opposite (simplifyLiteral t l) (simplifyLiteral t l') := by
  cases l with
  | aux i op v u => exact ⟨_, rfl, .ok (snot_plain fun _ => rfl)⟩
  | lit l =>
    refine ⟨_, rfl, ?_⟩
    cases l with
    | tt => exact .ok .tt
    | ff => exact .ok .ff
    | cond c =>
      obtain ⟨v, op, x, u⟩ := c
      simp only [Lit.not, cond_not_eq, simplifyLiteral]
      cases v with
      | simple i => exact .ok (snot_plain fun h => by rw [if_pos h])
      | const k =>
        apply Opposite.ok
        cases op <;> simp only [notOp, isRangeOp] <;> apply opposite_ofBool
        · exact Iff.rfl
        · simp
        · omega
        · omega
        · simp only [decide_true, Bool.or_true, Bool.true_or, if_true]; omega
        · simp only [decide_true, Bool.or_true, Bool.true_or, if_true]; omega
      | view i neg add =>
        dsimp only
        have er : isRangeOp (notOp op) = isRangeOp op := by cases op <;> rfl
        rw [er]
        by_cases hr : isRangeOp op = true
        · rw [if_pos hr, if_pos hr]; exact .inl ⟨_, rfl, rfl⟩
        · rw [if_neg hr, if_neg hr]
          cases t.view i neg add with
          | some k => exact .ok (snot_cond fun h => absurd h hr)
          | none =>
            cases op <;> dsimp only [notOp]
            · cases neg
              · exact opposite_bind fun v => .ok (snot_cond (op := .equal) fun h => nomatch h)
              · exact opposite_bind fun a => opposite_bind fun v => .ok (snot_cond (op := .equal) fun h => nomatch h)
            · cases neg
              · exact opposite_bind fun v => .ok (snot_cond (op := .notEqual) fun h => nomatch h)
              · exact opposite_bind fun a => opposite_bind fun v => .ok (snot_cond (op := .notEqual) fun h => nomatch h)
            · cases neg
              · exact opposite_bind fun v => .ok (snot_cond (op := .greaterEqual) fun h => nomatch h)
              · exact opposite_bind fun a => opposite_bind fun b => opposite_bind fun v => .ok (snot_cond (op := .less) fun h => nomatch h)
            · cases neg
              · exact opposite_bind fun v => .ok (snot_cond (op := .less) fun h => nomatch h)
              · exact opposite_bind fun a => opposite_bind fun b => opposite_bind fun v => .ok (snot_cond (op := .greaterEqual) fun h => nomatch h)
            · exact absurd rfl hr
            · exact absurd rfl hr

/-- If the negation of an item could be written, its value is the opposite. -/
theorem rawItem_not {w : Int} {r : PItem} {out : List (Int × XLit)} {rhs : Int} {q} (h : appendOrFold t w (.item r.not) out rhs = .ok q) :
    rawItem t α r.not = 1 - rawItem t α r := by
  cases r with
  | flag n b =>
    have : (⟨.flag n, !!b⟩ : XLit) = (⟨.flag n, !b⟩ : XLit).not := rfl
    simp only [PItem.not, rawItem, this, tv_not]
  | bit p k b =>
    simp only [PItem.not, appendOrFold] at h
    obtain ⟨x, hx, h⟩ := bindOk h
    simp only [PItem.not, rawItem, hx]
    unfold Tracker.getBit at hx ⊢
    obtain ⟨bits, hb, hx⟩ := bindOk hx
    rw [hb]
    show tv α x = 1 - match (if k < 0 then .error .unexpected else match bits[k.toNat]? with | some (_, x) => pure (if b then x else x.not) | none => .error .unexpected : Chk XLit) with
      | .ok x => tv α x | .error _ => 0
    split at hx
    · cases hx
    · rename_i hk
      rw [if_neg hk]
      cases e : bits[k.toNat]? with
      | none => rw [e] at hx; cases hx
      | some y =>
        rw [e] at hx
        obtain ⟨_, y⟩ := y
        cases hx
        have hn := tv_not (α := α) y
        cases b
        · show tv α y = 1 - tv α y.not
          omega
        · show tv α y.not = 1 - tv α y
          exact hn
  | lit l =>
    obtain ⟨l', e, ho⟩ := simplify_not (t := t) l
    rw [e] at h ⊢
    simp only [appendOrFold] at h
    obtain ⟨s', hs', h⟩ := bindOk h
    rcases ho with ⟨_, _, he⟩ | ⟨s, s'', hs, hs'', hn⟩
    · rw [he] at hs'; cases hs'
    · rw [hs''] at hs'; cases hs'
      simp only [rawItem, hs, hs'']
      cases hn with
      | tt => simp [rawSimple]
      | ff => simp [rawSimple]
      | @cond p op v u op' u' hf =>
        obtain ⟨n, hn, h⟩ := bindOk h
        obtain ⟨x, hx, h⟩ := bindOk h
        have := hf t
        rw [hx] at this
        cases e : t.find p op v u with
        | error e' => rw [e] at this; cases this
        | ok y =>
          rw [e] at this
          cases this
          simp only [rawSimple, hx, e, tv_not]

/-- How many of the reifying items are false. -/
def falses (t : Tracker) (α : Bools) : Reifs → Int
  | [] => 0
  | r :: rs => (1 - rawItem t α r) + falses t α rs

theorem falses_nonneg (rs : Reifs) : 0 ≤ falses t α rs := by
  induction rs with
  | nil => exact Int.le_refl _
  | cons r rs ih => have := rawItem_01 (t := t) (α := α) r; rw [falses]; omega

theorem falses_zero (rs : Reifs) : falses t α rs = 0 ↔ ∀ r ∈ rs, rawItem t α r = 1 := by
  induction rs with
  | nil => simp [falses]
  | cons r rs ih =>
    have := rawItem_01 (t := t) (α := α) r
    have := falses_nonneg (t := t) (α := α) rs
    rw [falses, List.forall_mem_cons, ← ih]; omega

theorem emitTerms_append : ∀ (a b : List (Int × Term)) (out : List (Int × XLit)) (rhs : Int),
    emitTerms t (a ++ b) out rhs = (emitTerms t a out rhs >>= fun q => emitTerms t b q.1 q.2) := by
  intro a
  induction a with
  | nil => intro b out rhs; rfl
  | cons x xs ih =>
    obtain ⟨w, v⟩ := x
    intro b out rhs
    rw [List.cons_append, emitTerms, emitTerms]
    split
    · exact ih ..
    · cases appendOrFold t w v out rhs with
      | error e => rfl
      | ok q => exact ih ..

theorem reifs_total {k : Int} (hk : k ≠ 0) : ∀ (rs : Reifs) {out : List (Int × XLit)} {rhs : Int} {q},
    emitTerms t (rs.map fun r => (k, .item r.not)) out rhs = .ok q → rawTotal t α (rs.map fun r => (k, .item r.not)) = k * falses t α rs := by
  intro rs
  induction rs with
  | nil => intro out rhs q h; simp [rawTotal, falses]
  | cons r rs ih =>
    intro out rhs q h
    rw [List.map_cons, emitTerms, if_neg hk] at h
    obtain ⟨z, hz, h⟩ := bindOk h
    rw [List.map_cons, rawTotal, ih h, falses, Int.mul_add, rawTerm, rawItem_not hz]

theorem contains_false {rs : Reifs} (h : containsFalse rs = true) : ∃ r ∈ rs, rawItem t α r = 0 := by
  unfold containsFalse at h
  rw [List.any_eq_true] at h
  obtain ⟨r, hr, h⟩ := h
  refine ⟨r, hr, ?_⟩
  split at h
  · rename_i l
    unfold Lit.isLiterallyFalse at h
    cases l with
    | tt => cases h
    | ff => rfl
    | cond c =>
      obtain ⟨v, op, x, u⟩ := c
      cases v with
      | simple i => cases h
      | view i n a => cases h
      | const k =>
        cases op <;> simp only [Lit.isLiterallyTrueOrFalse, Bool.not_eq_true', decide_eq_false_iff_not] at h <;>
          simp only [rawItem, simplifyLiteral, ofBool, decide_eq_true_eq] <;> rw [if_neg h] <;> rfl
  · cases h

/-- A reified row says that the sum is at most the right hand side if everything it is reified on is true. -/
theorem reified_ok {i : Ineq} {rs : Reifs} {row : Row} (h : addConstraint t i (some rs) = .ok row) :
    row.Holds α ↔ ((∀ r ∈ rs, rawItem t α r = 1) → rawTotal t α i.lhs ≤ i.rhs) := by
  unfold addConstraint at h
  obtain ⟨i', hi, h⟩ := bindOk h
  rw [emit_ok h, ← falses_zero]
  unfold reify at hi
  obtain ⟨⟨k, e⟩, hs, hi⟩ := bindOk hi
  cases hi
  unfold reificationShape at hs
  obtain ⟨m, hm, hs⟩ := bindOk hs
  obtain ⟨n, hn, hs⟩ := bindOk hs
  obtain ⟨k', hk, hs⟩ := bindOk hs
  obtain ⟨e', he, hs⟩ := bindOk hs
  have hp : (min k' (-1), e') = (k, e) := by injection hs
  rw [Prod.mk.injEq] at hp
  obtain ⟨rfl, rfl⟩ := hp
  dsimp only at h ⊢
  have h1 := maxContributions_ok (α := α) _ hm
  have h2 := iAdd_eq hk
  have h3 := iNeg_eq hn
  rw [rawTotal_append]
  unfold emitInequality at h
  obtain ⟨d, hd, h⟩ := bindOk h
  obtain ⟨q, hq, h⟩ := bindOk h
  rw [emitTerms_append] at hq
  obtain ⟨z, hz, hq⟩ := bindOk hq
  rw [reifs_total (by omega) rs hq]
  have h4 := falses_nonneg (t := t) (α := α) rs
  have h5 : containsFalse rs = true → falses t α rs ≠ 0 := by
    intro hc e
    obtain ⟨r, hr, h0⟩ := contains_false (t := t) (α := α) hc
    have := (falses_zero rs).1 e r hr
    omega
  generalize falses t α rs = f at h4 h5 ⊢
  by_cases hf : f = 0
  · subst hf
    have : e' = i.rhs := by
      split at he
      · rename_i hc; exact absurd rfl (h5 hc)
      · cases he; rfl
    rw [Int.mul_zero]
    omega
  · have : min k' (-1) * f ≤ min k' (-1) := by
      have h6 : (1 : Int) ≤ f := by omega
      have := Int.mul_le_mul_of_nonpos_left (a := min k' (-1)) (by omega) h6
      omega
    have : i.rhs ≤ e' := by
      split at he
      · have := iAdd_eq he; omega
      · cases he; exact Int.le_refl _
    constructor
    · intro _ h; exact absurd h hf
    · intro _; omega

end Gcs.Pb
