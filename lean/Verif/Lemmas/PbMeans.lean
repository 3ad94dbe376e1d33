import Verif.Lemmas.PbEmit

/-! Rows under the intended meaning of literals, and the rows that give them this meaning. -/

namespace Gcs.Pb

variable {t : Tracker} {α : Bools} {w : Vals}

/-! ## Literals -/

def SLit.Holds (w : Vals) : SLit → Prop
  | .tt => True
  | .ff => False
  | .cond p op v u => op.holds v u (w p)

theorem canonical_holds {p : PVar} {op : CondOp} {v u : Int} (h : isRangeOp op = true) : (canonicaliseRange p op v u).Holds w ↔ op.holds v u (w p) := by
  unfold canonicaliseRange
  cases op <;> simp [isRangeOp] at h
  · split
    · exact ⟨False.elim, fun h => absurd h (by omega)⟩
    · split
      · show w p = v ↔ v ≤ w p ∧ w p ≤ u; omega
      · exact Iff.rfl
  · split
    · exact ⟨fun _ h => absurd h (by omega), fun _ => trivial⟩
    · split
      · show w p ≠ v ↔ ¬ (v ≤ w p ∧ w p ≤ u); omega
      · exact Iff.rfl

theorem plain_holds {p : PVar} {op : CondOp} {v u : Int} : (if isRangeOp op then canonicaliseRange p op v u else .cond p op v u : SLit).Holds w ↔ op.holds v u (w p) := by
  split
  · rename_i h; exact canonical_holds h
  · exact Iff.rfl

theorem ofBool_holds (p : Prop) [Decidable p] : (ofBool (decide p)).Holds w ↔ p := by
  unfold ofBool
  by_cases h : p <;> simp [h, SLit.Holds]

/-- Simplifying a literal keeps its meaning. -/
theorem simplify_sound (hv : ∀ i neg add k, t.view i neg add = some k → w (.aux k) = (VarId.view i neg add).eval w.asg) {l : PLit} {s : SLit}
    (h : simplifyLiteral t l = .ok s) : s.Holds w ↔ l.Holds w := by
  cases l with
  | aux i op v u => cases h; exact plain_holds
  | lit l =>
    cases l with
    | tt => cases h; exact Iff.rfl
    | ff => cases h; exact Iff.rfl
    | cond c =>
      obtain ⟨v, op, x, u⟩ := c
      simp only [simplifyLiteral] at h
      show _ ↔ op.holds x u (v.eval w.asg)
      cases v with
      | simple i => cases h; exact plain_holds
      | const k =>
        cases h
        cases op <;> simp only [ofBool_holds, CondOp.holds, VarId.eval] <;> omega
      | view i neg add =>
        dsimp only at h
        split at h
        · cases h
        · rename_i hr
          cases e : t.view i neg add with
          | some k =>
            rw [e] at h
            cases h
            have := hv _ _ _ _ e
            simp only [SLit.Holds, this]
            cases op <;> first | exact Iff.rfl | exact absurd rfl hr
          | none =>
            rw [e] at h
            have ev : w.asg i = w (.real i) := rfl
            cases op <;> cases neg <;> simp only [if_true, if_false, Bool.false_eq_true] at h
            · obtain ⟨b, hb, h⟩ := bindOk h
              cases h
              have := iSub_eq hb
              simp only [SLit.Holds, CondOp.holds, VarId.eval, ev, Bool.false_eq_true, if_false]; omega
            · obtain ⟨a, ha, h⟩ := bindOk h
              obtain ⟨b, hb, h⟩ := bindOk h
              cases h
              have := iNeg_eq ha
              have := iAdd_eq hb
              simp only [SLit.Holds, CondOp.holds, VarId.eval, ev, if_true]; omega
            · obtain ⟨b, hb, h⟩ := bindOk h
              cases h
              have := iSub_eq hb
              simp only [SLit.Holds, CondOp.holds, VarId.eval, ev, Bool.false_eq_true, if_false]; omega
            · obtain ⟨a, ha, h⟩ := bindOk h
              obtain ⟨b, hb, h⟩ := bindOk h
              cases h
              have := iNeg_eq ha
              have := iAdd_eq hb
              simp only [SLit.Holds, CondOp.holds, VarId.eval, ev, if_true]; omega
            · obtain ⟨b, hb, h⟩ := bindOk h
              cases h
              have := iSub_eq hb
              simp only [SLit.Holds, CondOp.holds, VarId.eval, ev, Bool.false_eq_true, if_false]; omega
            · obtain ⟨a, ha, h⟩ := bindOk h
              obtain ⟨b, hb, h⟩ := bindOk h
              obtain ⟨c, hc, h⟩ := bindOk h
              cases h
              have := iNeg_eq ha
              have := iAdd_eq hb
              have := iAdd_eq hc
              simp only [SLit.Holds, CondOp.holds, VarId.eval, ev, if_true]; omega
            · obtain ⟨b, hb, h⟩ := bindOk h
              cases h
              have := iSub_eq hb
              simp only [SLit.Holds, CondOp.holds, VarId.eval, ev, Bool.false_eq_true, if_false]; omega
            · obtain ⟨a, ha, h⟩ := bindOk h
              obtain ⟨b, hb, h⟩ := bindOk h
              obtain ⟨c, hc, h⟩ := bindOk h
              cases h
              have := iNeg_eq ha
              have := iAdd_eq hb
              have := iAdd_eq hc
              simp only [SLit.Holds, CondOp.holds, VarId.eval, ev, if_true]; omega
            · exact absurd rfl hr
            · exact absurd rfl hr
            · exact absurd rfl hr
            · exact absurd rfl hr

theorem find_sound (m : Means t α w) {p : PVar} {op : CondOp} {v u : Int} {x : XLit} (h : t.find p op v u = .ok x) : x.Holds α ↔ op.holds v u (w p) := by
  unfold Tracker.find at h
  cases op <;> dsimp only at h
  · cases e : t.eq p v with
    | none => rw [e] at h; cases h
    | some y => rw [e] at h; cases h; exact m.eq _ _ _ e
  · cases e : t.eq p v with
    | none => rw [e] at h; cases h
    | some y => rw [e] at h; cases h; rw [holds_not, m.eq _ _ _ e]
  · cases e : t.ge p v with
    | none => rw [e] at h; cases h
    | some y => rw [e] at h; cases h; exact m.ge _ _ _ e
  · cases e : t.ge p v with
    | none => rw [e] at h; cases h
    | some y => rw [e] at h; cases h; rw [holds_not, m.ge _ _ _ e]; simp only [CondOp.holds]; omega
  · cases e : t.within p v u with
    | none => rw [e] at h; cases h
    | some y => rw [e] at h; cases h; exact m.within _ _ _ _ e
  · cases e : t.within p v u with
    | none => rw [e] at h; cases h
    | some y => rw [e] at h; cases h; rw [holds_not, m.within _ _ _ _ e]

/-! ## Items with names -/

/-- The item can be written. -/
def Named (t : Tracker) : PItem → Prop
  | .lit l => ∃ s, simplifyLiteral t l = .ok s ∧ ∀ p op v u, s = .cond p op v u → ∃ x, t.find p op v u = .ok x
  | .flag _ _ => True
  | .bit p k b => ∃ x, t.getBit p k b = .ok x

theorem named_of_append {c : Int} {r : PItem} {out : List (Int × XLit)} {rhs : Int} {q} (h : appendOrFold t c (.item r) out rhs = .ok q) : Named t r := by
  cases r with
  | flag n b => trivial
  | bit p k b =>
    simp only [appendOrFold] at h
    obtain ⟨x, hx, h⟩ := bindOk h
    exact ⟨x, hx⟩
  | lit l =>
    simp only [appendOrFold] at h
    obtain ⟨s, hs, h⟩ := bindOk h
    refine ⟨s, hs, fun p op v u e => ?_⟩
    subst e
    obtain ⟨n, hn, h⟩ := bindOk h
    obtain ⟨x, hx, h⟩ := bindOk h
    exact ⟨x, hx⟩

theorem getBit_ok {p : PVar} {k : Int} {b : Bool} {x : XLit} (h : t.getBit p k b = .ok x) :
    ∃ bits c y, t.bits p = some bits ∧ 0 ≤ k ∧ bits[k.toNat]? = some (c, y) ∧ x = if b then y else y.not := by
  unfold Tracker.getBit at h
  obtain ⟨bits, hb, h⟩ := bindOk h
  split at h
  · cases h
  · rename_i hk
    cases e : bits[k.toNat]? with
    | none => rw [e] at h; cases h
    | some y =>
      rw [e] at h
      obtain ⟨c, y⟩ := y
      cases h
      exact ⟨bits, c, y, eachBit_ok hb, by omega, e, rfl⟩

theorem getBit_of {p : PVar} {k : Int} {b : Bool} {bits : Bits} {c : Int} {y : XLit} (hb : t.bits p = some bits) (hk : 0 ≤ k) (he : bits[k.toNat]? = some (c, y)) :
    t.getBit p k b = .ok (if b then y else y.not) := by
  unfold Tracker.getBit Tracker.eachBit
  rw [hb]
  show (if k < 0 then _ else _) = _
  rw [if_neg (by omega), he]
  rfl

theorem named_not {r : PItem} (h : Named t r.not) : Named t r := by
  cases r with
  | flag n b => trivial
  | bit p k b =>
    obtain ⟨x, hx⟩ := h
    obtain ⟨bits, c, y, h1, h2, h3, _⟩ := getBit_ok hx
    exact ⟨_, getBit_of h1 h2 h3⟩
  | lit l =>
    obtain ⟨l', e, ho⟩ := simplify_not (t := t) l
    rw [e] at h
    obtain ⟨s', hs', h⟩ := h
    rcases ho with ⟨_, _, he⟩ | ⟨s, s'', hs, hs'', hn⟩
    · rw [he] at hs'; cases hs'
    · rw [hs''] at hs'; cases hs'
      refine ⟨s, hs, fun p op v u e => ?_⟩
      subst e
      cases hn with
      | cond hf =>
        obtain ⟨x, hx⟩ := h _ _ _ _ rfl
        have := hf t
        rw [hx] at this
        cases e : t.find p op v u with
        | error e' => rw [e] at this; cases this
        | ok y => exact ⟨y, rfl⟩

theorem tv_eq {x : XLit} {p : Prop} [Decidable p] (h : x.Holds α ↔ p) : tv α x = if p then 1 else 0 := by
  unfold tv
  by_cases hp : p
  · rw [if_pos hp, if_pos (h.2 hp)]
  · rw [if_neg hp, if_neg (fun k => hp (h.1 k))]

theorem bit_holds {p : PVar} {k : Int} {b : Bool} {bits : Bits} {c : Int} {y : XLit} (hb : t.bits p = some bits) (he : bits[k.toNat]? = some (c, y)) :
    (PItem.bit p k b).Holds t α w ↔ (if b then y else y.not).Holds α := by
  simp only [PItem.Holds, hb, Option.bind_some, he, Option.map_some, Option.some.injEq]
  cases b
  · simp [holds_not]
  · simp

theorem item_value (m : Means t α w) {r : PItem} (h : Named t r) : rawItem t α r = if r.Holds t α w then 1 else 0 := by
  cases r with
  | flag n b =>
    simp only [rawItem]
    apply tv_eq
    unfold XLit.Holds PItem.Holds
    simp
  | bit p k b =>
    obtain ⟨x, hx⟩ := h
    obtain ⟨bits, c, y, h1, h2, h3, rfl⟩ := getBit_ok hx
    simp only [rawItem, hx]
    exact tv_eq (bit_holds h1 h3).symm
  | lit l =>
    obtain ⟨s, hs, h⟩ := h
    have key := simplify_sound m.view hs
    simp only [rawItem, hs]
    have : (PItem.lit l).Holds t α w ↔ s.Holds w := key.symm
    cases s with
    | tt => rw [if_pos (this.2 trivial)]; rfl
    | ff => rw [if_neg (fun k => this.1 k)]; rfl
    | cond p op v u =>
      obtain ⟨x, hx⟩ := h _ _ _ _ rfl
      simp only [rawSimple, hx]
      exact tv_eq ((find_sound m hx).trans this.symm)

theorem rawBits_value (m : Means t α w) {p : PVar} {b : Bits} (h : t.eachBit p = .ok b) : rawBits t α p = w p := by
  rw [rawBits_of (eachBit_ok h), m.bits _ _ (eachBit_ok h)]

theorem term_value (m : Means t α w) {c : Int} {v : Term} {out : List (Int × XLit)} {rhs : Int} {q} (h : appendOrFold t c v out rhs = .ok q) :
    rawTerm t α v = v.value t α w := by
  cases v with
  | item i => exact item_value m (named_of_append h)
  | aux i =>
    simp only [appendOrFold] at h
    obtain ⟨b, hb, h⟩ := bindOk h
    exact rawBits_value m hb
  | var v =>
    cases v with
    | simple i =>
      simp only [appendOrFold] at h
      obtain ⟨b, hb, h⟩ := bindOk h
      exact rawBits_value m hb
    | const c => rfl
    | view i neg add =>
      simp only [appendOrFold] at h
      simp only [rawTerm]
      cases e : t.view i neg add with
      | some k =>
        rw [e] at h
        obtain ⟨b, hb, h⟩ := bindOk h
        simp only []
        rw [rawBits_value m hb, m.view _ _ _ _ e]; rfl
      | none =>
        rw [e] at h
        cases neg with
        | true =>
          simp only [if_true] at h
          obtain ⟨b, hb, h⟩ := bindOk h
          simp only [if_true]
          rw [rawBits_value m hb]; rfl
        | false =>
          simp only [Bool.false_eq_true, if_false] at h
          obtain ⟨b, hb, h⟩ := bindOk h
          simp only [Bool.false_eq_true, if_false]
          rw [rawBits_value m hb]; rfl

theorem total_value (m : Means t α w) : ∀ (l : List (Int × Term)) {out : List (Int × XLit)} {rhs : Int} {q}, emitTerms t l out rhs = .ok q →
    rawTotal t α l = total t α w l := by
  intro l
  induction l with
  | nil => intro _ _ _ _; rfl
  | cons x xs ih =>
    obtain ⟨c, v⟩ := x
    intro out rhs q h
    rw [emitTerms] at h
    rw [rawTotal, total]
    split at h
    · rename_i hc; rw [ih h, hc, Int.zero_mul, Int.zero_mul]
    · obtain ⟨z, hz, h⟩ := bindOk h
      rw [ih h, term_value m hz]

/-- A row means its inequality. -/
theorem emit_means (m : Means t α w) {i : Ineq} {row : Row} (h : emitInequality t i = .ok row) : row.Holds α ↔ i.Holds t α w := by
  rw [emit_ok h]
  unfold emitInequality at h
  obtain ⟨n, hn, h⟩ := bindOk h
  obtain ⟨q, hq, h⟩ := bindOk h
  rw [total_value m _ hq]; exact Iff.rfl

theorem reifs_named {k : Int} (hk : k ≠ 0) : ∀ (rs : Reifs) {out : List (Int × XLit)} {rhs : Int} {q},
    emitTerms t (rs.map fun r => (k, .item r.not)) out rhs = .ok q → ∀ r ∈ rs, Named t r := by
  intro rs
  induction rs with
  | nil => intro _ _ _ _ r hr; cases hr
  | cons r rs ih =>
    intro out rhs q h
    rw [List.map_cons, emitTerms, if_neg hk] at h
    obtain ⟨z, hz, h⟩ := bindOk h
    intro r' hr'
    rcases List.mem_cons.1 hr' with rfl | hr'
    · exact named_not (named_of_append hz)
    · exact ih h r' hr'

/-- What can be said of a row reified on items. -/
theorem add_parts {i : Ineq} {rs : Reifs} {row : Row} (h : addConstraint t i (some rs) = .ok row) :
    (∃ out rhs q, emitTerms t i.lhs out rhs = .ok q) ∧ ∀ r ∈ rs, Named t r := by
  unfold addConstraint at h
  obtain ⟨i', hi, h⟩ := bindOk h
  unfold reify at hi
  obtain ⟨⟨k, e⟩, hs, hi⟩ := bindOk hi
  cases hi
  unfold reificationShape at hs
  obtain ⟨m, hm, hs⟩ := bindOk hs
  obtain ⟨n, hn, hs⟩ := bindOk hs
  obtain ⟨k', hk, hs⟩ := bindOk hs
  obtain ⟨e', he, hs⟩ := bindOk hs
  have hp : (min k' (-1), e') = (k, e) := by injection hs
  rw [Prod.mk.injEq] at hp
  obtain ⟨rfl, rfl⟩ := hp
  unfold emitInequality at h
  obtain ⟨d, hd, h⟩ := bindOk h
  obtain ⟨q, hq, h⟩ := bindOk h
  dsimp only at hq
  rw [emitTerms_append] at hq
  obtain ⟨z, hz, hq⟩ := bindOk hq
  exact ⟨⟨_, _, _, hz⟩, reifs_named (by omega) rs hq⟩

theorem one_iff (m : Means t α w) {r : PItem} (h : Named t r) : rawItem t α r = 1 ↔ r.Holds t α w := by
  rw [item_value m h]; split <;> simp_all

/-- A row means its inequality, if everything it is reified on is true. -/
theorem add_means (m : Means t α w) {i : Ineq} {reifs : Option Reifs} {row : Row} (h : addConstraint t i reifs = .ok row) :
    row.Holds α ↔ Asked.Holds t α w ⟨i, reifs⟩ := by
  cases reifs with
  | none => rw [emit_means m h]; exact ⟨fun k _ => k, fun k => k fun r hr => nomatch hr⟩
  | some rs =>
    obtain ⟨⟨_, _, _, hl⟩, hr⟩ := add_parts h
    rw [reified_ok h, total_value m _ hl]
    exact ⟨fun k hk => k fun r hr' => (one_iff m (hr r hr')).2 (hk r hr'), fun k hk => k fun r hr' => (one_iff m (hr r hr')).1 (hk r hr')⟩

/-! ## Writing the reified row directly -/

theorem append_not {k : Int} {l : PLit} {out : List (Int × XLit)} {rhs : Int} (rs : Reifs) : emitReifs t k (.lit l :: rs) out rhs =
    (appendOrFold t k (.item (PItem.not (.lit l))) out rhs >>= fun q => emitReifs t k rs q.1 q.2) := by
  obtain ⟨l', e, ho⟩ := simplify_not (t := t) l
  rw [e]
  simp only [emitReifs, appendOrFold]
  rcases ho with ⟨e', h1, h2⟩ | ⟨s, s', h1, h2, hn⟩
  · rw [h1, h2]; rfl
  · rw [h1, h2]
    cases hn with
    | tt => rfl
    | ff => show (_ >>= _) = ((iAdd rhs k >>= _) >>= _)
            cases iAdd rhs k <;> rfl
    | @cond p op v u op' u' hf =>
      show (iNeg k >>= _) = ((iNeg k >>= _) >>= _)
      cases iNeg k with
      | error e => rfl
      | ok n =>
        show (t.find p op v u >>= _) = ((t.find p op' v u' >>= _) >>= _)
        rw [hf t]
        cases t.find p op v u <;> rfl

theorem emitReifs_eq {k : Int} (hk : k ≠ 0) : ∀ (rs : Reifs) (out : List (Int × XLit)) (rhs : Int),
    emitReifs t k rs out rhs = emitTerms t (rs.map fun r => (k, .item r.not)) out rhs := by
  intro rs
  induction rs with
  | nil => intro out rhs; rfl
  | cons r rs ih =>
    intro out rhs
    have key : emitReifs t k (r :: rs) out rhs = (appendOrFold t k (.item r.not) out rhs >>= fun q => emitReifs t k rs q.1 q.2) := by
      cases r with
      | lit l => exact append_not rs
      | flag n b => rfl
      | bit p j b => rfl
    rw [key, List.map_cons, emitTerms, if_neg hk]
    cases appendOrFold t k (.item r.not) out rhs with
    | error e => rfl
    | ok q => exact ih ..

/-- The reified row written without building the reified inequality is the same, and throws in the same cases. -/
theorem emitReified_eq (i : Ineq) (rs : Reifs) : emitReifiedInequality t i rs = addConstraint t i (some rs) := by
  show _ = (reify t i rs >>= emitInequality t)
  unfold emitReifiedInequality reify
  cases hs : reificationShape t i rs with
  | error e => rfl
  | ok z =>
    obtain ⟨k, e⟩ := z
    have hk : k ≠ 0 := by
      unfold reificationShape at hs
      obtain ⟨m, hm, hs⟩ := bindOk hs
      obtain ⟨n, hn, hs⟩ := bindOk hs
      obtain ⟨k', hk, hs⟩ := bindOk hs
      obtain ⟨e', he, hs⟩ := bindOk hs
      have hp : (min k' (-1), e') = (k, e) := by injection hs
      rw [Prod.mk.injEq] at hp
      omega
    show (iNeg e >>= _) = (iNeg e >>= _)
    cases iNeg e with
    | error _ => rfl
    | ok n =>
      show (emitTerms t i.lhs [] n >>= _) = (emitTerms t (i.lhs ++ _) [] n >>= _)
      rw [emitTerms_append]
      cases emitTerms t i.lhs [] n with
      | error _ => rfl
      | ok q =>
        show (emitReifs t k rs q.1 q.2 >>= _) = (emitTerms t _ q.1 q.2 >>= _)
        rw [emitReifs_eq hk]

end Gcs.Pb
