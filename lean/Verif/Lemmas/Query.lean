import Verif.Props.Infer

/-! Helper lemmas for queries through views. -/

namespace Gcs
open IntervalSet

/-- The domain behind a variable; a singleton for a constant. -/
def rawOf (d : Doms) : VarId → IntervalSet
  | .simple i => d[i]?.getD []
  | .view i _ _ => d[i]?.getD []
  | .const c => [(c, c)]

/-- Specification: `y` is a possible value of the (viewed) variable. -/
def Poss (d : Doms) (v : VarId) (y : Int) : Prop := ∃ a, Within d a ∧ v.eval a = y

theorem rawOf_ok {d : Doms} {v : VarId} (hd : DomsOK d) (hv : v.Valid d.length) : DomOK (rawOf d v) := by
  cases v with
  | simple i => simp only [rawOf, List.getElem?_eq_getElem hv]; exact hd.get hv
  | view i n a => simp only [rawOf, List.getElem?_eq_getElem hv.1]; exact hd.get hv.1
  | const c => exact ⟨by simp [rawOf, WF], by simp only [rawOf, InRange, List.mem_singleton, forall_eq]; exact ⟨hv, hv⟩, c, by simp [rawOf, Mem]⟩

theorem mem_const {x c : Int} : Mem x [(c, c)] ↔ x = c := by simp [Mem]; omega

theorem poss_iff {d : Doms} {v : VarId} (hd : DomsOK d) (hv : v.Valid d.length) (y : Int) :
    Poss d v y ↔ ∃ x, Mem x (rawOf d v) ∧ viewVal (deview v).2.1 (deview v).2.2 x = y := by
  cases v with
  | simple i =>
    have hi : d[i]? = some d[i] := List.getElem?_eq_getElem hv
    simp only [rawOf, deview, hi, viewVal, VarId.eval, Poss]
    constructor
    · rintro ⟨a, ha, rfl⟩; exact ⟨a i, ha i _ hi, by simp⟩
    · rintro ⟨x, hx, rfl⟩
      obtain ⟨a, ha, rfl⟩ := exists_within_at hd hi hx
      exact ⟨a, ha, by simp⟩
  | view i n k =>
    have hi : d[i]? = some (d[i]'hv.1) := List.getElem?_eq_getElem hv.1
    simp only [rawOf, deview, hi, viewVal, VarId.eval, Poss]
    constructor
    · rintro ⟨a, ha, rfl⟩; exact ⟨a i, ha i _ hi, rfl⟩
    · rintro ⟨x, hx, rfl⟩
      obtain ⟨a, ha, rfl⟩ := exists_within_at hd hi hx
      exact ⟨a, ha, rfl⟩
  | const c =>
    simp only [rawOf, deview, viewVal, VarId.eval, Poss, mem_const]
    obtain ⟨a, ha⟩ := exists_within hd
    constructor
    · rintro ⟨_, _, rfl⟩; exact ⟨c, rfl, by simp⟩
    · rintro ⟨x, rfl, rfl⟩; exact ⟨a, ha, by simp⟩

/-- Right, or an overflow exception for the stated reason. -/
def RightUnless {α : Type} (bad : Prop) (x : Chk α) (Right : α → Prop) : Prop := (x = .error .overflow ∧ bad) ∨ ∃ r, x = .ok r ∧ Right r

theorem RightUnless.total {α : Type} {bad : Prop} {x : Chk α} {R : α → Prop} (h : RightUnless bad x R) (hb : ¬ bad) : ∃ r, x = .ok r ∧ R r :=
  h.resolve_left fun h => hb h.2

theorem RightUnless.imp {α : Type} {bad bad' : Prop} {x : Chk α} {R R' : α → Prop} (h : RightUnless bad x R) (hb : bad → bad')
    (hr : ∀ r, R r → R' r) : RightUnless bad' x R' := by
  rcases h with ⟨h1, h2⟩ | ⟨r, h1, h2⟩
  · exact .inl ⟨h1, hb h2⟩
  · exact .inr ⟨r, h1, hr r h2⟩

theorem RightUnless.bind {α β : Type} {bad : Prop} {x : Chk α} {R : α → Prop} {f : α → Chk β} {Q : β → Prop} (h : RightUnless bad x R)
    (hf : ∀ r, R r → RightUnless bad (f r) Q) : RightUnless bad (x >>= f) Q := by
  rcases h with ⟨h1, h2⟩ | ⟨r, h1, h2⟩
  · left; rw [h1]; exact ⟨rfl, h2⟩
  · rw [h1]; exact hf r h2

theorem RightUnless.pure {α : Type} {bad : Prop} {r : α} {R : α → Prop} (h : R r) : RightUnless bad (Except.ok r) R := .inr ⟨r, rfl, h⟩

/-- The viewed variable's values, and the intermediate negation, are 64-bit integers. -/
def VarId.FitsAt (a : Asg) : VarId → Prop
  | .view i neg add => (neg = true → InI64 (- a i)) ∧ InI64 ((if neg then - a i else a i) + add)
  | _ => True

/-- ... for every assignment within the domains. -/
def Fits (d : Doms) (v : VarId) : Prop := ∀ a, Within d a → v.FitsAt a

theorem iAdd_zero {x : Int} (h : InI64 x) : iAdd x 0 = .ok x := by
  rw [iAdd_total h (by decide) (by simpa using h)]; simp

theorem iSub_zero {x : Int} (h : InI64 x) : iSub x 0 = .ok x := by
  rw [iSub_total h (by decide) (by simpa using h)]; simp

theorem applyView_spec {x add : Int} (neg : Bool) (hx : InI64 x) (ha : InI64 add) :
    RightUnless (¬ ((neg = true → InI64 (- x)) ∧ InI64 (viewVal neg add x))) (applyView x neg add) (fun y => y = viewVal neg add x ∧ InI64 y) := by
  unfold applyView viewVal
  cases neg
  · simp only [Bool.false_eq_true, if_false, false_imp_iff, true_and]
    cases h : iAdd x add with
    | error e => have := iAdd_error h hx ha; left; exact ⟨by rw [this.1], this.2⟩
    | ok y => have := iAdd_ok h hx ha; right; exact ⟨y, rfl, this⟩
  · simp only [if_true]
    cases h0 : iNeg x with
    | error e => have := iNeg_error h0 hx; left; exact ⟨by simp [this.1, Bind.bind, Except.bind], fun h => this.2 (h.1 trivial)⟩
    | ok n =>
      have k := iNeg_ok h0 hx
      simp only [Bind.bind, Except.bind]
      cases h : iAdd n add with
      | error e => have := iAdd_error h k.2 ha; left; exact ⟨by rw [this.1], fun hh => this.2 (k.1 ▸ hh.2)⟩
      | ok y => have := iAdd_ok h k.2 ha; right; exact ⟨y, rfl, by rw [← k.1]; exact this.1, this.2⟩

/-- Overflow on one value of the domain means the variable does not fit. -/
theorem not_fits {d : Doms} {v : VarId} (hd : DomsOK d) (hv : v.Valid d.length) {x : Int} (hx : Mem x (rawOf d v))
    (h : ¬ (((deview v).2.1 = true → InI64 (- x)) ∧ InI64 (viewVal (deview v).2.1 (deview v).2.2 x))) : ¬ Fits d v := by
  intro hf
  apply h
  have hr := mem_of_inRange (rawOf_ok hd hv).inRange hx
  cases v with
  | simple i => simpa [deview, viewVal] using hr
  | const c => simpa [deview, viewVal] using hr
  | view i n k =>
    have hi : d[i]? = some (d[i]'hv.1) := List.getElem?_eq_getElem hv.1
    simp only [rawOf, hi] at hx
    obtain ⟨a, ha, rfl⟩ := exists_within_at hd hi hx
    exact hf a ha

/-- Applying the view to a value of the domain. -/
theorem applyView_raw {d : Doms} {v : VarId} (hd : DomsOK d) (hv : v.Valid d.length) {x : Int} (hx : Mem x (rawOf d v)) :
    RightUnless (¬ Fits d v) (applyView x (deview v).2.1 (deview v).2.2) (fun y => y = viewVal (deview v).2.1 (deview v).2.2 x ∧ InI64 y) :=
  (applyView_spec _ (mem_of_inRange (rawOf_ok hd hv).inRange hx) (deview_add_inI64 hv)).imp (not_fits hd hv hx) fun _ h => h

theorem viewVal_inj {neg : Bool} {add x y : Int} : viewVal neg add x = viewVal neg add y ↔ x = y := by
  unfold viewVal; cases neg <;> simp <;> omega

/-! ## Uniform forms of the queries -/

theorem lowerBound_eq {d : Doms} {v : VarId} (hd : DomsOK d) (hv : v.Valid d.length) {l u : Int} (b : Bnd (rawOf d v) l u) :
    lowerBound d v = applyView (if (deview v).2.1 then u else l) (deview v).2.1 (deview v).2.2 := by
  have hl := mem_of_inRange (rawOf_ok hd hv).inRange b.meml
  cases v with
  | simple i =>
    simp only [rawOf, List.getElem?_eq_getElem hv, Option.getD_some] at b
    simp only [lowerBound, stateOf_ok hv, Bind.bind, Except.bind, deview, applyView, Bool.false_eq_true, if_false, iAdd_zero hl]
    exact b.lower
  | const c =>
    have : l = c := mem_const.1 b.meml
    subst this
    simp [lowerBound, deview, Bind.bind, Except.bind]
  | view i n k =>
    simp only [rawOf, List.getElem?_eq_getElem hv.1, Option.getD_some] at b
    cases n <;> simp [lowerBound, stateOf_ok hv.1, Bind.bind, Except.bind, deview, b.lower, b.upper]

theorem upperBound_eq {d : Doms} {v : VarId} (hd : DomsOK d) (hv : v.Valid d.length) {l u : Int} (b : Bnd (rawOf d v) l u) :
    upperBound d v = applyView (if (deview v).2.1 then l else u) (deview v).2.1 (deview v).2.2 := by
  have hl := mem_of_inRange (rawOf_ok hd hv).inRange b.memu
  cases v with
  | simple i =>
    simp only [rawOf, List.getElem?_eq_getElem hv, Option.getD_some] at b
    simp only [upperBound, stateOf_ok hv, Bind.bind, Except.bind, deview, applyView, Bool.false_eq_true, if_false, iAdd_zero hl]
    exact b.upper
  | const c =>
    have : u = c := mem_const.1 b.memu
    subst this
    simp [upperBound, deview, Bind.bind, Except.bind]
  | view i n k =>
    simp only [rawOf, List.getElem?_eq_getElem hv.1, Option.getD_some] at b
    cases n <;> simp [upperBound, stateOf_ok hv.1, Bind.bind, Except.bind, deview, b.lower, b.upper]

theorem bounds_eq {d : Doms} {v : VarId} (hd : DomsOK d) (hv : v.Valid d.length) {l u : Int} (b : Bnd (rawOf d v) l u) :
    bounds d v = do
      let x ← applyView (if (deview v).2.1 then u else l) (deview v).2.1 (deview v).2.2
      let y ← applyView (if (deview v).2.1 then l else u) (deview v).2.1 (deview v).2.2
      return (x, y) := by
  have hl := mem_of_inRange (rawOf_ok hd hv).inRange b.meml
  have hu := mem_of_inRange (rawOf_ok hd hv).inRange b.memu
  cases v with
  | simple i =>
    simp only [rawOf, List.getElem?_eq_getElem hv, Option.getD_some] at b
    simp only [bounds, stateOf_ok hv, Bind.bind, Except.bind, deview, applyView, Bool.false_eq_true, if_false, iAdd_zero hl, iAdd_zero hu, b.lower, b.upper]
  | const c =>
    have h1 : l = c := mem_const.1 b.meml
    have h2 : u = c := mem_const.1 b.memu
    subst h1; subst h2
    simp [bounds, deview, Bind.bind, Except.bind, applyView]
  | view i n k =>
    simp only [rawOf, List.getElem?_eq_getElem hv.1, Option.getD_some] at b
    cases n
    · simp [bounds, stateOf_ok hv.1, Bind.bind, Except.bind, deview, b.lower, b.upper, Pure.pure, Except.pure, applyView]
    · simp only [bounds, stateOf_ok hv.1, Bind.bind, Except.bind, deview, b.lower, b.upper, Pure.pure, Except.pure, applyView, if_true]
      cases iNeg u with
      | error e => rfl
      | ok x =>
        simp only []
        cases iAdd x k with
        | error e => rfl
        | ok y =>
          simp only []
          cases iNeg l <;> rfl

theorem inDomain_eq {d : Doms} {v : VarId} (_hd : DomsOK d) (hv : v.Valid d.length) {x : Int} (hx : InI64 x) :
    inDomain d v x = do return contains (← adjust x (deview v).2.1 (deview v).2.2) (rawOf d v) := by
  cases v with
  | simple i =>
    simp only [inDomain, stateOf_ok hv, rawOf, List.getElem?_eq_getElem hv, deview, adjust, Bool.false_eq_true, if_false, iSub_zero hx,
      Bind.bind, Except.bind, Option.getD]
  | const c =>
    simp only [inDomain, rawOf, deview, adjust, Bool.false_eq_true, if_false, iSub_zero hx, Bind.bind, Except.bind]
    congr 1
    have := contains_spec x [(c, c)] (by simp [WF])
    rw [mem_const] at this
    rw [Bool.eq_iff_iff, this]; simp [eq_comm]
  | view i n k =>
    simp only [inDomain, stateOf_ok hv.1, rawOf, List.getElem?_eq_getElem hv.1, deview, Bind.bind, Except.bind, Option.getD]

theorem lowerIsUpper_const (c : Int) : lowerIsUpper [(c, c)] = .ok true := by
  simp [IntervalSet.lowerIsUpper, lower, upper, Bind.bind, Except.bind, Pure.pure, Except.pure]

theorem hasSingleValue_eq {d : Doms} {v : VarId} (hv : v.Valid d.length) : hasSingleValue d v = lowerIsUpper (rawOf d v) := by
  cases v with
  | simple i => simp [hasSingleValue, deview, stateOf_ok hv, rawOf, List.getElem?_eq_getElem hv, Bind.bind, Except.bind]
  | const c => simp [hasSingleValue, deview, rawOf, lowerIsUpper_const]
  | view i n k => simp [hasSingleValue, deview, stateOf_ok hv.1, rawOf, List.getElem?_eq_getElem hv.1, Bind.bind, Except.bind]

theorem domainHasHoles_eq {d : Doms} {v : VarId} (hv : v.Valid d.length) : domainHasHoles d v = .ok (hasHoles (rawOf d v)) := by
  cases v with
  | simple i => simp [domainHasHoles, deview, stateOf_ok hv, rawOf, List.getElem?_eq_getElem hv, Bind.bind, Except.bind, Pure.pure, Except.pure]
  | const c => simp [domainHasHoles, deview, rawOf, hasHoles]
  | view i n k => simp [domainHasHoles, deview, stateOf_ok hv.1, rawOf, List.getElem?_eq_getElem hv.1, Bind.bind, Except.bind, Pure.pure, Except.pure]

theorem domainSize_eq {d : Doms} {v : VarId} (hv : v.Valid d.length) : domainSize d v = size (rawOf d v) := by
  cases v with
  | simple i => simp [domainSize, deview, stateOf_ok hv, rawOf, List.getElem?_eq_getElem hv, Bind.bind, Except.bind]
  | const c =>
    have h : InRange [(c, c)] := by simp only [InRange, List.mem_singleton, forall_eq]; exact ⟨hv, hv⟩
    simp only [domainSize, deview, rawOf]
    rw [size_spec _ (by simp [WF]) h]
    have : count [(c, c)] = 1 := by simp [count]
    rw [this]; decide
  | view i n k => simp [domainSize, deview, stateOf_ok hv.1, rawOf, List.getElem?_eq_getElem hv.1, Bind.bind, Except.bind]

theorem optionalSingleValue_eq {d : Doms} {v : VarId} (hd : DomsOK d) (hv : v.Valid d.length) {l u : Int} (b : Bnd (rawOf d v) l u) :
    optionalSingleValue d v = if l = u then do return some (← applyView l (deview v).2.1 (deview v).2.2) else .ok none := by
  have hl := mem_of_inRange (rawOf_ok hd hv).inRange b.meml
  cases v with
  | simple i =>
    simp only [rawOf, List.getElem?_eq_getElem hv, Option.getD_some] at b
    have b' : Bnd d[i] l u := b
    by_cases h : l = u
    · subst h
      simp [optionalSingleValue, stateOf_ok hv, Bind.bind, Except.bind, deview, applyView, iAdd_zero hl, b'.lowerIsUpper, b'.lower, Pure.pure, Except.pure]
    · simp [optionalSingleValue, stateOf_ok hv, Bind.bind, Except.bind, deview, applyView, b'.lowerIsUpper, h, Pure.pure, Except.pure]
  | const c =>
    have h1 : l = c := mem_const.1 b.meml
    have h2 : u = c := mem_const.1 b.memu
    subst h1; subst h2
    simp [optionalSingleValue, deview, Bind.bind, Except.bind]
  | view i n k =>
    simp only [rawOf, List.getElem?_eq_getElem hv.1, Option.getD_some] at b
    have b' : Bnd (d[i]'hv.1) l u := b
    by_cases h : l = u <;>
    simp [optionalSingleValue, stateOf_ok hv.1, Bind.bind, Except.bind, deview, b'.lowerIsUpper, b'.lower, h, Pure.pure, Except.pure]

end Gcs
