import Verif.Lemmas.State

/-!
# C11, C12, C17: inference
-/

namespace Gcs
open IntervalSet

theorem DomsOK.get {d : Doms} (h : DomsOK d) {i : Nat} (hi : i < d.length) : DomOK d[i] := h _ (List.getElem_mem hi)

/-- Outcome of an operation that is either right or throws an overflow exception. -/
def RightOrOverflow {α : Type} (x : Chk α) (Right : α → Prop) : Prop := x = .error .overflow ∨ ∃ r, x = .ok r ∧ Right r

theorem deview_add_inI64 {v : VarId} {n : Nat} (h : v.Valid n) : InI64 (deview v).2.2 := by
  cases v with
  | simple i => show InI64 0; decide
  | view i neg add => exact h.2
  | const c => show InI64 0; decide

theorem inferEqual_spec (d : Doms) (v : VarId) (x : Int) (u : Int) (hd : DomsOK d) (hv : v.Valid d.length) (hx : InI64 x) :
    RightOrOverflow (inferEqual d v x) (InferSpec d (.cond ⟨v, .equal, x, u⟩)) := by
  unfold inferEqual
  cases hadj : adjust x (deview v).2.1 (deview v).2.2 with
  | error e =>
    left
    have : e = .overflow := adjust_error hadj hx (deview_add_inI64 hv)
    subst this
    cases v <;> simp_all [deview, bind, Except.bind]
  | ok w =>
    right
    have hk := adjust_ok hadj hx (deview_add_inI64 hv)
    cases v with
    | simple i =>
      simp only [deview, bind, Except.bind] at hadj hk ⊢; rw [hadj]
      exact change_spec hv rfl (fun y => by simpa [Lit.holds, Cond.holds, CondOp.holds, VarId.eval, viewVal] using (hk.2 y).symm) (changeEqual_spec _ _ (hd.get hv))
    | view i neg add =>
      simp only [deview, bind, Except.bind] at hadj hk ⊢; rw [hadj]
      exact change_spec hv.1 rfl (fun y => by simpa [Lit.holds, Cond.holds, CondOp.holds, VarId.eval, viewVal] using (hk.2 y).symm) (changeEqual_spec _ _ (hd.get hv.1))
    | const c =>
      simp only [deview, bind, Except.bind] at hadj hk ⊢; rw [hadj]
      exact onConstant_spec rfl (fun a => by simpa [Lit.holds, Cond.holds, CondOp.holds, VarId.eval, viewVal] using hk.2 c)

theorem inferNotEqual_spec (d : Doms) (v : VarId) (x : Int) (u : Int) (hd : DomsOK d) (hv : v.Valid d.length) (hx : InI64 x) :
    RightOrOverflow (inferNotEqual d v x) (InferSpec d (.cond ⟨v, .notEqual, x, u⟩)) := by
  unfold inferNotEqual
  cases hadj : adjust x (deview v).2.1 (deview v).2.2 with
  | error e =>
    left
    have : e = .overflow := adjust_error hadj hx (deview_add_inI64 hv)
    subst this
    cases v <;> simp_all [deview, bind, Except.bind]
  | ok w =>
    right
    have hk := adjust_ok hadj hx (deview_add_inI64 hv)
    cases v with
    | simple i =>
      simp only [deview, bind, Except.bind] at hadj hk ⊢; rw [hadj]
      exact change_spec hv rfl (fun y => by simpa [Lit.holds, Cond.holds, CondOp.holds, VarId.eval, viewVal] using not_congr (hk.2 y).symm) (changeNotEqual_spec _ _ (hd.get hv))
    | view i neg add =>
      simp only [deview, bind, Except.bind] at hadj hk ⊢; rw [hadj]
      exact change_spec hv.1 rfl (fun y => by simpa [Lit.holds, Cond.holds, CondOp.holds, VarId.eval, viewVal] using not_congr (hk.2 y).symm)
        (changeNotEqual_spec _ _ (hd.get hv.1))
    | const c =>
      simp only [deview, bind, Except.bind] at hadj hk ⊢; rw [hadj]
      exact onConstant_spec rfl (fun a => by simpa [Lit.holds, Cond.holds, CondOp.holds, VarId.eval, viewVal] using not_congr (hk.2 c))

theorem changeLT_roo {d : Doms} {i : Nat} {w : Int} {l : Lit} (hd : DomsOK d) (hi : i < d.length) (hw : InI64 w)
    (hl : l.underlying = some i) (hP : ∀ x, x < w ↔ l.holds fun _ => x) :
    RightOrOverflow (d.change i (changeLessThan · w)) (InferSpec d l) := by
  have := changeLessThan_spec d[i] w (hd.get hi) hw
  by_cases h : w = i64Min
  · left; simp [Doms.change, stateOf_ok hi, this.2 h, bind, Except.bind]
  · right; exact change_spec hi hl hP (this.1 h)

theorem inferLessThan_spec (d : Doms) (v : VarId) (x : Int) (u : Int) (hd : DomsOK d) (hv : v.Valid d.length) (hx : InI64 x) :
    RightOrOverflow (inferLessThan d v x) (InferSpec d (.cond ⟨v, .less, x, u⟩)) := by
  unfold inferLessThan
  cases v with
  | simple i =>
    simp only [deview, bind, Except.bind, Bool.false_eq_true, if_false]
    cases hs : iSub x 0 with
    | error e => left; have := iSub_error hs hx (by decide); rw [this.1]
    | ok w =>
      have hk := iSub_ok hs hx (by decide)
      exact changeLT_roo hd hv hk.2 rfl (fun y => by simp only [Lit.holds, Cond.holds, CondOp.holds, VarId.eval]; omega)
  | const c =>
    simp only [deview, bind, Except.bind, Bool.false_eq_true, if_false]
    cases hs : iSub x 0 with
    | error e => left; have := iSub_error hs hx (by decide); rw [this.1]
    | ok w =>
      have hk := iSub_ok hs hx (by decide)
      right; exact onConstant_spec rfl (fun y => by simp only [Lit.holds, Cond.holds, CondOp.holds, VarId.eval, decide_eq_true_eq]; omega)
  | view i neg add =>
    simp only [deview, bind, Except.bind]
    cases neg
    · simp only [Bool.false_eq_true, if_false]
      cases hs : iSub x add with
      | error e => left; have := iSub_error hs hx hv.2; rw [this.1]
      | ok w =>
        have hk := iSub_ok hs hx hv.2
        exact changeLT_roo hd hv.1 hk.2 rfl (fun y => by simp [Lit.holds, Cond.holds, CondOp.holds, VarId.eval]; omega)
    · simp only [if_true]
      cases hs : adjustNegBound x add with
      | error e => left; have := adjustNegBound_error hs hx hv.2; rw [this]
      | ok w =>
        have hk := adjustNegBound_ok hs hx hv.2
        right
        exact change_spec hv.1 rfl (fun y => by simp [Lit.holds, Cond.holds, CondOp.holds, VarId.eval]; omega) (changeGreaterEqual_spec _ _ (hd.get hv.1))

theorem inferGreaterEqual_spec (d : Doms) (v : VarId) (x : Int) (u : Int) (hd : DomsOK d) (hv : v.Valid d.length) (hx : InI64 x) :
    RightOrOverflow (inferGreaterEqual d v x) (InferSpec d (.cond ⟨v, .greaterEqual, x, u⟩)) := by
  unfold inferGreaterEqual
  cases v with
  | simple i =>
    simp only [deview, bind, Except.bind, Bool.false_eq_true, if_false]
    cases hs : iSub x 0 with
    | error e => left; have := iSub_error hs hx (by decide); rw [this.1]
    | ok w =>
      have hk := iSub_ok hs hx (by decide)
      right
      exact change_spec hv rfl (fun y => by simp only [Lit.holds, Cond.holds, CondOp.holds, VarId.eval]; omega) (changeGreaterEqual_spec _ _ (hd.get hv))
  | const c =>
    simp only [deview, bind, Except.bind, Bool.false_eq_true, if_false]
    cases hs : iSub x 0 with
    | error e => left; have := iSub_error hs hx (by decide); rw [this.1]
    | ok w =>
      have hk := iSub_ok hs hx (by decide)
      right; exact onConstant_spec rfl (fun y => by simp only [Lit.holds, Cond.holds, CondOp.holds, VarId.eval, decide_eq_true_eq]; omega)
  | view i neg add =>
    simp only [deview, bind, Except.bind]
    cases neg
    · simp only [Bool.false_eq_true, if_false]
      cases hs : iSub x add with
      | error e => left; have := iSub_error hs hx hv.2; rw [this.1]
      | ok w =>
        have hk := iSub_ok hs hx hv.2
        right
        exact change_spec hv.1 rfl (fun y => by simp [Lit.holds, Cond.holds, CondOp.holds, VarId.eval]; omega) (changeGreaterEqual_spec _ _ (hd.get hv.1))
    · simp only [if_true]
      cases hs : adjustNegBound x add with
      | error e => left; have := adjustNegBound_error hs hx hv.2; rw [this]
      | ok w =>
        have hk := adjustNegBound_ok hs hx hv.2
        exact changeLT_roo hd hv.1 hk.1 rfl (fun y => by simp [Lit.holds, Cond.holds, CondOp.holds, VarId.eval]; omega)

theorem inferSpec_unchanged {d : Doms} {c : Cond} (hd : DomsOK d) (hv : c.var.Valid d.length) (h : ∀ a, (Lit.cond c).holds a) :
    InferSpec d (.cond c) (.noChange, d) where
  length := rfl
  others _ _ := rfl
  own i hi := by
    have hlt : i < d.length := by
      obtain ⟨v, op, x, u⟩ := c
      cases v <;> simp_all [Lit.underlying, VarId.underlying, VarId.Valid]
    exact ⟨d[i], d[i], List.getElem?_eq_getElem hlt, List.getElem?_eq_getElem hlt, spec_noChange (hd.get hlt) fun x _ => h _⟩
  noVar _ := ⟨rfl, .inl ⟨rfl, h⟩⟩

theorem inferSpec_false {d : Doms} {c : Cond} (hd : DomsOK d) (hv : c.var.Valid d.length) (h : ∀ a, ¬ (Lit.cond c).holds a) :
    InferSpec d (.cond c) (.contradiction, d) where
  length := rfl
  others _ _ := rfl
  own i hi := by
    have hlt : i < d.length := by
      obtain ⟨v, op, x, u⟩ := c
      cases v <;> simp_all [Lit.underlying, VarId.underlying, VarId.Valid]
    exact ⟨d[i], d[i], List.getElem?_eq_getElem hlt, List.getElem?_eq_getElem hlt,
      spec_contradiction (fun x _ => h _) (hd.get hlt).wf (fun _ hx => hx)⟩
  noVar _ := ⟨rfl, .inr ⟨rfl, h⟩⟩

theorem inferNotInRange_spec (d : Doms) (v : VarId) (lo hi : Int) (hd : DomsOK d) (hv : v.Valid d.length) (hlo : InI64 lo) (hhi : InI64 hi) :
    RightOrOverflow (inferNotInRange d v lo hi) (InferSpec d (.cond ⟨v, .notInRange, lo, hi⟩)) := by
  unfold inferNotInRange
  by_cases hlh : lo > hi
  · rw [if_pos hlh]; right; exact ⟨_, rfl, inferSpec_unchanged hd hv fun a => by simp only [Lit.holds, Cond.holds, CondOp.holds]; omega⟩
  rw [if_neg hlh]
  cases hadj : adjustRange lo hi (deview v).2.1 (deview v).2.2 with
  | error e =>
    left
    have : e = .overflow := adjustRange_error hadj hlo hhi (deview_add_inI64 hv)
    subst this
    cases v <;> simp_all [deview, bind, Except.bind]
  | ok w =>
    right
    have hk := (adjustRange_ok hadj hlo hhi (deview_add_inI64 hv)).2.2
    cases v with
    | simple i =>
      simp only [deview, bind, Except.bind] at hadj hk ⊢; rw [hadj]
      have hk' : ∀ y, (lo ≤ y ∧ y ≤ hi) ↔ (w.1 ≤ y ∧ y ≤ w.2) := by simpa [viewVal] using hk
      exact change_spec (P := fun y => ¬ (w.1 ≤ y ∧ y ≤ w.2)) hv rfl (fun y => not_congr (hk' y).symm) (changeNotInRange_spec _ w.1 w.2 (hd.get hv))
    | view i neg add =>
      simp only [deview, bind, Except.bind] at hadj hk ⊢; rw [hadj]
      exact change_spec (P := fun y => ¬ (w.1 ≤ y ∧ y ≤ w.2)) hv.1 rfl (fun y => not_congr (hk y).symm) (changeNotInRange_spec _ w.1 w.2 (hd.get hv.1))
    | const c =>
      simp only [deview, bind, Except.bind] at hadj hk ⊢; rw [hadj]
      have hk' : ∀ y, (lo ≤ y ∧ y ≤ hi) ↔ (w.1 ≤ y ∧ y ≤ w.2) := by simpa [viewVal] using hk
      exact onConstant_spec (b := decide (¬ (w.1 ≤ c ∧ c ≤ w.2))) rfl (fun a => by rw [decide_eq_true_iff]; exact not_congr (hk' c))

theorem inferInRange_spec (d : Doms) (v : VarId) (lo hi : Int) (hd : DomsOK d) (hv : v.Valid d.length) (hlo : InI64 lo) (hhi : InI64 hi) :
    RightOrOverflow (inferInRange d v lo hi) (InferSpec d (.cond ⟨v, .inRange, lo, hi⟩)) := by
  unfold inferInRange
  by_cases hlh : lo > hi
  · rw [if_pos hlh]; right; exact ⟨_, rfl, inferSpec_false hd hv fun a => by simp only [Lit.holds, Cond.holds, CondOp.holds]; omega⟩
  rw [if_neg hlh]
  cases hadj : adjustRange lo hi (deview v).2.1 (deview v).2.2 with
  | error e =>
    left
    have : e = .overflow := adjustRange_error hadj hlo hhi (deview_add_inI64 hv)
    subst this
    cases v <;> simp_all [deview, bind, Except.bind]
  | ok w =>
    right
    have hk := (adjustRange_ok hadj hlo hhi (deview_add_inI64 hv)).2.2
    cases v with
    | simple i =>
      simp only [deview, bind, Except.bind] at hadj hk ⊢; rw [hadj]
      have hk' : ∀ y, (lo ≤ y ∧ y ≤ hi) ↔ (w.1 ≤ y ∧ y ≤ w.2) := by simpa [viewVal] using hk
      exact change_spec (P := fun y => w.1 ≤ y ∧ y ≤ w.2) hv rfl (fun y => (hk' y).symm) (changeInRange_spec _ w.1 w.2 (hd.get hv))
    | view i neg add =>
      simp only [deview, bind, Except.bind] at hadj hk ⊢; rw [hadj]
      exact change_spec (P := fun y => w.1 ≤ y ∧ y ≤ w.2) hv.1 rfl (fun y => (hk y).symm) (changeInRange_spec _ w.1 w.2 (hd.get hv.1))
    | const c =>
      simp only [deview, bind, Except.bind] at hadj hk ⊢; rw [hadj]
      have hk' : ∀ y, (lo ≤ y ∧ y ≤ hi) ↔ (w.1 ≤ y ∧ y ≤ w.2) := by simpa [viewVal] using hk
      exact onConstant_spec (b := decide (w.1 ≤ c ∧ c ≤ w.2)) rfl (fun a => by rw [decide_eq_true_iff]; exact (hk' c))

/-- C11 / C12: `infer` on any literal, through any view: either the right result, or the overflow exception. Never undefined behaviour. -/
theorem infer_spec (d : Doms) (l : Lit) (hd : DomsOK d) (hl : l.Valid d.length) : RightOrOverflow (infer d l) (InferSpec d l) := by
  cases l with
  | tt => exact .inr ⟨(.noChange, d), rfl, { length := rfl, others := fun _ _ => rfl, own := fun i hi => (nomatch hi), noVar := fun _ => ⟨rfl, .inl ⟨rfl, fun _ => trivial⟩⟩ }⟩
  | ff => exact .inr ⟨(.contradiction, d), rfl, { length := rfl, others := fun _ _ => rfl, own := fun i hi => (nomatch hi), noVar := fun _ => ⟨rfl, .inr ⟨rfl, fun _ h => h⟩⟩ }⟩
  | cond c =>
    obtain ⟨v, op, x, u⟩ := c
    obtain ⟨h1, h2, h3⟩ := hl
    simp only at h1 h2 h3
    cases op
    · exact inferEqual_spec d v x u hd h1 h2
    · exact inferNotEqual_spec d v x u hd h1 h2
    · exact inferGreaterEqual_spec d v x u hd h1 h2
    · exact inferLessThan_spec d v x u hd h1 h2
    · exact inferInRange_spec d v x u hd h1 h2 h3
    · exact inferNotInRange_spec d v x u hd h1 h2 h3

/-! ## The same in terms of assignments -/

theorem holds_congr {l : Lit} {i : Nat} (h : l.underlying = some i) (a : Asg) : (l.holds fun _ => a i) ↔ l.holds a := by
  cases l with
  | tt => cases h
  | ff => cases h
  | cond c =>
    obtain ⟨v, op, x, u⟩ := c
    cases v <;> simp [Lit.underlying, VarId.underlying] at h <;> subst h <;> rfl

theorem exists_within {d : Doms} (hd : DomsOK d) : ∃ a, Within d a := by
  have : ∀ i : Nat, ∃ x, ∀ s, d[i]? = some s → Mem x s := by
    intro i
    cases h : d[i]? with
    | none => exact ⟨0, fun s hs => nomatch hs⟩
    | some s =>
      obtain ⟨x, hx⟩ := (hd s (List.mem_of_getElem? h)).nonempty
      exact ⟨x, fun s' hs => by cases hs; exact hx⟩
  exact ⟨fun i => (this i).choose, fun i s hs => (this i).choose_spec s hs⟩

theorem exists_within_at {d : Doms} (hd : DomsOK d) {i : Nat} {s : IntervalSet} (hs : d[i]? = some s) {x : Int} (hx : Mem x s) :
    ∃ a, Within d a ∧ a i = x := by
  obtain ⟨a, ha⟩ := exists_within hd
  refine ⟨fun j => if j = i then x else a j, ?_, if_pos rfl⟩
  intro j t ht
  by_cases hj : j = i
  · subst hj; rw [hs] at ht; cases ht; simpa using hx
  · simpa [hj] using ha j t ht

/-- Inference stated over assignments of the variables: a contradiction is reported exactly if no assignment within the domains satisfies the literal, and
otherwise the assignments that remain are exactly those which satisfy it. -/
structure InferMeaning (d : Doms) (l : Lit) (r : Inference × Doms) : Prop where
  contra : r.1 = .contradiction ↔ ∀ a, Within d a → ¬ l.holds a
  within : r.1 ≠ .contradiction → ∀ a, Within r.2 a ↔ Within d a ∧ l.holds a
  domsOK : r.1 ≠ .contradiction → DomsOK r.2
  shrinks : ∀ (i : Nat) s', r.2[i]? = some s' → ∃ s, d[i]? = some s ∧ ∀ x, Mem x s' → Mem x s
  noChange : r.1 = .noChange → r.2 = d

theorem inferMeaning_of_spec {d : Doms} {l : Lit} {r : Inference × Doms} (hd : DomsOK d) (h : InferSpec d l r) : InferMeaning d l r := by
  cases hu : l.underlying with
  | none =>
    obtain ⟨h1, h2⟩ := h.noVar hu
    refine ⟨⟨fun h3 a _ => ?_, fun h3 => ?_⟩, fun h3 a => ?_, fun h3 => h1 ▸ hd, fun i s' hs => ⟨s', h1 ▸ hs, fun _ hx => hx⟩, fun _ => h1⟩
    · rcases h2 with h2 | h2
      · rw [h2.1] at h3; cases h3
      · exact h2.2 a
    · rcases h2 with h2 | h2
      · obtain ⟨a, ha⟩ := exists_within hd
        exact absurd (h2.2 a) (h3 a ha)
      · exact h2.1
    · rcases h2 with h2 | h2
      · rw [h1]; simp [h2.2 a]
      · exact absurd h2.1 h3
  | some i =>
    obtain ⟨s, s', hs, hs', hc⟩ := h.own i hu
    have others : ∀ j, j ≠ i → r.2[j]? = d[j]? := fun j hj => h.others j (by rw [hu]; intro he; cases he; exact hj rfl)
    have hsok : DomOK s := hd s (List.mem_of_getElem? hs)
    refine ⟨⟨fun h3 a ha hl => ?_, fun h3 => ?_⟩, fun h3 a => ?_, fun h3 => ?_, fun j t ht => ?_, fun h3 => ?_⟩
    · exact hc.contra.1 h3 (a i) (ha i s hs) ((holds_congr hu a).2 hl)
    · refine hc.contra.2 fun x hx hl => ?_
      obtain ⟨a, ha, hax⟩ := exists_within_at hd hs hx
      subst hax
      exact h3 a ha ((holds_congr hu a).1 hl)
    · have hm := hc.mem h3
      constructor
      · intro ha
        have hi := (hm (a i)).1 (ha i s' hs')
        refine ⟨fun j t ht => ?_, (holds_congr hu a).1 hi.2⟩
        by_cases hj : j = i
        · subst hj; rw [hs] at ht; cases ht; exact hi.1
        · exact ha j t (by rw [others j hj]; exact ht)
      · rintro ⟨ha, hl⟩ j t ht
        by_cases hj : j = i
        · subst hj; rw [hs'] at ht; cases ht
          exact (hm _).2 ⟨ha _ s hs, (holds_congr hu a).2 hl⟩
        · exact ha j t (by rw [← others j hj]; exact ht)
    · intro t ht
      obtain ⟨j, hj⟩ := List.getElem?_of_mem ht
      by_cases hji : j = i
      · subst hji; rw [hs'] at hj; cases hj
        refine ⟨hc.wf, inRange_of_mem hc.wf fun x hx => mem_of_inRange hsok.inRange (hc.sub x hx), ?_⟩
        have : ¬ ∀ x, Mem x s → ¬ (l.holds fun _ => x) := fun hh => h3 (hc.contra.2 hh)
        simp only [Classical.not_forall, Classical.not_not] at this
        obtain ⟨x, hx, hl⟩ := this
        exact ⟨x, (hc.mem h3 x).2 ⟨hx, hl⟩⟩
      · rw [others j hji] at hj; exact hd t (List.mem_of_getElem? hj)
    · by_cases hji : j = i
      · subst hji; rw [hs'] at ht; cases ht; exact ⟨s, hs, hc.sub⟩
      · exact ⟨t, by rw [← others j hji]; exact ht, fun _ hx => hx⟩
    · have hk := hc.kind
      rw [h3] at hk
      simp only [KindSpec, Changed, Classical.not_not] at hk
      have : s' = s := canonical_unique hc.wf hsok.wf hk
      subst this
      apply List.ext_getElem? 
      intro j
      by_cases hji : j = i
      · subst hji; rw [hs, hs']
      · exact others j hji

/-- C11: if `infer` returns, the assignments that remain are exactly the previous ones that satisfy the literal, and a contradiction is reported
exactly if there are none; the only exception it can throw is the overflow exception. -/
theorem infer_exact (d : Doms) (l : Lit) (hd : DomsOK d) (hl : l.Valid d.length) : RightOrOverflow (infer d l) (InferMeaning d l) := by
  rcases infer_spec d l hd hl with h | ⟨r, h1, h2⟩
  · exact .inl h
  · exact .inr ⟨r, h1, inferMeaning_of_spec hd h2⟩

/-- C12: the reported kind of change is the right one, and the kind determines and is determined by what happened to the variable's set of values. -/
theorem infer_kind (d : Doms) (l : Lit) (hd : DomsOK d) (hl : l.Valid d.length) (r : Inference × Doms) (hr : infer d l = .ok r) (i : Nat)
    (hi : l.underlying = some i) : ∃ s s', d[i]? = some s ∧ r.2[i]? = some s' ∧ (∀ j, j ≠ i → r.2[j]? = d[j]?) ∧
      (r.1 = .contradiction ↔ ∀ x, Mem x s → ¬ l.holds fun _ => x) ∧
      (r.1 = .noChange ↔ r.1 ≠ .contradiction ∧ ¬ Changed s s') ∧
      (r.1 = .instantiated ↔ r.1 ≠ .contradiction ∧ Changed s s' ∧ SingleValued s') ∧
      (r.1 = .boundsChanged ↔ r.1 ≠ .contradiction ∧ Changed s s' ∧ ¬ SingleValued s' ∧ ∃ x, IsBound s x ∧ ¬ Mem x s') ∧
      (r.1 = .interiorValuesChanged ↔ r.1 ≠ .contradiction ∧ Changed s s' ∧ ¬ SingleValued s' ∧ ∀ x, IsBound s x → Mem x s') := by
  rcases infer_spec d l hd hl with h | ⟨r', h1, h2⟩
  · rw [h] at hr; cases hr
  · rw [h1] at hr; cases hr
    obtain ⟨s, s', hs, hs', hc⟩ := h2.own i hi
    refine ⟨s, s', hs, hs', fun j hj => h2.others j (by rw [hi]; intro he; cases he; exact hj rfl), hc.contra, ?_⟩
    have hk := hc.kind
    generalize r.1 = k at hk
    have hcon : (∃ x, IsBound s x ∧ ¬ Mem x s') → ¬ ∀ x, IsBound s x → Mem x s' := fun ⟨x, h1, h2⟩ h3 => h2 (h3 x h1)
    cases k <;> simp only [KindSpec] at hk <;> grind

/-! ## Totality -/

/-- All constants a variable mentions are small. -/
def VarId.SmallConst : VarId → Prop
  | .simple _ => True
  | .view _ _ add => Small add
  | .const c => Small c

def Lit.SmallConst : Lit → Prop
  | .cond c => c.var.SmallConst ∧ Small c.value ∧ Small c.upper
  | _ => True

theorem deview_add_small {v : VarId} (h : v.SmallConst) : Small (deview v).2.2 := by
  cases v with
  | simple i => show Small 0; decide
  | view i neg add => exact h
  | const c => show Small 0; decide

theorem adjust_total {x add : Int} (neg : Bool) (hx : Small x) (ha : Small add) : ∃ w, adjust x neg add = .ok w := by
  unfold adjust
  cases neg
  · exact ⟨_, iSub_total hx.inI64 ha.inI64 (by unfold InI64 i64Min i64Max; omega)⟩
  · simp only [if_true, bind, Except.bind]
    rw [iNeg_total hx.inI64 (by unfold InI64 i64Min i64Max; omega)]
    exact ⟨_, iAdd_total (by unfold InI64 i64Min i64Max; omega) ha.inI64 (by unfold InI64 i64Min i64Max; omega)⟩

theorem adjustNegBound_total {x add : Int} (hx : Small x) (ha : Small add) : adjustNegBound x add = .ok (-x + add + 1) := by
  unfold adjustNegBound
  simp only [bind, Except.bind]
  rw [iNeg_total hx.inI64 (by unfold InI64 i64Min i64Max; omega)]
  simp only []
  rw [iAdd_total (by unfold InI64 i64Min i64Max; omega) ha.inI64 (by unfold InI64 i64Min i64Max; omega)]
  simp only []
  rw [iAdd_total (by unfold InI64 i64Min i64Max; omega) (by decide) (by unfold InI64 i64Min i64Max; omega)]

theorem adjustRange_total {x y add : Int} (neg : Bool) (hx : Small x) (hy : Small y) (ha : Small add) : ∃ w, adjustRange x y neg add = .ok w := by
  unfold adjustRange
  cases neg
  · simp only [Bool.false_eq_true, if_false, bind, Except.bind]
    rw [iSub_total hx.inI64 ha.inI64 (by unfold InI64 i64Min i64Max; omega), iSub_total hy.inI64 ha.inI64 (by unfold InI64 i64Min i64Max; omega)]
    exact ⟨_, rfl⟩
  · simp only [if_true, bind, Except.bind]
    rw [iSub_total ha.inI64 hy.inI64 (by unfold InI64 i64Min i64Max; omega), iSub_total ha.inI64 hx.inI64 (by unfold InI64 i64Min i64Max; omega)]
    exact ⟨_, rfl⟩

theorem change_total {d : Doms} {i : Nat} {P : Int → Prop} {f : IntervalSet → Chk (Inference × IntervalSet)} (hi : i < d.length)
    (hf : ∃ r, f d[i] = .ok r ∧ ChangeSpec P d[i] r) : ∃ r, d.change i f = .ok r := by
  obtain ⟨r, h1, _⟩ := hf
  exact ⟨(r.1, d.set i r.2), by simp [Doms.change, stateOf_ok hi, h1, bind, Except.bind, pure, Except.pure]⟩

theorem changeLT_total {d : Doms} (hd : DomsOK d) {i : Nat} (hi : i < d.length) {w : Int} (hw : InI64 w) (hne : w ≠ i64Min) :
    ∃ r, d.change i (changeLessThan · w) = .ok r := change_total hi ((changeLessThan_spec _ w (hd.get hi) hw).1 hne)

/-- C11: with constants of magnitude at most 2^61, `infer` always returns. (The domains themselves can be any 64-bit sets.) -/
theorem infer_total (d : Doms) (l : Lit) (hd : DomsOK d) (hl : l.Valid d.length) (hs : l.SmallConst) : ∃ r, infer d l = .ok r := by
  cases l with
  | tt => exact ⟨_, rfl⟩
  | ff => exact ⟨_, rfl⟩
  | cond c =>
    obtain ⟨v, op, x, u⟩ := c
    obtain ⟨h1, -, -⟩ := hl
    obtain ⟨s1, s2, s3⟩ := hs
    simp only at h1 s1 s2 s3
    have hadd := deview_add_small s1
    obtain ⟨w, hw⟩ := adjust_total (deview v).2.1 s2 hadd
    obtain ⟨w2, hw2⟩ := adjustRange_total (deview v).2.1 s2 s3 hadd
    have h0 : iSub x 0 = .ok (x - 0) := iSub_total s2.inI64 (by decide) (by unfold InI64 i64Min i64Max; omega)
    have hne : x - 0 ≠ i64Min := by unfold i64Min; omega
    have hin : InI64 (x - 0) := by unfold InI64 i64Min i64Max; omega
    cases op
    · show ∃ r, inferEqual d v x = .ok r
      unfold inferEqual
      cases v <;> simp only [deview, bind, Except.bind] at hw hadd ⊢ <;> rw [hw]
      · exact change_total h1 (changeEqual_spec _ _ (hd.get h1))
      · exact change_total h1.1 (changeEqual_spec _ _ (hd.get h1.1))
      · exact ⟨_, rfl⟩
    · show ∃ r, inferNotEqual d v x = .ok r
      unfold inferNotEqual
      cases v <;> simp only [deview, bind, Except.bind] at hw hadd ⊢ <;> rw [hw]
      · exact change_total h1 (changeNotEqual_spec _ _ (hd.get h1))
      · exact change_total h1.1 (changeNotEqual_spec _ _ (hd.get h1.1))
      · exact ⟨_, rfl⟩
    · show ∃ r, inferGreaterEqual d v x = .ok r
      unfold inferGreaterEqual
      cases v with
      | simple i =>
        simp only [deview, bind, Except.bind, Bool.false_eq_true, if_false]; rw [h0]
        exact change_total h1 (changeGreaterEqual_spec _ _ (hd.get h1))
      | const c =>
        simp only [deview, bind, Except.bind, Bool.false_eq_true, if_false]; rw [h0]
        exact ⟨_, rfl⟩
      | view i neg add =>
        simp only [deview, bind, Except.bind] at hadd ⊢
        cases neg
        · simp only [Bool.false_eq_true, if_false]
          rw [iSub_total s2.inI64 hadd.inI64 (by unfold InI64 i64Min i64Max; omega)]
          exact change_total h1.1 (changeGreaterEqual_spec _ _ (hd.get h1.1))
        · simp only [if_true]
          rw [adjustNegBound_total s2 hadd]
          exact changeLT_total hd h1.1 (by unfold InI64 i64Min i64Max; omega) (by unfold i64Min; omega)
    · show ∃ r, inferLessThan d v x = .ok r
      unfold inferLessThan
      cases v with
      | simple i =>
        simp only [deview, bind, Except.bind, Bool.false_eq_true, if_false]; rw [h0]
        exact changeLT_total hd h1 hin hne
      | const c =>
        simp only [deview, bind, Except.bind, Bool.false_eq_true, if_false]; rw [h0]
        exact ⟨_, rfl⟩
      | view i neg add =>
        simp only [deview, bind, Except.bind] at hadd ⊢
        cases neg
        · simp only [Bool.false_eq_true, if_false]
          rw [iSub_total s2.inI64 hadd.inI64 (by unfold InI64 i64Min i64Max; omega)]
          exact changeLT_total hd h1.1 (by unfold InI64 i64Min i64Max; omega) (by unfold i64Min; omega)
        · simp only [if_true]
          rw [adjustNegBound_total s2 hadd]
          exact change_total h1.1 (changeGreaterEqual_spec _ _ (hd.get h1.1))
    · show ∃ r, inferInRange d v x u = .ok r
      unfold inferInRange
      by_cases hlh : x > u
      · rw [if_pos hlh]; exact ⟨_, rfl⟩
      rw [if_neg hlh]
      cases v <;> simp only [deview, bind, Except.bind] at hw2 hadd ⊢ <;> rw [hw2]
      · exact change_total h1 (changeInRange_spec _ _ _ (hd.get h1))
      · exact change_total h1.1 (changeInRange_spec _ _ _ (hd.get h1.1))
      · exact ⟨_, rfl⟩
    · show ∃ r, inferNotInRange d v x u = .ok r
      unfold inferNotInRange
      by_cases hlh : x > u
      · rw [if_pos hlh]; exact ⟨_, rfl⟩
      rw [if_neg hlh]
      cases v <;> simp only [deview, bind, Except.bind] at hw2 hadd ⊢ <;> rw [hw2]
      · exact change_total h1 (changeNotInRange_spec _ _ _ (hd.get h1))
      · exact change_total h1.1 (changeNotInRange_spec _ _ _ (hd.get h1.1))
      · exact ⟨_, rfl⟩

/-- Without the bound on constants the overflow exception is really possible, even where the exact answer exists: `x < -2^63` is false for every 64-bit `x`,
but asking for it throws instead of reporting a contradiction. -/
theorem infer_can_overflow : infer [[(0, 5)]] (.cond (.lt (.simple 0) i64Min)) = .error .overflow := by decide +kernel

/-! Non-vacuity: a domain with a hole, seen through the negated view `-x + 3`. -/
example : DomsOK [[(0, 3), (5, 9)], [(i64Min, i64Max)]] := by
  intro s hs
  simp only [List.mem_cons, List.not_mem_nil, or_false] at hs
  rcases hs with rfl | rfl
  · exact ⟨by simp [WF], by simp [InRange, InI64, i64Min, i64Max], 0, by simp [Mem]⟩
  · exact ⟨by simp [WF, i64Min, i64Max], by simp [InRange, InI64, i64Min, i64Max], 0, by simp [Mem, i64Min, i64Max]⟩
example : (Lit.cond (.ge (.view 0 true 3) 1)).Valid 2 := by simp [Lit.Valid, Cond.Valid, Cond.ge, VarId.Valid, InI64, i64Min, i64Max]
example : infer [[(0, 3), (5, 9)], [(i64Min, i64Max)]] (.cond (.ge (.view 0 true 3) 1)) = .ok (.boundsChanged, [[(0, 2)], [(i64Min, i64Max)]]) := by
  decide +kernel
example : infer [[(0, 3), (5, 9)]] (.cond (.ne (.view 0 true 3) (-4))) = .ok (.interiorValuesChanged, [[(0, 3), (5, 6), (8, 9)]]) := by
  decide +kernel
example : infer [[(0, 3), (5, 9)]] (.cond ⟨.simple 0, .inRange, 3, 4⟩) = .ok (.instantiated, [[(3, 3)]]) := by decide +kernel
example : infer [[(0, 3), (5, 9)]] (.cond (.eq (.simple 0) 4)) = .ok (.contradiction, [[(0, 3), (5, 9)]]) := by decide +kernel
example : infer [[(0, 3), (5, 9)]] (.cond (.lt (.simple 0) 50)) = .ok (.noChange, [[(0, 3), (5, 9)]]) := by decide +kernel

#print axioms infer_spec
#print axioms infer_exact
#print axioms infer_kind
#print axioms infer_total

end Gcs
