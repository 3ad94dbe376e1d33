import Verif.Lemmas.Query

/-!
# C13, C14: queries and enumeration through views

`Poss d v y`: some assignment within the domains gives the (viewed) variable `v` the value `y`. Every query is characterised through it.
-/

namespace Gcs
open IntervalSet

/-- `y` is the least possible value. -/
def IsMin (P : Int → Prop) (y : Int) : Prop := P y ∧ ∀ z, P z → y ≤ z
/-- `y` is the greatest possible value. -/
def IsMax (P : Int → Prop) (y : Int) : Prop := P y ∧ ∀ z, P z → z ≤ y

theorem IntervalSet.Bnd.mem_ite_ul {s : IntervalSet} {l u : Int} (b : Bnd s l u) (c : Bool) : Mem (if c then u else l) s := by
  cases c
  · exact b.meml
  · exact b.memu

theorem IntervalSet.Bnd.mem_ite_lu {s : IntervalSet} {l u : Int} (b : Bnd s l u) (c : Bool) : Mem (if c then l else u) s := by
  cases c
  · exact b.memu
  · exact b.meml

variable {d : Doms} {v : VarId}

theorem view_min (hd : DomsOK d) (hv : v.Valid d.length) {l u : Int} (b : Bnd (rawOf d v) l u) :
    IsMin (Poss d v) (viewVal (deview v).2.1 (deview v).2.2 (if (deview v).2.1 then u else l)) := by
  refine ⟨(poss_iff hd hv _).2 ⟨_, ?_, rfl⟩, fun z hz => ?_⟩
  · exact b.mem_ite_ul _
  · obtain ⟨x, hx, rfl⟩ := (poss_iff hd hv _).1 hz
    have := b.le x hx
    unfold viewVal; split <;> omega

theorem view_max (hd : DomsOK d) (hv : v.Valid d.length) {l u : Int} (b : Bnd (rawOf d v) l u) :
    IsMax (Poss d v) (viewVal (deview v).2.1 (deview v).2.2 (if (deview v).2.1 then l else u)) := by
  refine ⟨(poss_iff hd hv _).2 ⟨_, ?_, rfl⟩, fun z hz => ?_⟩
  · exact b.mem_ite_lu _
  · obtain ⟨x, hx, rfl⟩ := (poss_iff hd hv _).1 hz
    have := b.le x hx
    unfold viewVal; split <;> omega

/-- C13: `lower_bound`. -/
theorem lowerBound_spec (hd : DomsOK d) (hv : v.Valid d.length) : RightUnless (¬ Fits d v) (lowerBound d v) (IsMin (Poss d v)) := by
  have ok := rawOf_ok hd hv
  obtain ⟨l, u, b⟩ := exists_bnd ok.wf ok.nonempty
  rw [lowerBound_eq hd hv b]
  exact (applyView_raw hd hv (b.mem_ite_ul _)).imp id fun r hr => hr.1 ▸ view_min hd hv b

/-- C13: `upper_bound`. -/
theorem upperBound_spec (hd : DomsOK d) (hv : v.Valid d.length) : RightUnless (¬ Fits d v) (upperBound d v) (IsMax (Poss d v)) := by
  have ok := rawOf_ok hd hv
  obtain ⟨l, u, b⟩ := exists_bnd ok.wf ok.nonempty
  rw [upperBound_eq hd hv b]
  exact (applyView_raw hd hv (b.mem_ite_lu _)).imp id fun r hr => hr.1 ▸ view_max hd hv b

/-- C13: `bounds`. -/
theorem bounds_spec (hd : DomsOK d) (hv : v.Valid d.length) :
    RightUnless (¬ Fits d v) (bounds d v) (fun r => IsMin (Poss d v) r.1 ∧ IsMax (Poss d v) r.2) := by
  have ok := rawOf_ok hd hv
  obtain ⟨l, u, b⟩ := exists_bnd ok.wf ok.nonempty
  rw [bounds_eq hd hv b]
  refine RightUnless.bind (applyView_raw hd hv (b.mem_ite_ul _)) fun x hx => ?_
  refine RightUnless.bind (applyView_raw hd hv (b.mem_ite_lu _)) fun y hy => ?_
  exact RightUnless.pure ⟨hx.1 ▸ view_min hd hv b, hy.1 ▸ view_max hd hv b⟩

/-- C13: `in_domain`. -/
theorem inDomain_spec (hd : DomsOK d) (hv : v.Valid d.length) (x : Int) (hx : InI64 x) :
    RightOrOverflow (inDomain d v x) (fun b => b = true ↔ Poss d v x) := by
  rw [inDomain_eq hd hv hx]
  cases hw : adjust x (deview v).2.1 (deview v).2.2 with
  | error e => left; rw [adjust_error hw hx (deview_add_inI64 hv)]; rfl
  | ok w =>
    right
    refine ⟨_, rfl, ?_⟩
    have hk := (adjust_ok hw hx (deview_add_inI64 hv)).2
    show contains w (rawOf d v) = true ↔ _
    rw [contains_spec _ _ (rawOf_ok hd hv).wf, poss_iff hd hv]
    constructor
    · intro h; exact ⟨w, h, (hk w).2 rfl⟩
    · rintro ⟨y, hy, he⟩; rw [(hk y).1 he] at hy; exact hy

/-- C13: `has_single_value` never throws. -/
theorem hasSingleValue_spec (hd : DomsOK d) (hv : v.Valid d.length) :
    ∃ b, hasSingleValue d v = .ok b ∧ (b = true ↔ ∃ y, ∀ z, Poss d v z ↔ z = y) := by
  have ok := rawOf_ok hd hv
  obtain ⟨l, u, b⟩ := exists_bnd ok.wf ok.nonempty
  rw [hasSingleValue_eq hv, b.lowerIsUpper]
  refine ⟨_, rfl, ?_⟩
  rw [decide_eq_true_iff]
  constructor
  · rintro rfl
    refine ⟨viewVal (deview v).2.1 (deview v).2.2 l, fun z => ?_⟩
    rw [poss_iff hd hv]
    constructor
    · rintro ⟨x, hx, rfl⟩; have := b.le x hx; rw [viewVal_inj]; omega
    · rintro rfl; exact ⟨l, b.meml, rfl⟩
  · rintro ⟨y, hy⟩
    have h1 := (hy _).1 ((poss_iff hd hv _).2 ⟨l, b.meml, rfl⟩)
    have h2 := (hy _).1 ((poss_iff hd hv _).2 ⟨u, b.memu, rfl⟩)
    exact viewVal_inj.1 (h1.trans h2.symm)

/-- C13: `optional_single_value` / `operator()` of the public API. -/
theorem optionalSingleValue_spec (hd : DomsOK d) (hv : v.Valid d.length) :
    RightUnless (¬ Fits d v) (optionalSingleValue d v) (fun r => ∀ y, r = some y ↔ ∀ z, Poss d v z ↔ z = y) := by
  have ok := rawOf_ok hd hv
  obtain ⟨l, u, b⟩ := exists_bnd ok.wf ok.nonempty
  rw [optionalSingleValue_eq hd hv b]
  by_cases h : l = u
  · rw [if_pos h]; subst h
    refine RightUnless.bind (applyView_raw hd hv b.meml) fun x hx => RightUnless.pure fun y => ?_
    have key : ∀ z, Poss d v z ↔ z = x := fun z => by
      rw [poss_iff hd hv, hx.1]
      constructor
      · rintro ⟨w, hw, rfl⟩; have := b.le w hw; rw [viewVal_inj]; omega
      · rintro rfl; exact ⟨l, b.meml, rfl⟩
    constructor
    · rintro h; cases h; exact key
    · intro hh; rw [(hh x).1 ((key x).2 rfl)]
  · rw [if_neg h]
    refine RightUnless.pure fun y => ⟨fun h => (nomatch h), fun hy => absurd ?_ h⟩
    have h1 := (hy _).1 ((poss_iff hd hv _).2 ⟨l, b.meml, rfl⟩)
    have h2 := (hy _).1 ((poss_iff hd hv _).2 ⟨u, b.memu, rfl⟩)
    exact viewVal_inj.1 (h1.trans h2.symm)

/-- C13: `operator()` gives the only value, or throws if there are several. -/
theorem valueOf_spec (hd : DomsOK d) (hv : v.Valid d.length) (hf : Fits d v) :
    (∀ y, valueOf d v = .ok y ↔ ∀ z, Poss d v z ↔ z = y) ∧ ((∀ y, ¬ ∀ z, Poss d v z ↔ z = y) → valueOf d v = .error .noUniqueValue) := by
  obtain ⟨r, h1, h2⟩ := (optionalSingleValue_spec hd hv).total (by simpa using hf)
  cases r with
  | none =>
    have : valueOf d v = .error .noUniqueValue := by simp [valueOf, h1, Bind.bind, Except.bind, throw, throwThe, MonadExceptOf.throw]
    rw [this]
    refine ⟨fun y => ⟨fun h => (nomatch h), fun h => absurd ((h2 y).2 h) (by simp)⟩, fun _ => rfl⟩
  | some x =>
    have : valueOf d v = .ok x := by simp [valueOf, h1, Bind.bind, Except.bind, Pure.pure, Except.pure]
    rw [this]
    refine ⟨fun y => ?_, fun h => absurd ((h2 x).1 rfl) (h x)⟩
    rw [← h2 y]; simp

/-- C13: `domain_has_holes` never throws. -/
theorem domainHasHoles_spec (hd : DomsOK d) (hv : v.Valid d.length) :
    ∃ b, domainHasHoles d v = .ok b ∧ (b = true ↔ ∃ x y z, Poss d v x ∧ Poss d v z ∧ x < y ∧ y < z ∧ ¬ Poss d v y) := by
  rw [domainHasHoles_eq hv]
  refine ⟨_, rfl, ?_⟩
  rw [hasHoles_spec _ (rawOf_ok hd hv).wf]
  simp only [poss_iff hd hv]
  generalize (deview v).2.1 = n; generalize (deview v).2.2 = k
  constructor
  · rintro ⟨a, x, b, ha, hb, h1, h2, h3⟩
    cases n
    · refine ⟨a + k, x + k, b + k, ⟨a, ha, by simp [viewVal]⟩, ⟨b, hb, by simp [viewVal]⟩, by omega, by omega, ?_⟩
      rintro ⟨y, hy, he⟩; simp only [viewVal, Bool.false_eq_true, if_false] at he; have : y = x := by omega
      exact h3 (this ▸ hy)
    · refine ⟨- b + k, - x + k, - a + k, ⟨b, hb, by simp [viewVal]⟩, ⟨a, ha, by simp [viewVal]⟩, by omega, by omega, ?_⟩
      rintro ⟨y, hy, he⟩; simp only [viewVal, if_true] at he; have : y = x := by omega
      exact h3 (this ▸ hy)
  · rintro ⟨x, y, z, ⟨a, ha, rfl⟩, ⟨b, hb, rfl⟩, h1, h2, h3⟩
    cases n
    · simp only [viewVal, Bool.false_eq_true, if_false] at h1 h2 h3
      exact ⟨a, y - k, b, ha, hb, by omega, by omega, fun h => h3 ⟨y - k, h, by omega⟩⟩
    · simp only [viewVal, if_true] at h1 h2 h3
      exact ⟨b, k - y, a, hb, ha, by omega, by omega, fun h => h3 ⟨k - y, h, by omega⟩⟩

/-- C13: `domain_size` is the number of possible values: the length of any duplicate-free list of them. It throws only if that number is not a 64-bit
integer. -/
theorem domainSize_spec (hd : DomsOK d) (hv : v.Valid d.length) :
    ∃ L : List Int, L.Nodup ∧ (∀ y, y ∈ L ↔ Poss d v y) ∧ domainSize d v = exactOrThrow (L.length : Int) := by
  have ok := rawOf_ok hd hv
  have h := (each_spec _ ok.wf ok.inRange).1
  refine ⟨(each (rawOf d v)).1.map (viewVal (deview v).2.1 (deview v).2.2), ?_, ?_, ?_⟩
  · refine List.Pairwise.map _ ?_ h.1
    intro a b hab he
    have := viewVal_inj.1 he; omega
  · intro y; rw [poss_iff hd hv]; simp only [List.mem_map, h.2]
  · rw [domainSize_eq hv, List.length_map]; exact size_counts_members _ ok.wf ok.inRange _ h

/-! ## Copies -/

theorem shiftIntervals_spec (add : Int) (ha : InI64 add) : ∀ (l result : IntervalSet), WF l → InRange l → WF result → InRange result →
    (∀ x y, Mem x result → Mem y l → x < y + add) →
    RightUnless (¬ ∀ x, Mem x l → InI64 (x + add)) (shiftIntervals add l result)
      (fun t => WF t ∧ InRange t ∧ ∀ y, Mem y t ↔ Mem y result ∨ ∃ x, Mem x l ∧ y = x + add)
  | [], result, _, _, w, r, _ => RightUnless.pure ⟨w, r, fun y => by simp⟩
  | (lo, hi) :: rest, result, wl, rl, w, r, hlt => by
    obtain ⟨hlu, hA, hwr⟩ := wf_cons.1 wl
    have rl' := (inRange_cons _ _ _).1 rl
    unfold shiftIntervals
    have hb1 : RightUnless (¬ ∀ x, Mem x ((lo, hi) :: rest) → InI64 (x + add)) (iAdd lo add) (fun y => y = lo + add ∧ InI64 y) := by
      cases h : iAdd lo add with
      | error e =>
        have := iAdd_error h rl'.1.1 ha
        left; exact ⟨by rw [this.1], fun hh => this.2 (hh lo ((mem_cons _ _ _ _).2 (.inl ⟨by omega, hlu⟩)))⟩
      | ok y => right; exact ⟨y, rfl, iAdd_ok h rl'.1.1 ha⟩
    have hb2 : RightUnless (¬ ∀ x, Mem x ((lo, hi) :: rest) → InI64 (x + add)) (iAdd hi add) (fun y => y = hi + add ∧ InI64 y) := by
      cases h : iAdd hi add with
      | error e =>
        have := iAdd_error h rl'.1.2 ha
        left; exact ⟨by rw [this.1], fun hh => this.2 (hh hi ((mem_cons _ _ _ _).2 (.inl ⟨hlu, by omega⟩)))⟩
      | ok y => right; exact ⟨y, rfl, iAdd_ok h rl'.1.2 ha⟩
    refine hb1.bind fun a ⟨ea, ia⟩ => hb2.bind fun b ⟨eb, ib⟩ => ?_
    subst ea; subst eb
    obtain ⟨t, ht, wt, mt⟩ := insertAtEnd_spec (lo + add) (hi + add) result w ia (by omega) r
      (fun x hx => hlt x lo hx ((mem_cons _ _ _ _).2 (.inl ⟨by omega, hlu⟩)))
    rw [ht]
    have rt : InRange t := inRange_of_mem wt fun x hx => by
      rcases (mt x).1 hx with h | h
      · exact mem_of_inRange r h
      · exact ⟨by have := ia.1; omega, by have := ib.2; omega⟩
    refine (shiftIntervals_spec add ha rest t hwr rl'.2 wt rt ?_).imp ?_ ?_
    · intro x y hx hy
      rcases (mt x).1 hx with h | h
      · exact hlt x y h ((mem_cons _ _ _ _).2 (.inr hy))
      · obtain ⟨q, hq, h1, h2⟩ := hy
        have := hA q hq; omega
    · intro h h2; exact h fun x hx => h2 x ((mem_cons _ _ _ _).2 (.inr hx))
    · rintro t' ⟨w', r', m'⟩
      refine ⟨w', r', fun y => ?_⟩
      rw [m', mt]
      constructor
      · rintro ((h | h) | ⟨x, hx, rfl⟩)
        · exact .inl h
        · exact .inr ⟨y - add, (mem_cons _ _ _ _).2 (.inl (by omega)), by omega⟩
        · exact .inr ⟨x, (mem_cons _ _ _ _).2 (.inr hx), rfl⟩
      · rintro (h | ⟨x, hx, rfl⟩)
        · exact .inl (.inl h)
        · rcases (mem_cons _ _ _ _).1 hx with h | h
          · exact .inl (.inr (by omega))
          · exact .inr ⟨x, h, rfl⟩

/-- `l` is the list of intervals in reverse order. -/
theorem negateIntervals_spec (add : Int) (ha : InI64 add) : ∀ (l result : IntervalSet), WF l.reverse → InRange l → WF result → InRange result →
    (∀ x y, Mem x result → Mem y l → x < - y + add) →
    RightUnless (¬ ∀ x, Mem x l → InI64 (- x) ∧ InI64 (- x + add)) (negateIntervals add l result)
      (fun t => WF t ∧ InRange t ∧ ∀ y, Mem y t ↔ Mem y result ∨ ∃ x, Mem x l ∧ y = - x + add)
  | [], result, _, _, w, r, _ => RightUnless.pure ⟨w, r, fun y => by simp⟩
  | (lo, hi) :: rest, result, wl, rl, w, r, hlt => by
    rw [List.reverse_cons] at wl
    obtain ⟨hwr, w2, w3⟩ := wf_append.1 wl
    have hlu := (wf_cons.1 w2).1
    have rl' := (inRange_cons _ _ _).1 rl
    unfold negateIntervals
    have hb : ∀ z, InI64 z → Mem z ((lo, hi) :: rest) →
        RightUnless (¬ ∀ x, Mem x ((lo, hi) :: rest) → InI64 (- x) ∧ InI64 (- x + add)) (do iAdd (← iNeg z) add)
          (fun y => y = - z + add ∧ InI64 y) := by
      intro z hz hm
      cases h0 : iNeg z with
      | error e =>
        have := iNeg_error h0 hz
        left; exact ⟨by rw [this.1]; rfl, fun hh => this.2 (hh z hm).1⟩
      | ok n =>
        have k := iNeg_ok h0 hz
        simp only [Bind.bind, Except.bind]
        cases h : iAdd n add with
        | error e =>
          have := iAdd_error h k.2 ha
          left; exact ⟨by rw [this.1], fun hh => this.2 (k.1 ▸ (hh z hm).2)⟩
        | ok y => right; exact ⟨y, rfl, k.1 ▸ iAdd_ok h k.2 ha⟩
    have mlo : Mem lo ((lo, hi) :: rest) := (mem_cons _ _ _ _).2 (.inl ⟨by omega, hlu⟩)
    have mhi : Mem hi ((lo, hi) :: rest) := (mem_cons _ _ _ _).2 (.inl ⟨hlu, by omega⟩)
    have := (hb hi rl'.1.2 mhi)
    have h2 := (hb lo rl'.1.1 mlo)
    have assoc : (do
        let result' ← insertAtEnd (← iAdd (← iNeg hi) add) (← iAdd (← iNeg lo) add) result
        negateIntervals add rest result' : Chk IntervalSet) =
        (do
        let a ← (do iAdd (← iNeg hi) add)
        let b ← (do iAdd (← iNeg lo) add)
        let result' ← insertAtEnd a b result
        negateIntervals add rest result' : Chk IntervalSet) := by
      simp only [Bind.bind, Except.bind]
      cases iNeg hi with
      | error e => rfl
      | ok x =>
        simp only []
        cases iAdd x add with
        | error e => rfl
        | ok y => simp only []; cases iNeg lo <;> rfl
    rw [assoc]
    refine this.bind fun a ⟨ea, ia⟩ => h2.bind fun b ⟨eb, ib⟩ => ?_
    subst ea; subst eb
    obtain ⟨t, ht, wt, mt⟩ := insertAtEnd_spec (- hi + add) (- lo + add) result w ia (by omega) r (fun x hx => hlt x hi hx mhi)
    rw [ht]
    have rt : InRange t := inRange_of_mem wt fun x hx => by
      rcases (mt x).1 hx with h | h
      · exact mem_of_inRange r h
      · exact ⟨by have := ia.1; omega, by have := ib.2; omega⟩
    refine (negateIntervals_spec add ha rest t hwr rl'.2 wt rt ?_).imp ?_ ?_
    · intro x y hx hy
      rcases (mt x).1 hx with h | h
      · exact hlt x y h ((mem_cons _ _ _ _).2 (.inr hy))
      · obtain ⟨q, hq, h1, h2⟩ := hy
        have := w3 q (List.mem_reverse.2 hq) (lo, hi) (by simp)
        simp only at this; omega
    · intro h h2; exact h fun x hx => h2 x ((mem_cons _ _ _ _).2 (.inr hx))
    · rintro t' ⟨w', r', m'⟩
      refine ⟨w', r', fun y => ?_⟩
      rw [m', mt]
      constructor
      · rintro ((h | h) | ⟨x, hx, rfl⟩)
        · exact .inl h
        · exact .inr ⟨add - y, (mem_cons _ _ _ _).2 (.inl (by omega)), by omega⟩
        · exact .inr ⟨x, (mem_cons _ _ _ _).2 (.inr hx), rfl⟩
      · rintro (h | ⟨x, hx, rfl⟩)
        · exact .inl (.inl h)
        · rcases (mem_cons _ _ _ _).1 hx with h | h
          · exact .inl (.inr (by omega))
          · exact .inr ⟨x, h, rfl⟩

theorem copyOfValues_eq (hv : v.Valid d.length) : copyOfValues d v =
    if ¬ (deview v).2.1 ∧ (deview v).2.2 = 0 then .ok (rawOf d v)
    else if (deview v).2.1 then negateIntervals (deview v).2.2 (rawOf d v).reverse [] else shiftIntervals (deview v).2.2 (rawOf d v) [] := by
  cases v with
  | simple i => simp [copyOfValues, deview, stateOf_ok hv, rawOf, List.getElem?_eq_getElem hv, Bind.bind, Except.bind, Pure.pure, Except.pure]
  | const c => simp [copyOfValues, deview, rawOf, single, Bind.bind, Except.bind, Pure.pure, Except.pure]
  | view i n k =>
    cases n <;> simp [copyOfValues, deview, stateOf_ok hv.1, rawOf, List.getElem?_eq_getElem hv.1, eachInterval, Bind.bind, Except.bind, Pure.pure, Except.pure]

/-- C13: `copy_of_values` is the canonical set of the possible values. -/
theorem copyOfValues_spec (hd : DomsOK d) (hv : v.Valid d.length) :
    RightUnless (¬ Fits d v) (copyOfValues d v) (fun t => WF t ∧ InRange t ∧ ∀ y, Mem y t ↔ Poss d v y) := by
  have ok := rawOf_ok hd hv
  have hadd := deview_add_inI64 hv
  rw [copyOfValues_eq hv]
  simp only [poss_iff hd hv]
  have hbad : (¬ ∀ x, Mem x (rawOf d v) → ((deview v).2.1 = true → InI64 (- x)) ∧ InI64 (viewVal (deview v).2.1 (deview v).2.2 x)) → ¬ Fits d v := by
    intro h
    simp only [Classical.not_forall] at h
    obtain ⟨x, hx, h⟩ := h
    exact not_fits hd hv hx h
  revert hbad
  generalize (deview v).2.1 = n at *; generalize (deview v).2.2 = k at *
  intro hbad
  by_cases h0 : ¬ n ∧ k = 0
  · rw [if_pos h0]
    have : n = false := by simpa using h0.1
    rw [this, h0.2]
    exact RightUnless.pure ⟨ok.wf, ok.inRange, fun y => by simp [viewVal]⟩
  · rw [if_neg h0]
    cases n
    · simp only [Bool.false_eq_true, if_false]
      refine (shiftIntervals_spec k hadd _ [] ok.wf ok.inRange (by simp [WF]) (by simp [InRange]) (by simp)).imp ?_ ?_
      · intro h; apply hbad; intro h2; exact h fun x hx => by simpa [viewVal] using (h2 x hx).2
      · rintro t ⟨h1, h2, h3⟩; refine ⟨h1, h2, fun y => ?_⟩; rw [h3]; simp [viewVal, eq_comm]
    · simp only [if_true]
      have hm : ∀ x, Mem x (rawOf d v).reverse ↔ Mem x (rawOf d v) := fun x => by simp [Mem]
      refine (negateIntervals_spec k hadd _ [] (by simpa using ok.wf) (by simpa [InRange] using ok.inRange) (by simp [WF]) (by simp [InRange])
        (by simp)).imp ?_ ?_
      · intro h; apply hbad; intro h2; exact h fun x hx => by simpa [viewVal] using h2 x ((hm x).1 hx)
      · rintro t ⟨h1, h2, h3⟩; refine ⟨h1, h2, fun y => ?_⟩; rw [h3]; simp [viewVal, eq_comm, hm]

/-- C13: `domain_intersects_with`. -/
theorem domainIntersectsWith_spec (hd : DomsOK d) (hv : v.Valid d.length) (set : IntervalSet) (hs : WF set) :
    RightUnless (¬ Fits d v) (domainIntersectsWith d v set) (fun b => b = true ↔ ∃ y, Poss d v y ∧ Mem y set) := by
  have hc := copyOfValues_spec hd hv
  have key : RightUnless (¬ Fits d v) (do return containsAnyOf (← copyOfValues d v) set) (fun b => b = true ↔ ∃ y, Poss d v y ∧ Mem y set) := by
    refine hc.bind fun t ⟨h1, _, h3⟩ => RightUnless.pure ?_
    rw [containsAnyOf_spec _ _ h1 hs]; simp only [h3]
  cases v with
  | simple i =>
    simp only [copyOfValues_eq hv, deview, Bool.false_eq_true, not_false_eq_true, and_self, if_true, rawOf, List.getElem?_eq_getElem hv, Option.getD_some] at key
    simpa [domainIntersectsWith, deview, stateOf_ok hv, Bind.bind, Except.bind] using key
  | const c =>
    have : iAdd c 0 = .ok c := iAdd_zero hv
    simp only [domainIntersectsWith, deview, Bool.false_eq_true, if_false, this]
    refine RightUnless.pure ?_
    rw [contains_spec _ _ hs]
    simp only [poss_iff hd hv, rawOf, mem_const, deview, viewVal]
    simp
  | view i n k =>
    cases n
    · by_cases hk : k = 0
      · subst hk
        simp only [copyOfValues_eq hv, deview, Bool.false_eq_true, not_false_eq_true, and_self, if_true, rawOf, List.getElem?_eq_getElem hv.1, Option.getD_some] at key
        simpa [domainIntersectsWith, deview, stateOf_ok hv.1, Bind.bind, Except.bind] using key
      · simpa [domainIntersectsWith, deview, hk] using key
    · simpa [domainIntersectsWith, deview] using key

theorem fits_add_zero_simple (i : Nat) : Fits d (.simple i) := fun _ _ => trivial

/-- C13: `domains_intersect`. -/
theorem domainsIntersect_spec {v1 v2 : VarId} (hd : DomsOK d) (h1 : v1.Valid d.length) (h2 : v2.Valid d.length) :
    RightOrOverflow (domainsIntersect d v1 v2) (fun b => b = true ↔ ∃ y, Poss d v1 y ∧ Poss d v2 y) := by
  have drop : ∀ {bad : Prop} {x : Chk Bool} {R : Bool → Prop}, RightUnless bad x R → RightOrOverflow x R := by
    intro bad x R h
    rcases h with h | h
    · exact .inl h.1
    · exact .inr h
  have via : ∀ {w1 w2 : VarId}, w1.Valid d.length → w2.Valid d.length →
      RightOrOverflow (do domainIntersectsWith d w2 (← copyOfValues d w1)) (fun b => b = true ↔ ∃ y, Poss d w1 y ∧ Poss d w2 y) := by
    intro w1 w2 hw1 hw2
    rcases copyOfValues_spec hd hw1 with h | ⟨t, ht, wt, _, mt⟩
    · left; rw [h.1]; rfl
    · have : (do domainIntersectsWith d w2 (← copyOfValues d w1)) = domainIntersectsWith d w2 t := by rw [ht]; rfl
      rw [this]
      rcases drop (domainIntersectsWith_spec hd hw2 t wt) with h | ⟨b, hb, hb2⟩
      · exact .inl h
      · refine .inr ⟨b, hb, ?_⟩
        refine hb2.trans ?_; simp only [mt]
        exact ⟨fun ⟨y, a, b⟩ => ⟨y, b, a⟩, fun ⟨y, a, b⟩ => ⟨y, b, a⟩⟩
  have swap : ∀ {x : Chk Bool}, RightOrOverflow x (fun b => b = true ↔ ∃ y, Poss d v2 y ∧ Poss d v1 y) →
      RightOrOverflow x (fun b => b = true ↔ ∃ y, Poss d v1 y ∧ Poss d v2 y) := by
    intro x h
    rcases h with h | ⟨b, hb, hb2⟩
    · exact .inl h
    · refine .inr ⟨b, hb, ?_⟩
      refine hb2.trans ?_; exact ⟨fun ⟨y, a, b⟩ => ⟨y, b, a⟩, fun ⟨y, a, b⟩ => ⟨y, b, a⟩⟩
  have constL : ∀ {c : Int} {w : VarId}, (VarId.const c).Valid d.length → w.Valid d.length →
      RightOrOverflow (inDomain d w c) (fun b => b = true ↔ ∃ y, Poss d (.const c) y ∧ Poss d w y) := by
    intro c w hc hw
    rcases inDomain_spec hd hw c hc with h | ⟨b, hb, hb2⟩
    · exact .inl h
    · refine .inr ⟨b, hb, ?_⟩
      refine hb2.trans ?_
      have : ∀ y, Poss d (.const c) y ↔ y = c := fun y => by rw [poss_iff hd hc]; simp only [rawOf, mem_const, deview, viewVal]; simp [eq_comm]
      simp only [this]; simp
  have plain : ∀ {i j : Nat} {w1 w2 : VarId}, w1.Valid d.length → w2.Valid d.length → (deview w1) = (.simple i, false, 0) →
      deview w2 = (.simple j, false, 0) →
      RightOrOverflow (do return containsAnyOf (← d.stateOf i) (← d.stateOf j)) (fun b => b = true ↔ ∃ y, Poss d w1 y ∧ Poss d w2 y) := by
    intro i j w1 w2 hw1 hw2 e1 e2
    have r1 : i < d.length ∧ rawOf d w1 = d[i]?.getD [] := by
      cases w1 <;> simp [deview] at e1
      · subst e1; exact ⟨hw1, rfl⟩
      · obtain ⟨rfl, -, -⟩ := e1; exact ⟨hw1.1, rfl⟩
    have r2 : j < d.length ∧ rawOf d w2 = d[j]?.getD [] := by
      cases w2 <;> simp [deview] at e2
      · subst e2; exact ⟨hw2, rfl⟩
      · obtain ⟨rfl, -, -⟩ := e2; exact ⟨hw2.1, rfl⟩
    rw [stateOf_ok r1.1, stateOf_ok r2.1]
    refine .inr ⟨_, rfl, ?_⟩
    refine (containsAnyOf_spec _ _ (hd.get r1.1).wf (hd.get r2.1).wf).trans ?_
    simp only [poss_iff hd hw1, poss_iff hd hw2, r1.2, r2.2, e1, e2, List.getElem?_eq_getElem r1.1, List.getElem?_eq_getElem r2.1, Option.getD_some, viewVal]
    simp
  cases v1 with
  | simple i =>
    cases v2 with
    | simple j => simpa [domainsIntersect, deview] using plain h1 h2 rfl rfl
    | const c => simpa [domainsIntersect, deview, iAdd_zero (show InI64 c from h2), Bind.bind, Except.bind] using swap (constL h2 h1)
    | view j n k =>
      cases n
      · by_cases hk : k = 0
        · subst hk; simpa [domainsIntersect, deview] using plain (w1 := .simple i) (w2 := .view j false 0) h1 h2 rfl rfl
        · simpa [domainsIntersect, deview, hk] using swap (via h2 h1)
      · simpa [domainsIntersect, deview] using swap (via h2 h1)
  | const c =>
    have hc := constL (c := c) (w := v2) h1 h2
    cases v2 with
    | simple j => simpa [domainsIntersect, deview, iAdd_zero (show InI64 c from h1), Bind.bind, Except.bind] using hc
    | const c' => simpa [domainsIntersect, deview, iAdd_zero (show InI64 c from h1), Bind.bind, Except.bind] using hc
    | view j n k =>
      cases n
      · simpa [domainsIntersect, deview, iAdd_zero (show InI64 c from h1), Bind.bind, Except.bind] using hc
      · simpa [domainsIntersect, deview] using swap (via h2 h1)
  | view i n k =>
    cases n
    · cases v2 with
      | simple j =>
        by_cases hk : k = 0
        · subst hk; simpa [domainsIntersect, deview] using plain (w1 := .view i false 0) (w2 := .simple j) h1 h2 rfl rfl
        · simpa [domainsIntersect, deview, hk] using swap (via h2 h1)
      | const c => simpa [domainsIntersect, deview, iAdd_zero (show InI64 c from h2), Bind.bind, Except.bind] using swap (constL h2 h1)
      | view j n' k' =>
        cases n'
        · by_cases hk : k = 0 ∧ k' = 0
          · obtain ⟨rfl, rfl⟩ := hk
            simpa [domainsIntersect, deview] using plain (w1 := .view i false 0) (w2 := .view j false 0) h1 h2 rfl rfl
          · simpa [domainsIntersect, deview, hk] using swap (via h2 h1)
        · simpa [domainsIntersect, deview] using swap (via h2 h1)
    · simpa [domainsIntersect, deview] using via h1 h2

/-! ## Enumeration -/

/-- Is the variable a negated view? -/
def VarId.negated : VarId → Bool
  | .view _ neg _ => neg
  | _ => false

theorem deview_neg (v : VarId) : (deview v).2.1 = v.negated := by cases v <;> rfl

theorem genMap_spec {f : Int → Chk Int} {g : Int → Int} {bad : Prop} : ∀ (xs : List Int) (e : Option Err),
    (∀ x ∈ xs, RightUnless bad (f x) (fun y => y = g x)) →
    (genMap f xs e).1 <+: xs.map g ∧ ((genMap f xs e).2 = none → (genMap f xs e).1 = xs.map g ∧ e = none) ∧
    (¬ bad → genMap f xs e = (xs.map g, e)) ∧ (∀ k, (genMap f xs e).2 = some k → k = .overflow ∨ e = some k)
  | [], e, _ => by simp [genMap]; exact fun k h => .inr h
  | x :: xs, e, h => by
    have ih := genMap_spec xs e fun y hy => h y (by simp [hy])
    rcases h x (by simp) with ⟨h1, h2⟩ | ⟨r, h1, h2⟩
    · simp only [genMap, h1]
      refine ⟨by simp, by simp, fun hb => absurd h2 hb, by simp⟩
    · subst h2
      simp only [genMap, h1, List.map_cons]
      refine ⟨by simpa using ih.1, fun hn => ⟨by rw [(ih.2.1 hn).1], (ih.2.1 hn).2⟩, fun hb => by simp [ih.2.2.1 hb], ih.2.2.2⟩

/-- The value of the simple variable behind `v`. -/
def VarId.underlyingValue (a : Asg) : VarId → Int
  | .simple i => a i
  | .view i _ _ => a i
  | .const c => c

/-- C14: `each_value` yields a prefix of the list of all possible values, each once, in ascending order of the underlying variable (so descending for a
negated view); it yields all of them unless an overflow exception ends it early. -/
theorem eachValue_spec (hd : DomsOK d) (hv : v.Valid d.length) : ∃ g L, eachValue d v = .ok g ∧
    (if v.negated then ListsDescending (Poss d v) L else ListsAscending (Poss d v) L) ∧
    g.1 <+: L ∧ (g.2 = none → g.1 = L) ∧ (∀ e, g.2 = some e → e = .overflow) ∧
    (Fits d v → (∀ a, Within d a → v.underlying ≠ none → v.underlyingValue a ≠ i64Max) → g.2 = none) := by
  have ok := rawOf_ok hd hv
  have he := each_spec _ ok.wf ok.inRange
  let g := viewVal (deview v).2.1 (deview v).2.2
  have hmap : ∀ x ∈ (each (rawOf d v)).1, RightUnless (¬ Fits d v) (applyView x (deview v).2.1 (deview v).2.2) (fun y => y = g x) := fun x hx =>
    (applyView_raw hd hv ((he.1.2 x).1 hx)).imp id fun _ h => h.1
  have hlists : (if v.negated then ListsDescending (Poss d v) ((each (rawOf d v)).1.map g) else ListsAscending (Poss d v) ((each (rawOf d v)).1.map g)) := by
    have hm : ∀ y, y ∈ (each (rawOf d v)).1.map g ↔ Poss d v y := fun y => by rw [poss_iff hd hv]; simp only [List.mem_map, he.1.2]; rfl
    have hn := deview_neg v
    split
    · rename_i h
      refine ⟨?_, hm⟩
      refine List.Pairwise.map _ ?_ he.1.1
      intro a b hab
      simp only [g, hn, h, viewVal, if_true]; omega
    · rename_i h
      refine ⟨?_, hm⟩
      refine List.Pairwise.map _ ?_ he.1.1
      intro a b hab
      have h' : v.negated = false := by simpa using h
      simp only [g, hn, h', viewVal, Bool.false_eq_true, if_false]; omega
  by_cases hc : ∃ c, v = .const c
  · obtain ⟨c, rfl⟩ := hc
    have happ : applyView c false 0 = .ok c := by simp [applyView, iAdd_zero (show InI64 c from hv)]
    refine ⟨([c], none), [c], ?_, ?_, List.prefix_rfl, fun _ => rfl, by simp, by simp⟩
    · simp [eachValue, deview, genMap, happ]
    · have hp : ∀ y, Poss d (.const c) y ↔ y = c := fun y => by rw [poss_iff hd hv]; simp only [rawOf, mem_const, deview, viewVal]; simp [eq_comm]
      simp only [VarId.negated, Bool.false_eq_true, if_false, ListsAscending, hp]; simp
  · have hall := genMap_spec _ (each (rawOf d v)).2 hmap
    refine ⟨genMap (applyView · (deview v).2.1 (deview v).2.2) (each (rawOf d v)).1 (each (rawOf d v)).2, (each (rawOf d v)).1.map g, ?_, hlists, hall.1,
      fun h => (hall.2.1 h).1, ?_, ?_⟩
    · cases v with
      | simple i => simp [eachValue, deview, stateOf_ok hv, rawOf, List.getElem?_eq_getElem hv, Bind.bind, Except.bind, Pure.pure, Except.pure]
      | view i n k => simp [eachValue, deview, stateOf_ok hv.1, rawOf, List.getElem?_eq_getElem hv.1, Bind.bind, Except.bind, Pure.pure, Except.pure]
      | const c => exact absurd ⟨c, rfl⟩ hc
    · intro e h
      rcases hall.2.2.2 e h with h | h
      · exact h
      · by_cases hm : Mem i64Max (rawOf d v)
        · rw [he.2.1 hm] at h; cases h; rfl
        · rw [he.2.2 hm] at h; cases h
    · intro hf hmax
      have h1 := hall.2.2.1 (by simpa using hf)
      rw [h1]
      refine he.2.2 fun hm => ?_
      cases v with
      | simple i =>
        have hi : d[i]? = some (d[i]'hv) := List.getElem?_eq_getElem hv
        simp only [rawOf, hi, Option.getD_some] at hm
        obtain ⟨a, ha, hx⟩ := exists_within_at hd hi hm
        exact hmax a ha (by simp [VarId.underlying]) hx
      | view i n k =>
        have hi : d[i]? = some (d[i]'hv.1) := List.getElem?_eq_getElem hv.1
        simp only [rawOf, hi, Option.getD_some] at hm
        obtain ⟨a, ha, hx⟩ := exists_within_at hd hi hm
        exact hmax a ha (by simp [VarId.underlying]) hx
      | const c => exact hc ⟨c, rfl⟩

/-- C14 (part): ascending order as documented, for variables that are not negated views. The documented order fails for the others, see
`eachValue_not_ascending`. -/
theorem eachValue_ascending_partial (hd : DomsOK d) (hv : v.Valid d.length) (hn : v.negated = false) (hf : Fits d v)
    (hmax : ∀ a, Within d a → v.underlying ≠ none → v.underlyingValue a ≠ i64Max) :
    ∃ L, eachValue d v = .ok (L, none) ∧ ListsAscending (Poss d v) L := by
  obtain ⟨⟨l, e⟩, L, h1, h2, -, h4, -, h6⟩ := eachValue_spec hd hv
  have hnone := h6 hf hmax
  simp only at hnone h4
  subst hnone
  rw [hn] at h2
  exact ⟨L, by rw [h1, h4 rfl], by simpa using h2⟩

/-- Finding: the documentation promises ascending order (gcs/current_state.hh); a negated view is enumerated in descending order. -/
theorem eachValue_not_ascending :
    DomsOK [[(0, 2)]] ∧ (VarId.view 0 true 0).Valid 1 ∧ eachValue [[(0, 2)]] (.view 0 true 0) = .ok ([0, -1, -2], none) ∧
    ¬ ListsAscending (Poss [[(0, 2)]] (.view 0 true 0)) [0, -1, -2] := by
  refine ⟨?_, by simp [VarId.Valid, InI64, i64Min, i64Max], by decide +kernel, fun h => by simp [ListsAscending] at h⟩
  intro s hs
  simp only [List.mem_singleton] at hs; subst hs
  exact ⟨by decide, by decide, 0, by decide⟩

/-- C14: `each_value` of the public API in reverse: descending for every view. -/
theorem eachValueReversed_spec (hd : DomsOK d) (hv : v.Valid d.length) :
    RightUnless (¬ Fits d v) (eachValueReversed d v) (fun g => ListsDescending (Poss d v) g.1 ∧ (¬ Poss d v i64Min → g.2 = none)) := by
  unfold eachValueReversed
  refine (copyOfValues_spec hd hv).bind fun t ⟨wt, rt, mt⟩ => RightUnless.pure ?_
  have := eachReversed_spec t wt rt
  refine ⟨⟨this.1.1, fun x => (this.1.2 x).trans (mt x)⟩, fun h => this.2.2 fun hm => h ((mt _).1 hm)⟩

/-! Non-vacuity: a domain with a hole seen through `-x + 3`. -/
example : let d : Doms := [[(0, 3), (5, 9)]]; let v : VarId := .view 0 true 3
    lowerBound d v = .ok (-6) ∧ upperBound d v = .ok 3 ∧ bounds d v = .ok (-6, 3) ∧ inDomain d v (-1) = .ok false ∧ inDomain d v (-2) = .ok true ∧
    domainSize d v = .ok 9 ∧ domainHasHoles d v = .ok true ∧ copyOfValues d v = .ok [(-6, -2), (0, 3)] ∧
    domainIntersectsWith d v [(-1, -1), (4, 5)] = .ok false ∧ optionalSingleValue d v = .ok none ∧ valueOf d v = .error .noUniqueValue ∧
    eachValueReversed d v = .ok ([3, 2, 1, 0, -2, -3, -4, -5, -6], none) := by
  decide +kernel
example : Fits [[(0, 3), (5, 9)]] (.view 0 true 3) := by
  intro a ha
  have := ha 0 _ rfl
  simp [Mem] at this
  simp [VarId.FitsAt, InI64, i64Min, i64Max]; omega
/-- Overflow is really possible: negating the least 64-bit integer. -/
example : upperBound [[(i64Min, 0)]] (.view 0 true 0) = .error .overflow := by decide +kernel

#print axioms lowerBound_spec
#print axioms upperBound_spec
#print axioms bounds_spec
#print axioms inDomain_spec
#print axioms hasSingleValue_spec
#print axioms optionalSingleValue_spec
#print axioms valueOf_spec
#print axioms domainHasHoles_spec
#print axioms domainSize_spec
#print axioms copyOfValues_spec
#print axioms domainIntersectsWith_spec
#print axioms domainsIntersect_spec
#print axioms eachValue_spec
#print axioms eachValue_ascending_partial
#print axioms eachValueReversed_spec

end Gcs
