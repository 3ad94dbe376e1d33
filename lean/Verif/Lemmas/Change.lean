import Verif.Spec.Inference
import Verif.Props.IntervalSetIter

/-! Set-level correctness of the `change_state_for_*` functions. -/

namespace Gcs
namespace IntervalSet

/-- `l` and `u` are the bounds, and reading them works. -/
structure Bnd (s : IntervalSet) (l u : Int) : Prop where
  lower : lower s = .ok l
  upper : upper s = .ok u
  meml : Mem l s
  memu : Mem u s
  le : ∀ x, Mem x s → l ≤ x ∧ x ≤ u

theorem exists_bnd {s : IntervalSet} (h : WF s) (hn : ∃ x, Mem x s) : ∃ l u, Bnd s l u := by
  have hl : ∃ l, lower s = .ok l := by
    cases hs : lower s with
    | ok l => exact ⟨l, rfl⟩
    | error e =>
      cases s with
      | nil => obtain ⟨x, hx⟩ := hn; simp at hx
      | cons p r => simp [lower] at hs
  have hu : ∃ u, upper s = .ok u := by
    by_cases hne : s = []
    · subst hne; obtain ⟨x, hx⟩ := hn; simp at hx
    · obtain ⟨t, l, u, rfl⟩ := exists_snoc hne; exact ⟨u, upper_snoc ..⟩
  obtain ⟨l, hl⟩ := hl
  obtain ⟨u, hu⟩ := hu
  have h1 := ((lower_spec s h).1 l).1 hl
  have h2 := ((upper_spec s h).1 u).1 hu
  exact ⟨l, u, hl, hu, h1.1, h2.1, fun x hx => ⟨h1.2 x hx, h2.2 x hx⟩⟩

theorem Bnd.lowerIsUpper {s : IntervalSet} {l u : Int} (b : Bnd s l u) : lowerIsUpper s = .ok (decide (l = u)) := by
  simp [IntervalSet.lowerIsUpper, b.lower, b.upper, bind, Except.bind, pure, Except.pure]

theorem Bnd.single_iff {s : IntervalSet} {l u : Int} (b : Bnd s l u) : SingleValued s ↔ l = u := by
  constructor
  · rintro ⟨v, hv⟩
    rw [(hv l).1 b.meml, (hv u).1 b.memu]
  · rintro rfl
    refine ⟨l, fun x => ⟨fun hx => ?_, fun hx => hx ▸ b.meml⟩⟩
    have := b.le x hx; omega

theorem Bnd.isBound_iff {s : IntervalSet} {l u x : Int} (b : Bnd s l u) : IsBound s x ↔ x = l ∨ x = u := by
  constructor
  · rintro ⟨hx, h | h⟩
    · have := h l b.meml; have := b.le x hx; left; omega
    · have := h u b.memu; have := b.le x hx; right; omega
  · rintro (rfl | rfl)
    · exact ⟨b.meml, .inl fun y hy => (b.le y hy).1⟩
    · exact ⟨b.memu, .inr fun y hy => (b.le y hy).2⟩

theorem isEmpty_false {s : IntervalSet} (h : WF s) (hn : ∃ x, Mem x s) : isEmpty s = false := by
  have := isEmpty_spec s h
  cases hh : isEmpty s
  · rfl
  · obtain ⟨x, hx⟩ := hn; exact absurd hx (this.1 hh x)

theorem isEmpty_true {s : IntervalSet} (h : WF s) (hn : ∀ x, ¬ Mem x s) : isEmpty s = true := (isEmpty_spec s h).2 hn

/-- Nothing needs to be done. -/
theorem spec_noChange {P : Int → Prop} {s : IntervalSet} (h : DomOK s) (hP : ∀ x, Mem x s → P x) : ChangeSpec P s (.noChange, s) where
  wf := h.wf
  sub _ hx := hx
  contra := by
    simp only [reduceCtorEq, false_iff]
    intro hh; obtain ⟨x, hx⟩ := h.nonempty; exact hh x hx (hP x hx)
  mem _ x := ⟨fun hx => ⟨hx, hP x hx⟩, fun hx => hx.1⟩
  kind := by simp [KindSpec, Changed]

theorem spec_contradiction {P : Int → Prop} {s s' : IntervalSet} (hP : ∀ x, Mem x s → ¬ P x) (hw : WF s')
    (hsub : ∀ x, Mem x s' → Mem x s) : ChangeSpec P s (.contradiction, s') where
  wf := hw
  sub := hsub
  contra := by simpa using hP
  mem h := absurd rfl h
  kind := trivial

/-- The common ending: the new set is what it should be, something went, something is left. -/
theorem spec_shrunk {P : Int → Prop} {s s' : IntervalSet} {l u l' u' : Int} (b : Bnd s l u) (b' : Bnd s' l' u') (hw : WF s')
    (hm : ∀ x, Mem x s' ↔ Mem x s ∧ P x) (hgone : ∃ x, Mem x s ∧ ¬ P x) (inf : Inference)
    (hinf : inf = if l' = u' then .instantiated else if l ≠ l' ∨ u ≠ u' then .boundsChanged else .interiorValuesChanged) :
    ChangeSpec P s (inf, s') where
  wf := hw
  sub x hx := ((hm x).1 hx).1
  contra := by
    constructor
    · intro h; replace h : inf = .contradiction := h; rw [h] at hinf; split at hinf
      · cases hinf
      · split at hinf <;> cases hinf
    · intro h; have := (hm l').1 b'.meml; exact absurd this.2 (h l' this.1)
  mem _ := hm
  kind := by
    have hch : Changed s s' := by
      obtain ⟨x, hx, hp⟩ := hgone
      exact fun h => hp ((hm x).1 ((h x).2 hx)).2
    subst hinf
    split
    · rename_i h; exact ⟨hch, b'.single_iff.2 h⟩
    · rename_i h
      have hns : ¬ SingleValued s' := fun hs => h (b'.single_iff.1 hs)
      have hl' := b.le l' ((hm l').1 b'.meml).1
      have hu' := b.le u' ((hm u').1 b'.memu).1
      split
      · rename_i h2
        rcases h2 with h2 | h2
        · exact ⟨hch, hns, l, b.isBound_iff.2 (.inl rfl), fun hm' => by have := b'.le l hm'; omega⟩
        · exact ⟨hch, hns, u, b.isBound_iff.2 (.inr rfl), fun hm' => by have := b'.le u hm'; omega⟩
      · rename_i h2
        refine ⟨hch, hns, fun x hx => ?_⟩
        have h3 : l = l' ∧ u = u' := by omega
        rcases b.isBound_iff.1 hx with rfl | rfl
        · rw [h3.1]; exact b'.meml
        · rw [h3.2]; exact b'.memu

theorem changeEqual_spec (s : IntervalSet) (v : Int) (h : DomOK s) : ∃ r, changeEqual s v = .ok r ∧ ChangeSpec (fun x => x = v) s r := by
  obtain ⟨l, u, b⟩ := exists_bnd h.wf h.nonempty
  unfold changeEqual
  by_cases hc : contains v s = true
  · have hm := (contains_spec v s h.wf).1 hc
    rw [if_neg (by simp [hc])]
    simp only [b.lowerIsUpper, bind, Except.bind]
    by_cases hlu : l = u
    · simp only [hlu, decide_true, if_true]
      refine ⟨_, rfl, spec_noChange h fun x hx => ?_⟩
      have := b.le x hx; have := b.le v hm; omega
    · simp only [hlu, decide_false, Bool.false_eq_true, if_false, clear, insertAtEndOne]
      refine ⟨_, rfl, ?_⟩
      have hw : WF [(v, v)] := by simp [wf_cons]
      have hmv : ∀ x, Mem x [(v, v)] ↔ x = v := fun x => by simp; omega
      have b' : Bnd [(v, v)] v v := ⟨rfl, rfl, (hmv v).2 rfl, (hmv v).2 rfl, fun x hx => by have := (hmv x).1 hx; omega⟩
      refine spec_shrunk b b' hw (fun x => ?_) ?_ _ (by simp)
      · rw [hmv]; exact ⟨fun hx => ⟨hx ▸ hm, hx⟩, fun hx => hx.2⟩
      · by_cases hvl : v = l
        · exact ⟨u, b.memu, by omega⟩
        · exact ⟨l, b.meml, by omega⟩
  · have hm : ¬ Mem v s := fun hm => hc ((contains_spec v s h.wf).2 hm)
    rw [if_pos (by simp [hc])]
    exact ⟨_, rfl, spec_contradiction (fun x hx hxv => hm (hxv ▸ hx)) h.wf (fun _ hx => hx)⟩

theorem changeNotEqual_spec (s : IntervalSet) (v : Int) (h : DomOK s) : ∃ r, changeNotEqual s v = .ok r ∧ ChangeSpec (fun x => x ≠ v) s r := by
  obtain ⟨l, u, b⟩ := exists_bnd h.wf h.nonempty
  unfold changeNotEqual
  by_cases hc : contains v s = true
  · have hm := (contains_spec v s h.wf).1 hc
    rw [if_neg (by simp [hc])]
    simp only [b.lowerIsUpper, bind, Except.bind]
    have hvb := b.le v hm
    by_cases hlu : l = u
    · simp only [hlu, decide_true, if_true]
      refine ⟨_, rfl, spec_contradiction (fun x hx => ?_) h.wf (fun _ hx => hx)⟩
      have := b.le x hx; omega
    · simp only [hlu, decide_false, Bool.false_eq_true, if_false, b.lower, b.upper]
      obtain ⟨hw, hme⟩ := erase_spec v s h.wf
      have hne : ∃ x, Mem x (erase v s) := by
        by_cases hvl : v = l
        · exact ⟨u, (hme u).2 ⟨b.memu, by omega⟩⟩
        · exact ⟨l, (hme l).2 ⟨b.meml, by omega⟩⟩
      obtain ⟨l', u', b'⟩ := exists_bnd hw hne
      simp only [b'.lowerIsUpper]
      have hl' := (hme l').1 b'.meml
      have hu' := (hme u').1 b'.memu
      have ha := b.le l' hl'.1
      have hb := b.le u' hu'.1
      have k1 : l ≠ v → l = l' := fun hne => by have := b'.le l ((hme l).2 ⟨b.meml, hne⟩); omega
      have k2 : u ≠ v → u = u' := fun hne => by have := b'.le u ((hme u).2 ⟨b.memu, hne⟩); omega
      by_cases hlu' : l' = u'
      · simp only [hlu', decide_true, if_true]
        exact ⟨_, rfl, spec_shrunk b b' hw hme ⟨v, hm, by simp⟩ _ (by simp [hlu'])⟩
      · simp only [hlu', decide_false, Bool.false_eq_true, if_false]
        refine ⟨_, rfl, spec_shrunk b b' hw hme ⟨v, hm, by simp⟩ _ ?_⟩
        rw [if_neg hlu']
        by_cases hbd : v = l ∨ v = u
        · rw [if_pos (by simpa using hbd), if_pos]
          rcases hbd with hbd | hbd
          · left; have := hl'.2; omega
          · right; have := hu'.2; omega
        · rw [if_neg (by simpa using hbd), if_neg]
          have := k1 (by omega); have := k2 (by omega); omega
  · have hm : ¬ Mem v s := fun hm => hc ((contains_spec v s h.wf).2 hm)
    rw [if_pos (by simp [hc])]
    exact ⟨_, rfl, spec_noChange h (fun x hx hxv => hm (hxv ▸ hx))⟩

/-- Shared ending of the bound changes. -/
theorem finish_bounds {P : Int → Prop} {s s' : IntervalSet} {l u : Int} (b : Bnd s l u) (hw : WF s')
    (hm : ∀ x, Mem x s' ↔ Mem x s ∧ P x) (hgone : ¬ P l ∨ ¬ P u) :
    ∃ r, (if isEmpty s' then (.ok (.contradiction, s') : Chk (Inference × IntervalSet)) else
      (lowerIsUpper s').bind fun x => if x = true then .ok (.instantiated, s') else .ok (.boundsChanged, s')) = .ok r ∧ ChangeSpec P s r := by
  by_cases hne : ∃ x, Mem x s'
  · obtain ⟨l', u', b'⟩ := exists_bnd hw hne
    simp only [isEmpty_false hw hne, b'.lowerIsUpper, Bool.false_eq_true, if_false, Except.bind]
    have hl' := (hm l').1 b'.meml
    have hu' := (hm u').1 b'.memu
    have hg : ∃ x, Mem x s ∧ ¬ P x := hgone.elim (fun h => ⟨l, b.meml, h⟩) (fun h => ⟨u, b.memu, h⟩)
    by_cases hlu' : l' = u'
    · simp only [hlu', decide_true, if_true]
      exact ⟨_, rfl, spec_shrunk b b' hw hm hg _ (by simp [hlu'])⟩
    · simp only [hlu', decide_false, Bool.false_eq_true, if_false]
      refine ⟨_, rfl, spec_shrunk b b' hw hm hg _ ?_⟩
      rw [if_neg hlu', if_pos]
      rcases hgone with hg | hg
      · left; intro he; exact hg (he ▸ hl'.2)
      · right; intro he; exact hg (he ▸ hu'.2)
  · have hne' : ∀ x, ¬ Mem x s' := fun x hx => hne ⟨x, hx⟩
    simp only [isEmpty_true hw hne', if_true]
    exact ⟨_, rfl, spec_contradiction (fun x hx hp => hne' x ((hm x).2 ⟨hx, hp⟩)) hw (fun x hx => ((hm x).1 hx).1)⟩

/-- Less-than works unless the value is the smallest integer, for which it throws. -/
theorem changeLessThan_spec (s : IntervalSet) (v : Int) (h : DomOK s) (hv : InI64 v) :
    (v ≠ i64Min → ∃ r, changeLessThan s v = .ok r ∧ ChangeSpec (fun x => x < v) s r) ∧
    (v = i64Min → changeLessThan s v = .error .overflow) := by
  obtain ⟨l, u, b⟩ := exists_bnd h.wf h.nonempty
  unfold changeLessThan
  simp only [b.upper, bind, Except.bind]
  constructor
  · intro hne
    by_cases hc : u < v
    · rw [if_pos hc]
      exact ⟨_, rfl, spec_noChange h fun x hx => by have := b.le x hx; omega⟩
    · rw [if_neg hc]
      have hsub : iSub v 1 = .ok (v - 1) := by
        rw [iSub_exact v 1 hv (by decide)]; unfold exactOrThrow; rw [if_pos]
        unfold InI64 i64Min i64Max at *; omega
      simp only [hsub]
      obtain ⟨hw, hm⟩ := eraseGreaterThan_spec (v - 1) s h.wf
      exact finish_bounds b hw (fun x => by rw [hm]; exact and_congr Iff.rfl (by omega)) (.inr (by omega))
  · intro he
    have hu := mem_of_inRange h.inRange b.memu
    rw [if_neg (by unfold InI64 at hu; omega)]
    have hsub : iSub v 1 = .error .overflow := by subst he; decide
    simp only [hsub]

theorem changeGreaterEqual_spec (s : IntervalSet) (v : Int) (h : DomOK s) :
    ∃ r, changeGreaterEqual s v = .ok r ∧ ChangeSpec (fun x => v ≤ x) s r := by
  obtain ⟨l, u, b⟩ := exists_bnd h.wf h.nonempty
  unfold changeGreaterEqual
  simp only [b.lower, bind, Except.bind]
  by_cases hc : l ≥ v
  · rw [if_pos hc]
    exact ⟨_, rfl, spec_noChange h fun x hx => by have := b.le x hx; omega⟩
  · rw [if_neg hc]
    obtain ⟨hw, hm⟩ := eraseLessThan_spec v s h.wf
    exact finish_bounds b hw hm (.inl (by omega))

theorem changeNotInRange_spec (s : IntervalSet) (lo hi : Int) (h : DomOK s) :
    ∃ r, changeNotInRange s lo hi = .ok r ∧ ChangeSpec (fun x => ¬ (lo ≤ x ∧ x ≤ hi)) s r := by
  obtain ⟨l, u, b⟩ := exists_bnd h.wf h.nonempty
  unfold changeNotInRange
  by_cases hlh : lo > hi
  · rw [if_pos hlh]; exact ⟨_, rfl, spec_noChange h fun x _ => by omega⟩
  rw [if_neg hlh]
  simp only [b.lower, b.upper, bind, Except.bind]
  by_cases hout : hi < l ∨ lo > u
  · rw [if_pos hout]; exact ⟨_, rfl, spec_noChange h fun x hx => by have := b.le x hx; omega⟩
  rw [if_neg hout]
  have hws : WF (single lo hi) := by unfold single; rw [wf_cons]; exact ⟨by omega, by simp, by simp⟩
  have hca := containsAnyOf_spec s (single lo hi) h.wf hws
  have hms : ∀ x, Mem x (single lo hi) ↔ lo ≤ x ∧ x ≤ hi := fun x => by simp [single]
  by_cases hany : containsAnyOf s (single lo hi) = true
  · rw [if_neg (by simp [hany])]
    obtain ⟨hw, hm⟩ := eraseRange_spec lo hi s h.wf
    have hg : ∃ x, Mem x s ∧ ¬ ¬ (lo ≤ x ∧ x ≤ hi) := by
      obtain ⟨x, hx1, hx2⟩ := hca.1 hany
      exact ⟨x, hx1, fun hn => hn ((hms x).1 hx2)⟩
    by_cases hne : ∃ x, Mem x (eraseRange lo hi s)
    · obtain ⟨l', u', b'⟩ := exists_bnd hw hne
      simp only [isEmpty_false hw hne, b'.lowerIsUpper, b'.lower, b'.upper, Bool.false_eq_true, if_false]
      by_cases hlu' : l' = u'
      · simp only [hlu', decide_true, if_true]
        exact ⟨_, rfl, spec_shrunk b b' hw hm hg _ (by simp [hlu'])⟩
      · simp only [hlu', decide_false, Bool.false_eq_true, if_false]
        by_cases hb : l' ≠ l ∨ u' ≠ u
        · rw [if_pos hb]
          exact ⟨_, rfl, spec_shrunk b b' hw hm hg _ (by rw [if_neg hlu', if_pos (by omega)])⟩
        · rw [if_neg hb]
          exact ⟨_, rfl, spec_shrunk b b' hw hm hg _ (by rw [if_neg hlu', if_neg (by omega)])⟩
    · have hne' : ∀ x, ¬ Mem x (eraseRange lo hi s) := fun x hx => hne ⟨x, hx⟩
      simp only [isEmpty_true hw hne', if_true]
      exact ⟨_, rfl, spec_contradiction (fun x hx hp => hne' x ((hm x).2 ⟨hx, hp⟩)) hw (fun x hx => ((hm x).1 hx).1)⟩
  · rw [if_pos (by simp [hany])]
    refine ⟨_, rfl, spec_noChange h fun x hx hr => hany (hca.2 ⟨x, hx, (hms x).2 hr⟩)⟩

theorem changeInRange_spec (s : IntervalSet) (lo hi : Int) (h : DomOK s) :
    ∃ r, changeInRange s lo hi = .ok r ∧ ChangeSpec (fun x => lo ≤ x ∧ x ≤ hi) s r := by
  obtain ⟨l, u, b⟩ := exists_bnd h.wf h.nonempty
  unfold changeInRange
  by_cases hlh : lo > hi
  · rw [if_pos hlh]; exact ⟨_, rfl, spec_contradiction (fun x _ => by omega) h.wf (fun _ hx => hx)⟩
  rw [if_neg hlh]
  simp only [b.lower, b.upper, bind, Except.bind]
  by_cases hin : l ≥ lo ∧ u ≤ hi
  · rw [if_pos hin]; exact ⟨_, rfl, spec_noChange h fun x hx => by have := b.le x hx; omega⟩
  rw [if_neg hin]
  obtain ⟨hw1, hm1⟩ := eraseLessThan_spec lo s h.wf
  have key : WF (if isEmpty (eraseLessThan lo s) = true then eraseLessThan lo s else eraseGreaterThan hi (eraseLessThan lo s)) ∧
      ∀ x, Mem x (if isEmpty (eraseLessThan lo s) = true then eraseLessThan lo s else eraseGreaterThan hi (eraseLessThan lo s)) ↔
        Mem x s ∧ (lo ≤ x ∧ x ≤ hi) := by
    split
    · rename_i he
      have := (isEmpty_spec _ hw1).1 he
      refine ⟨hw1, fun x => ⟨fun hx => absurd hx (this x), fun hx => (hm1 x).2 ⟨hx.1, hx.2.1⟩⟩⟩
    · obtain ⟨hw2, hm2⟩ := eraseGreaterThan_spec hi _ hw1
      refine ⟨hw2, fun x => ?_⟩
      rw [hm2, hm1, and_assoc]
  exact finish_bounds b key.1 key.2 (by
    by_cases h1 : l ≥ lo
    · right; omega
    · left; omega)

end IntervalSet
end Gcs
