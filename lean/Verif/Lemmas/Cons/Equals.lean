import Verif.Model.Cons.Equals
import Verif.Lemmas.Cons.Comparison
import Verif.Props.IntervalSetIter

namespace Gcs
open IntervalSet

/-! ## What difference enumeration yields, thrown or not -/

theorem minusInner_sound (iu : Int) : ∀ (js : IntervalSet) (cur : Int), WF js → InRange js → InI64 cur → (∀ q ∈ js, cur ≤ q.2) →
    (∀ e, (minusInner iu cur js).err = some e → e = .overflow) ∧ InI64 (minusInner iu cur js).cur ∧ cur ≤ (minusInner iu cur js).cur ∧
    (∀ q ∈ (minusInner iu cur js).js, q ∈ js) ∧ WF (minusInner iu cur js).js ∧
    (∀ p ∈ (minusInner iu cur js).out, InI64 p.1 ∧ InI64 p.2 ∧ cur ≤ p.1 ∧ p.2 ≤ iu ∧ ∀ x, p.1 ≤ x → x ≤ p.2 → ¬ Mem x js) ∧
    ((minusInner iu cur js).err = none → ∀ x, (minusInner iu cur js).cur ≤ x → x ≤ iu → ¬ Mem x js) ∧ (∀ x, iu < x → Mem x js → Mem x (minusInner iu cur js).js)
  | [], cur, _, _, hc, _ => ⟨by simp [minusInner], hc, Int.le_refl _, fun _ h => h, by simp [minusInner], by simp [minusInner], by simp, by simp⟩
  | (a, b) :: js, cur, hw, hr, hc, hb => by
    have hcb : cur ≤ b := hb (a, b) List.mem_cons_self
    have hnext : WF js → ∀ q ∈ js, b + 1 ≤ q.2 := fun hwr q hq => by
      have h1 := hwr.1 q hq
      have h2 : b + 1 < q.1 := (List.pairwise_cons.1 hw.2).1 q hq
      omega
    obtain ⟨hab, hA, hwr⟩ := wf_cons.1 hw
    simp only [inRange_cons] at hr
    have hsub := iSub_exact a 1 hr.1.1 (by decide)
    have hadd := iAdd_exact b 1 hr.1.2 (by decide)
    have above : ∀ x, Mem x js → b + 1 < x := fun x hx => hA.mem hx
    by_cases h1 : a ≤ iu
    · by_cases h2 : a > cur
      · have hi : InI64 (a - 1) := by have := hr.1.1; unfold InI64 at *; omega
        have hsub' : iSub a 1 = .ok (a - 1) := by rw [hsub]; simp [exactOrThrow, hi]
        have first : ∀ x, cur ≤ x → x ≤ a - 1 → ¬ Mem x ((a, b) :: js) := by
          intro x _ hx hm
          rcases (mem_cons ..).1 hm with hm | hm
          · omega
          · have := above x hm; omega
        by_cases h3 : InI64 (b + 1)
        · have hadd' : iAdd b 1 = .ok (b + 1) := by rw [hadd]; simp [exactOrThrow, h3]
          by_cases h4 : b + 1 > iu
          · have e : minusInner iu cur ((a, b) :: js) = ⟨[(cur, a - 1)], b + 1, (a, b) :: js, none⟩ := by
              simp [minusInner, h1, h2, hsub', hadd', h4, Bind.bind, Except.bind, Pure.pure, Except.pure]
            rw [e]
            refine ⟨by simp, h3, by simp only; omega, fun q hq => hq, hw, ?_, fun _ x hx1 hx2 => by simp only at hx1; omega, fun _ _ h => h⟩
            intro p hp
            simp only [List.mem_singleton] at hp; subst hp
            exact ⟨hc, hi, Int.le_refl _, by simp only; omega, first⟩
          · have e : minusInner iu cur ((a, b) :: js) = ⟨(cur, a - 1) :: (minusInner iu (b + 1) js).out, (minusInner iu (b + 1) js).cur, (minusInner iu (b + 1) js).js, (minusInner iu (b + 1) js).err⟩ := by
              simp [minusInner, h1, h2, hsub', hadd', h4, Bind.bind, Except.bind, Pure.pure, Except.pure]
            rw [e]
            obtain ⟨i1, i2, i3, i4, i5, i6, i7, i8⟩ := minusInner_sound iu js (b + 1) hwr hr.2 h3 (hnext hwr)
            refine ⟨i1, i2, by simp only; omega, fun q hq => List.mem_cons_of_mem _ (i4 q hq), i5, ?_, fun he x hx1 hx2 hm => ?_, fun x hx hm => i8 x hx (((mem_cons ..).1 hm).resolve_left (by omega))⟩
            · intro p hp
              rcases List.mem_cons.1 hp with rfl | hp
              · exact ⟨hc, hi, Int.le_refl _, by simp only; omega, first⟩
              · obtain ⟨k1, k2, k3, k4, k5⟩ := i6 p hp
                refine ⟨k1, k2, by omega, k4, fun x hx1 hx2 hm => ?_⟩
                rcases (mem_cons ..).1 hm with hm | hm
                · omega
                · exact k5 x hx1 hx2 hm
            · rcases (mem_cons ..).1 hm with hm | hm
              · simp only at hx1; omega
              · exact i7 he x hx1 hx2 hm
        · have hadd' : iAdd b 1 = .error .overflow := by rw [hadd]; simp [exactOrThrow, h3]
          have e : minusInner iu cur ((a, b) :: js) = ⟨[(cur, a - 1)], cur, (a, b) :: js, some .overflow⟩ := by
            simp [minusInner, h1, h2, hsub', hadd', Bind.bind, Except.bind, Pure.pure, Except.pure]
          rw [e]
          refine ⟨by simp, hc, Int.le_refl _, fun q hq => hq, hw, ?_, by simp, fun _ _ h => h⟩
          intro p hp
          simp only [List.mem_singleton] at hp; subst hp
          exact ⟨hc, hi, Int.le_refl _, by simp only; omega, first⟩
      · by_cases h3 : InI64 (b + 1)
        · have hadd' : iAdd b 1 = .ok (b + 1) := by rw [hadd]; simp [exactOrThrow, h3]
          by_cases h4 : b + 1 > iu
          · have e : minusInner iu cur ((a, b) :: js) = ⟨[], b + 1, (a, b) :: js, none⟩ := by
              simp [minusInner, h1, h2, hadd', h4]
            rw [e]
            exact ⟨by simp, h3, by simp only; omega, fun q hq => hq, hw, by simp, fun _ x hx1 hx2 => by simp only at hx1; omega, fun _ _ h => h⟩
          · have e : minusInner iu cur ((a, b) :: js) = minusInner iu (b + 1) js := by
              simp [minusInner, h1, h2, hadd', h4]
            rw [e]
            obtain ⟨i1, i2, i3, i4, i5, i6, i7, i8⟩ := minusInner_sound iu js (b + 1) hwr hr.2 h3 (hnext hwr)
            refine ⟨i1, i2, by omega, fun q hq => List.mem_cons_of_mem _ (i4 q hq), i5, ?_, fun he x hx1 hx2 hm => ?_, fun x hx hm => i8 x hx (((mem_cons ..).1 hm).resolve_left (by omega))⟩
            · intro p hp
              obtain ⟨k1, k2, k3, k4, k5⟩ := i6 p hp
              refine ⟨k1, k2, by omega, k4, fun x hx1 hx2 hm => ?_⟩
              rcases (mem_cons ..).1 hm with hm | hm
              · omega
              · exact k5 x hx1 hx2 hm
            · rcases (mem_cons ..).1 hm with hm | hm
              · omega
              · exact i7 he x hx1 hx2 hm
        · have hadd' : iAdd b 1 = .error .overflow := by rw [hadd]; simp [exactOrThrow, h3]
          have e : minusInner iu cur ((a, b) :: js) = ⟨[], cur, (a, b) :: js, some .overflow⟩ := by
            simp [minusInner, h1, h2, hadd']
          rw [e]
          exact ⟨by simp, hc, Int.le_refl _, fun q hq => hq, hw, by simp, by simp, fun _ _ h => h⟩
    · have e : minusInner iu cur ((a, b) :: js) = ⟨[], cur, (a, b) :: js, none⟩ := by simp [minusInner, h1]
      rw [e]
      refine ⟨by simp, hc, Int.le_refl _, fun q hq => hq, hw, by simp, fun _ x hx1 hx2 hm => ?_, fun _ _ h => h⟩
      rcases (mem_cons ..).1 hm with hm | hm
      · omega
      · have := above x hm; omega

/-- Every interval that is yielded lies in the first set and outside the second; if it throws, then because of overflow. -/
theorem eachIntervalMinus_sound : ∀ (s t : IntervalSet), WF s → WF t → InRange s → InRange t →
    (∀ e, (eachIntervalMinus s t).2 = some e → e = .overflow) ∧
    ∀ p ∈ (eachIntervalMinus s t).1, InI64 p.1 ∧ InI64 p.2 ∧ ∀ x, p.1 ≤ x → x ≤ p.2 → Mem x s ∧ ¬ Mem x t
  | [], t, _, _, _, _ => by simp [eachIntervalMinus]
  | (l, u) :: r, t, hs, ht, rs, rt => by
    obtain ⟨hlu, hA, hwr⟩ := wf_cons.1 hs
    simp only [inRange_cons] at rs
    obtain ⟨d1, d2, d3, d4⟩ := dropWhile_spec l t ht
    have dr : InRange (t.dropWhile (fun q => q.2 < l)) := inRange_of_mem d1 fun x hx => mem_of_inRange rt (d3 x hx)
    obtain ⟨i1, i2, i3, i4, i5, i6, i7, i8⟩ := minusInner_sound u _ l d1 dr rs.1.1 d4
    have mine : ∀ x, l ≤ x → x ≤ u → ¬ Mem x (t.dropWhile (fun q => q.2 < l)) → Mem x ((l, u) :: r) ∧ ¬ Mem x t :=
      fun x h1 h2 h3 => ⟨(mem_cons ..).2 (.inl ⟨h1, h2⟩), fun h => h3 ((d2 x h1).2 h)⟩
    unfold eachIntervalMinus
    simp only
    generalize hm : minusInner u l (t.dropWhile (fun q => q.2 < l)) = m at *
    have firsts : ∀ p ∈ m.out, InI64 p.1 ∧ InI64 p.2 ∧ ∀ x, p.1 ≤ x → x ≤ p.2 → Mem x ((l, u) :: r) ∧ ¬ Mem x t := by
      intro p hp
      obtain ⟨k1, k2, k3, k4, k5⟩ := i6 p hp
      exact ⟨k1, k2, fun x hx1 hx2 => mine x (by omega) (by omega) (k5 x hx1 hx2)⟩
    cases he : m.err with
    | some e => exact ⟨fun e' h => by cases h; exact i1 e he, firsts⟩
    | none =>
      have jr : InRange m.js := fun q hq => dr q (i4 q hq)
      obtain ⟨k1, k2⟩ := eachIntervalMinus_sound r m.js hwr i5 rs.2 jr
      refine ⟨k1, fun p hp => ?_⟩
      rcases List.mem_append.1 hp with hp | hp
      · rcases List.mem_append.1 hp with hp | hp
        · exact firsts p hp
        · split at hp
          · simp only [List.mem_singleton] at hp; subst hp
            exact ⟨i2, rs.1.2, fun x hx1 hx2 => mine x (by simp only at hx1; omega) hx2 (i7 he x hx1 hx2)⟩
          · simp at hp
      · obtain ⟨g1, g2, g3⟩ := k2 p hp
        refine ⟨g1, g2, fun x hx1 hx2 => ?_⟩
        obtain ⟨y1, y2⟩ := g3 x hx1 hx2
        refine ⟨(mem_cons ..).2 (.inr y1), fun h => ?_⟩
        have hux : u < x := by have := hA.mem y1; omega
        exact y2 (i8 x hux ((d2 x (by omega)).2 h))

theorem single_known {d : Doms} {v : VarId} (hd : DomsOK d) (hk : Known d v) {r : Option Int} (h : ∀ y, (r = some y ↔ ∀ z, Poss d v z ↔ z = y) ∧ (r = some y → InI64 y)) : r ≠ none := by
  obtain ⟨b, hb⟩ := exists_within hd
  have := (h (v.eval b)).1.2 fun z => ⟨fun ⟨a, ha, e⟩ => e ▸ hk a b ha hb, fun e => e ▸ hb.poss v⟩
  rw [this]; simp

theorem single_value {d : Doms} {v : VarId} {x : Int} (h : ∀ y, (some x = some y ↔ ∀ z, Poss d v z ↔ z = y) ∧ (some x = some y → InI64 y)) : InI64 x ∧ ∀ a, Within d a → v.eval a = x :=
  ⟨(h x).2 rfl, fun a ha => (((h x).1.1 rfl) _).1 (ha.poss v)⟩

namespace Equals

section
variable {σ μ : Type} {n m : Nat} {R : Err → Prop} {root : Doms} {v1 v2 : VarId}

theorem ver_prune {J : Job} {d : Doms} {b : Bool} {v w : VarId} {s t : IntervalSet} (ho : J.R .overflow) (hd : DomsOK d) (hl : d.length = J.n) (hv : v.Valid J.n) (hs : WF s ∧ InRange s) (ht : WF t ∧ InRange t)
    (hw : ∀ a, Within d a → J.C a → v.eval a = w.eval a ∧ Mem (w.eval a) t) : (prune (σ := σ) (μ := μ) b v s t).Ver J (fun _ => False) (fun _ _ => True) d := by
  obtain ⟨k1, k2⟩ := eachIntervalMinus_sound s t hs.1 ht.1 hs.2 ht.2
  refine ver_forGen hd hl (fun e h => k1 e h ▸ ho) ?_
  generalize (eachIntervalMinus s t).1 = L at k2
  refine ver_mono (fun _ _ _ => trivial) _ _ (ver_forEach (fun xs d' => (∀ p ∈ xs, p ∈ L) ∧ ∀ a, Within d' a → Within d a) ?_ L d hd hl ⟨fun _ h => h, fun _ h => h⟩)
  rintro p xs d' hd' hl' ⟨hm, hsub⟩
  obtain ⟨g1, g2, g3⟩ := k2 p (hm p List.mem_cons_self)
  have sound : ∀ a, Within d' a → J.C a → ¬ (p.1 ≤ v.eval a ∧ v.eval a ≤ p.2) := fun a ha hc ⟨h1, h2⟩ => by
    obtain ⟨e, he⟩ := hw a (hsub a ha) hc
    exact (g3 _ h1 h2).2 (e ▸ he)
  split
  · refine ver_tell_last ⟨hv, g1, g2⟩ (fun a ha hc => ?_) fun d'' _ _ h3 => ⟨fun q hq => hm q (List.mem_cons_of_mem _ hq), fun a ha => hsub a ((h3 a).1 ha).1⟩
    simpa [Lit.holds, Cond.holds] using sound a ha hc
  · obtain ⟨e1, e2⟩ := loopUp_spec p.1 p.2 g1 g2
    refine ver_forGen hd' hl' (fun e h => ?_) ?_
    · rw [e2] at h; split at h
      · cases h; exact ho
      · cases h
    · refine ver_mono (fun _ d'' hq => ⟨fun q hq => hm q (List.mem_cons_of_mem _ hq), fun a ha => hsub a ((hq a).1 ha).1⟩) _ _ (ver_tells hd' hl' _ (fun x hx => ?_) fun x hx a ha hc => ?_)
      · refine .ne hv ?_
        have := (e1.2 x).1 hx
        unfold InI64 at *; omega
      · have := (e1.2 x).1 hx
        have h2 := sound a ha hc
        rw [Lit.holds_ne]; rintro rfl; exact h2 this

theorem enforce_enforces (ho : R .overflow) (h1 : v1.Valid n) (h2 : v2.Valid n) : Enforces n m R root (fun a => v1.eval a = v2.eval a) [v1, v2] (enforce (σ := σ) (μ := μ) v1 v2) := by
  intro d hd hl
  subst hl
  refine ver_ask (f := (optionalSingleValue · v1)) ho (single_roo hd h1) fun x hx => ?_
  cases x with
  | some x =>
    obtain ⟨i1, e1⟩ := single_value hx
    refine ver_tell (.eq h2 i1) (fun a ha hc => by rw [Lit.holds_eq, ← hc.2, e1 a ha]) fun d' _ _ h3 => ?_
    have all : ∀ a, Within d' a → Within root a → v1.eval a = v2.eval a := fun a ha _ => by rw [e1 a ((h3 a).1 ha).1]; exact (Lit.holds_eq.1 ((h3 a).1 ha).2).symm
    exact ⟨fun _ => all, fun _ _ => all, fun _ => all⟩
  | none =>
    have open_ : ∀ {d' : Doms}, Enforced (fun a => Within root a → v1.eval a = v2.eval a) ([v1, v2].filterMap VarId.underlyingIndex) d .enable d' :=
      Enforced.intro (fun h => absurd rfl (single_known hd (h v1 (by simp)) hx)) (by rintro ⟨⟩) (by rintro ⟨⟩)
    refine ver_ask (f := (optionalSingleValue · v2)) ho (single_roo hd h2) fun y hy => ?_
    cases y with
    | some y =>
      obtain ⟨i1, e1⟩ := single_value hy
      refine ver_tell (.eq h1 i1) (fun a ha hc => by rw [Lit.holds_eq, hc.2, e1 a ha]) fun d' _ _ h3 => ?_
      have all : ∀ a, Within d' a → Within root a → v1.eval a = v2.eval a := fun a ha _ => by rw [e1 a ((h3 a).1 ha).1]; exact Lit.holds_eq.1 ((h3 a).1 ha).2
      exact ⟨fun _ => all, fun _ _ => all, fun _ => all⟩
    | none =>
      obtain ⟨g1, k1, _⟩ := domainHasHoles_spec hd h1
      obtain ⟨g2, k2, _⟩ := domainHasHoles_spec hd h2
      refine ver_ask (P := fun _ => True) ho (.inr ⟨g1 || g2, by simp [k1, k2, Bind.bind, Except.bind, Pure.pure, Except.pure], trivial⟩) fun b _ => ?_
      split
      · refine ver_ask (f := (copyOfValues · v1)) ho (copyOfValues_spec hd h1).drop fun s1 ⟨w1, r1, m1⟩ => ?_
        refine ver_ask (f := (copyOfValues · v2)) ho (copyOfValues_spec hd h2).drop fun s2 ⟨w2, r2, m2⟩ => ?_
        refine ver_seq (S := fun _ => False) hd rfl (fun _ h => h) (ver_prune (w := v2) ho hd rfl h1 ⟨w1, r1⟩ ⟨w2, r2⟩ fun a ha hc => ⟨hc.2, (m2 _).2 (ha.poss v2)⟩) fun _ d' hd' hl' hs' _ => ?_
        refine ver_seq (S := fun _ => False) hd' hl' (fun _ h => h) (ver_prune (w := v1) ho hd' hl' h2 ⟨w2, r2⟩ ⟨w1, r1⟩ fun a ha hc => ⟨hc.2.symm, (m1 _).2 ((hs' a ha).poss v1)⟩) fun _ d'' _ _ _ _ => ?_
        exact open_
      · refine ver_ask (f := (bounds · v1)) ho (bounds_roo hd h1) fun b1 ⟨⟨i1, m1⟩, i2, m2⟩ => ?_
        refine ver_ask (f := (bounds · v2)) ho (bounds_roo hd h2) fun b2 ⟨⟨i3, m3⟩, i4, m4⟩ => ?_
        split
        · refine ver_tell (.ge h2 i1) (fun a ha hc => by rw [Lit.holds_ge, ← hc.2]; exact m1.le ha) fun d1 _ _ s1 => ?_
          refine ver_tell (.ge h1 i3) (fun a ha hc => by rw [Lit.holds_ge, hc.2]; exact m3.le ((s1 a).1 ha).1) fun d2 _ _ s2 => ?_
          refine ver_lift ho (add_roo i2 (by decide)) fun u1 ⟨e1, j1⟩ => ?_
          refine ver_tell (.lt h2 j1) (fun a ha hc => by rw [Lit.holds_lt, ← hc.2, e1]; have := m2.ge ((s1 a).1 ((s2 a).1 ha).1).1; omega) fun d3 _ _ s3 => ?_
          refine ver_lift ho (add_roo i4 (by decide)) fun u2 ⟨e2, j2⟩ => ?_
          refine ver_tell (.lt h1 j2) (fun a ha hc => by rw [Lit.holds_lt, hc.2, e2]; have := m4.ge ((s1 a).1 ((s2 a).1 ((s3 a).1 ha).1).1).1; omega) fun d4 _ _ s4 => ?_
          exact open_
        · exact open_

theorem notHold_enforces (ho : R .overflow) (h1 : v1.Valid n) (h2 : v2.Valid n) : Enforces n m R root (fun a => ¬ v1.eval a = v2.eval a) [v1, v2] (notHold (σ := σ) (μ := μ) v1 v2) := by
  intro d hd hl
  subst hl
  refine ver_ask (f := (optionalSingleValue · v1)) ho (single_roo hd h1) fun x hx => ?_
  cases x with
  | some x =>
    obtain ⟨i1, e1⟩ := single_value hx
    refine ver_orStop trivial (.ne h2 i1) (fun a ha hc => by rw [Lit.holds_ne, ← e1 a ha]; exact fun h => hc.2 h.symm) fun d' _ _ h3 => ?_
    have all : ∀ a, Within d' a → Within root a → ¬ v1.eval a = v2.eval a := fun a ha _ => by rw [e1 a ((h3 a).1 ha).1]; exact fun h => (Lit.holds_ne.1 ((h3 a).1 ha).2) h.symm
    exact ⟨fun _ => all, fun _ _ => all, fun _ => all⟩
  | none =>
    refine ver_ask (f := (optionalSingleValue · v2)) ho (single_roo hd h2) fun y hy => ?_
    cases y with
    | some y =>
      obtain ⟨i1, e1⟩ := single_value hy
      refine ver_orStop trivial (.ne h1 i1) (fun a ha hc => by rw [Lit.holds_ne, ← e1 a ha]; exact hc.2) fun d' _ _ h3 => ?_
      have all : ∀ a, Within d' a → Within root a → ¬ v1.eval a = v2.eval a := fun a ha _ => by rw [e1 a ((h3 a).1 ha).1]; exact Lit.holds_ne.1 ((h3 a).1 ha).2
      exact ⟨fun _ => all, fun _ _ => all, fun _ => all⟩
    | none => exact Enforced.intro (fun h => absurd rfl (single_known hd (h v1 (by simp)) hx)) (by rintro ⟨⟩) (by rintro ⟨⟩)

theorem verdict_judges (ho : R .overflow) (h1 : v1.Valid n) (h2 : v2.Valid n) : Judges n m R root (fun a => v1.eval a = v2.eval a) [v1, v2] (verdict (σ := σ) (μ := μ) v1 v2) := by
  intro d hd hl
  subst hl
  unfold verdict
  split
  · next h => exact ver_pure ⟨rfl, fun _ a _ _ => by rw [h.1], by rintro ⟨⟩, by rintro ⟨⟩⟩
  · refine ver_ask (f := (optionalSingleValue · v1)) ho (single_roo hd h1) fun x hx => ?_
    refine ver_ask (f := (optionalSingleValue · v2)) ho (single_roo hd h2) fun y hy => ?_
    cases x with
    | some x =>
      obtain ⟨i1, e1⟩ := single_value hx
      cases y with
      | some y =>
        obtain ⟨i2, e2⟩ := single_value hy
        refine ver_pure ⟨rfl, fun e a ha _ => ?_, fun e a ha _ => ?_, fun e => ?_⟩
        · show v1.eval a = v2.eval a; rw [e1 a ha, e2 a ha]; split at e
          · assumption
          · cases e
        · show ¬ v1.eval a = v2.eval a; rw [e1 a ha, e2 a ha]; split at e
          · cases e
          · assumption
        · split at e <;> cases e
      | none =>
        refine ver_ask (f := (inDomain · v2 x)) ho (inDomain_spec hd h2 x i1) fun b hb => ver_pure ⟨rfl, fun e a ha _ => ?_, fun e a ha _ => ?_, fun e hk => ?_⟩
        · split at e <;> cases e
        · split at e
          · cases e
          · rename_i hn; show ¬ v1.eval a = v2.eval a; rw [e1 a ha]; intro he; exact hn (hb.2 (he ▸ ha.poss v2))
        · exact absurd rfl (single_known hd (hk v2 (by simp)) hy)
    | none =>
      cases y with
      | some y =>
        obtain ⟨i2, e2⟩ := single_value hy
        refine ver_ask (f := (inDomain · v1 y)) ho (inDomain_spec hd h1 y i2) fun b hb => ver_pure ⟨rfl, fun e a ha _ => ?_, fun e a ha _ => ?_, fun e hk => ?_⟩
        · split at e <;> cases e
        · split at e
          · cases e
          · rename_i hn; show ¬ v1.eval a = v2.eval a; rw [e2 a ha]; intro he; exact hn (hb.2 (he ▸ ha.poss v1))
        · exact absurd rfl (single_known hd (hk v1 (by simp)) hx)
      | none =>
        refine ver_ask (f := (domainsIntersect · v1 v2)) ho (domainsIntersect_spec hd h1 h2) fun b hb => ver_pure ⟨rfl, fun e a ha _ => ?_, fun e a ha _ => ?_, fun e hk => ?_⟩
        · split at e <;> cases e
        · split at e
          · cases e
          · rename_i hn; intro (he : v1.eval a = v2.eval a); exact hn (hb.2 ⟨v1.eval a, ha.poss v1, he ▸ ha.poss v2⟩)
        · exact absurd rfl (single_known hd (hk v1 (by simp)) hx)

theorem install_right (ho : R .overflow) (hd : DomsOK root) (hl : root.length = n) (h1 : v1.Valid n) (h2 : v2.Valid n) {r : Reif} (hr : r.Valid n) :
    (Posted.mk (install (σ := σ) (μ := μ) v1 v2 r) (fun a => r.holds (fun a => v1.eval a = v2.eval a) a) ([v1, v2] ++ r.vars)).Right n m R root (· = .overflow) := by
  have ev := reif_test_spec hd hl hr
  refine ⟨fun items hi => ?_, fun e hi => ?_⟩
  · simp only [install] at hi
    obtain ⟨e, e3, hi⟩ := bind_ok hi
    cases hi
    exact dispatcher_posts (σ := σ) (μ := μ) (m := m) ho hd hl hr (enforce_enforces (root := root) ho h1 h2) (notHold_enforces ho h1 h2) (verdict_judges ho h1 h2)
      (t := { onChange := [v1, v2] }) (fun x hx v hv => ⟨x, .inl hx, hv⟩) rfl e3
  · simp only [install] at hi
    rcases bind_error hi with hi | ⟨e, e3, hi⟩
    · rcases ev with ev | ⟨_, ev, _⟩ <;> simp_all
    cases hi

end
end Equals
end Gcs
