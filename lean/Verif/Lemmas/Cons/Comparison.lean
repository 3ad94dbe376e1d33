import Verif.Model.Cons.Comparison
import Verif.Lemmas.Cons.Reified

namespace Gcs.Comparison

/-- `x ≤ y` or `x < y`. -/
abbrev Less (orEqual : Bool) (x y : Int) : Prop := if orEqual = true then x ≤ y else x < y

section
variable {σ μ : Type} {n m : Nat} {R : Err → Prop} {root : Doms} {v1 v2 : VarId} {oe : Bool}

theorem off_ok (oe : Bool) : InI64 (if oe = true then 1 else 0) ∧ InI64 (if oe = true then 0 else 1) := by cases oe <;> decide

theorem hold_enforces (ho : R .overflow) (h1 : v1.Valid n) (h2 : v2.Valid n) : Enforces n m R root (fun a => Less oe (v1.eval a) (v2.eval a)) [v1, v2] (hold (σ := σ) (μ := μ) v1 v2 oe) := by
  intro d hd hl
  subst hl
  refine ver_ask (f := (bounds · v1)) ho (bounds_roo hd h1) fun b1 ⟨⟨i1, m1⟩, i2, m2⟩ => ?_
  refine ver_ask (f := (bounds · v2)) ho (bounds_roo hd h2) fun b2 ⟨⟨i3, m3⟩, i4, m4⟩ => ?_
  refine ver_lift ho (add_roo i4 (off_ok oe).1) fun u ⟨hu, iu⟩ => ?_
  refine ver_orStop trivial (.lt h1 iu) (fun a ha hc => ?_) fun d' _ _ k1 => ?_
  · have := m4.ge ha; have := hc.2; rw [Lit.holds_lt]; unfold Less at this; split at this <;> simp_all <;> omega
  refine ver_lift ho (add_roo i1 (off_ok oe).2) fun l ⟨hll, il⟩ => ?_
  refine ver_orStop trivial (.ge h2 il) (fun a ha hc => ?_) fun d'' _ _ k2 => ?_
  · have := m1.le ((k1 a).1 ha).1; have := hc.2; rw [Lit.holds_ge]; unfold Less at this; split at this <;> simp_all <;> omega
  refine ver_lift ho (add_roo i3 (off_ok oe).1) fun k ⟨hk, ik⟩ => ver_pure ?_
  have in_d : ∀ a, Within d'' a → Within d a := fun a ha => ((k1 a).1 ((k2 a).1 ha).1).1
  refine Enforced.intro (fun hkn a ha _ => ?_) (fun e => ?_) fun e a ha _ => ?_
  · have e1 := m4.eq (hkn v2 (by simp)) (in_d a ha)
    have := ((k1 a).1 ((k2 a).1 ha).1).2
    rw [Lit.holds_lt] at this; unfold Less; split <;> simp_all <;> omega
  · split at e <;> cases e
  · split at e
    · have := m2.ge (in_d a ha); have := m3.le (in_d a ha); unfold Less; split <;> simp_all <;> omega
    · cases e

theorem notHold_enforces (ho : R .overflow) (h1 : v1.Valid n) (h2 : v2.Valid n) : Enforces n m R root (fun a => ¬ Less oe (v1.eval a) (v2.eval a)) [v1, v2] (notHold (σ := σ) (μ := μ) v1 v2 oe) := by
  intro d hd hl
  subst hl
  refine ver_ask (f := (bounds · v1)) ho (bounds_roo hd h1) fun b1 ⟨⟨i1, m1⟩, i2, m2⟩ => ?_
  refine ver_ask (f := (bounds · v2)) ho (bounds_roo hd h2) fun b2 ⟨⟨i3, m3⟩, i4, m4⟩ => ?_
  refine ver_lift ho (add_roo i2 (off_ok oe).2) fun u ⟨hu, iu⟩ => ?_
  refine ver_orStop trivial (.lt h2 iu) (fun a ha hc => ?_) fun d' _ _ k1 => ?_
  · have := m2.ge ha; have := hc.2; rw [Lit.holds_lt]; unfold Less at this; split at this <;> simp_all <;> omega
  refine ver_lift ho (add_roo i3 (off_ok oe).1) fun l ⟨hll, il⟩ => ?_
  refine ver_orStop trivial (.ge h1 il) (fun a ha hc => ?_) fun d'' _ _ k2 => ?_
  · have := m3.le ((k1 a).1 ha).1; have := hc.2; rw [Lit.holds_ge]; unfold Less at this; split at this <;> simp_all <;> omega
  refine ver_lift ho (add_roo i1 (off_ok oe).2) fun k ⟨hk, ik⟩ => ver_pure ?_
  have in_d : ∀ a, Within d'' a → Within d a := fun a ha => ((k1 a).1 ((k2 a).1 ha).1).1
  refine Enforced.intro (fun hkn a ha _ => ?_) (fun e => ?_) fun e a ha _ => ?_
  · have e1 := m2.eq (hkn v1 (by simp)) (in_d a ha)
    have := ((k1 a).1 ((k2 a).1 ha).1).2
    rw [Lit.holds_lt] at this; unfold Less; split <;> simp_all <;> omega
  · split at e <;> cases e
  · split at e
    · have := m4.ge (in_d a ha); have := m1.le (in_d a ha); unfold Less; split <;> simp_all <;> omega
    · cases e

theorem verdict_judges (ho : R .overflow) (h1 : v1.Valid n) (h2 : v2.Valid n) : Judges n m R root (fun a => Less oe (v1.eval a) (v2.eval a)) [v1, v2] (verdict (σ := σ) (μ := μ) v1 v2 oe) := by
  intro d hd hl
  subst hl
  unfold verdict
  split
  · next h =>
    refine ver_pure ⟨rfl, fun e a _ _ => ?_, fun e a _ _ => ?_, fun e => ?_⟩
    · rw [h.1]; cases oe <;> simp_all [Less]
    · rw [h.1]; cases oe <;> simp_all [Less]
    · cases oe <;> simp_all
  · refine ver_ask (f := (bounds · v1)) ho (bounds_roo hd h1) fun b1 ⟨⟨i1, m1⟩, i2, m2⟩ => ?_
    refine ver_ask (f := (bounds · v2)) ho (bounds_roo hd h2) fun b2 ⟨⟨i3, m3⟩, i4, m4⟩ => ?_
    refine ver_pure ⟨rfl, fun e a ha _ => ?_, fun e a ha _ => ?_, fun e hk a ha _ => ?_⟩
    · have := m2.ge ha; have := m3.le ha
      unfold Less
      cases oe <;> simp only [if_true, if_false, Bool.false_eq_true] at e ⊢ <;> split at e <;> first | omega | (split at e <;> cases e)
    · have := m1.le ha; have := m4.ge ha
      unfold Less
      cases oe <;> simp only [if_true, if_false, Bool.false_eq_true] at e ⊢ <;> split at e <;> first | cases e | (split at e <;> first | omega | cases e)
    · have e1 := m1.eq (hk v1 (by simp)) ha; have e2 := m2.eq (hk v1 (by simp)) ha; have e3 := m3.eq (hk v2 (by simp)) ha; have e4 := m4.eq (hk v2 (by simp)) ha
      cases oe <;> simp only [if_true, if_false, Bool.false_eq_true] at e <;> split at e <;> first | (cases e; done) | (split at e <;> first | omega | cases e)

theorem constants_posts {r : Reif} {e : Evaluated} {P : Asg → Prop} {xs : List VarId} {b : Bool} (hb : ∀ a, Within root a → (P a ↔ b = true)) (ev : EvalRight n root r e) :
    Posts n m R root (fun a => r.holds P a) xs (constants (σ := σ) (μ := μ) b e) := by
  have refute : ∀ l : Lit, l.Valid n → (∀ a, Within root a → l.holds a) → (∀ a, Within root a → ¬ r.holds P a) →
      Posts n m R root (fun a => r.holds P a) xs [(.init .simpleDefinition (.tell l.not) : Item σ μ)] := by
    intro l hv hh hn
    refine .one fun d _ _ => ver_tell_last hv.not (fun a _ hc => absurd hc.2 (hn a hc.1)) fun d' _ _ h3 a ha hw => ?_
    exact absurd (hh a hw) ((l.not_holds a).1 ((h3 a).1 ha).2)
  cases e with
  | deactivated => exact .nil fun a ha => ev P a ha
  | mustHold l =>
    cases b with
    | true => exact .nil fun a ha => (ev.2.2 P a ha).2 ((hb a ha).2 rfl)
    | false => exact refute l ev.1 ev.2.1 fun a ha h => by have := (hb a ha).1 ((ev.2.2 P a ha).1 h); cases this
  | mustNotHold l =>
    cases b with
    | true => exact refute l ev.1 ev.2.1 fun a ha h => (ev.2.2 P a ha).1 h ((hb a ha).2 rfl)
    | false => exact .nil fun a ha => (ev.2.2 P a ha).2 fun h => by have := (hb a ha).1 h; cases this
  | undecided c b1 b2 b3 =>
    obtain ⟨_, _, _, _, _, hm1, hm2, hval⟩ := ev
    have go : ∀ o : Option Lit, (∀ l, o = some l → l.Valid n) → (∀ a, Within root a → (r.holds P a ↔ OptHolds a o)) →
        Posts n m R root (fun a => r.holds P a) xs (match o with | some l => [(.init .simpleDefinition (.tell l) : Item σ μ)] | none => []) := by
      intro o hv hh
      cases o with
      | none => exact .nil fun a ha => (hh a ha).2 trivial
      | some l => exact .one fun d _ _ => ver_tell_last (hv l rfl) (fun a _ hc => (hh a hc.1).1 hc.2) fun d' _ _ h3 a ha hw => (hh a hw).2 ((h3 a).1 ha).2
    cases b with
    | true => exact go _ (fun l hl => hval l (.inl hl)) fun a ha => hm1 P a ((hb a ha).2 rfl)
    | false => exact go _ (fun l hl => hval l (.inr hl)) fun a ha => hm2 P a fun h => by have := (hb a ha).1 h; cases this

theorem install_right (ho : R .overflow) (hd : DomsOK root) (hl : root.length = n) (h1 : v1.Valid n) (h2 : v2.Valid n) {r : Reif} (hr : r.Valid n) :
    (Posted.mk (install (σ := σ) (μ := μ) v1 v2 r oe) (fun a => r.holds (fun a => Less oe (v1.eval a) (v2.eval a)) a) ([v1, v2] ++ r.vars)).Right n m R root (· = .overflow) := by
  have s1 := single_roo hd (hl ▸ h1)
  have s2 := single_roo hd (hl ▸ h2)
  have ev := reif_test_spec hd hl hr
  have pin : ∀ {v : VarId} {x : Int}, (∀ y, (some x = some y ↔ ∀ z, Poss root v z ↔ z = y) ∧ (some x = some y → InI64 y)) → ∀ a, Within root a → v.eval a = x :=
    fun h a ha => (((h _).1.1 rfl) _).1 (ha.poss _)
  refine ⟨fun items hi => ?_, fun e hi => ?_⟩
  · simp only [install] at hi
    obtain ⟨c1, e1, hi⟩ := bind_ok hi
    obtain ⟨c2, e2, hi⟩ := bind_ok hi
    obtain ⟨e, e3, hi⟩ := bind_ok hi
    have hev := ev.value e3
    have disp := dispatcher_posts (σ := σ) (μ := μ) (m := m) ho hd hl hr (hold_enforces (oe := oe) (root := root) ho h1 h2) (notHold_enforces ho h1 h2) (verdict_judges ho h1 h2)
      (t := { onBounds := [v1, v2] }) (fun x hx v hv => ⟨x, .inr (.inl hx), hv⟩) rfl e3
    have s1 := s1.value e1; have s2 := s2.value e2
    cases c1 with
    | none => cases hi; exact disp
    | some x =>
      cases c2 with
      | none => cases hi; exact disp
      | some y =>
        cases hi
        refine constants_posts (fun a ha => ?_) hev
        rw [pin s1 a ha, pin s2 a ha]; cases oe <;> simp [Less]
  · simp only [install] at hi
    rcases bind_error hi with hi | ⟨c1, e1, hi⟩
    · rcases s1 with s1 | ⟨_, s1, _⟩ <;> simp_all
    rcases bind_error hi with hi | ⟨c2, e2, hi⟩
    · rcases s2 with s2 | ⟨_, s2, _⟩ <;> simp_all
    rcases bind_error hi with hi | ⟨e, e3, hi⟩
    · rcases ev with ev | ⟨_, ev, _⟩ <;> simp_all
    cases c1 <;> cases c2 <;> cases hi

end
end Gcs.Comparison
