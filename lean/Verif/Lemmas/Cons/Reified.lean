import Verif.Spec.Reified
import Verif.Lemmas.Cons.Steps
import Verif.Props.Literal

/-!
# Reified constraints
-/

namespace Gcs

section
variable {n : Nat}

theorem Lit.Valid.not {l : Lit} (h : l.Valid n) : l.not.Valid n := by
  cases l with
  | tt => exact h
  | ff => exact h
  | cond c =>
    obtain ⟨v, op, x, u⟩ := c
    obtain ⟨h1, h2, h3⟩ := h
    cases op
    · exact ⟨h1, h2, show InI64 0 by decide⟩
    · exact ⟨h1, h2, show InI64 0 by decide⟩
    · exact ⟨h1, h2, show InI64 0 by decide⟩
    · exact ⟨h1, h2, show InI64 0 by decide⟩
    · exact ⟨h1, h2, h3⟩
    · exact ⟨h1, h2, h3⟩

theorem Lit.RangeOK.not {l : Lit} (h : l.RangeOK) : l.not.RangeOK := by
  cases l with
  | tt => exact h
  | ff => exact h
  | cond c =>
    obtain ⟨v, op, x, u⟩ := c
    cases op
    · rintro (h | h) <;> cases h
    · rintro (h | h) <;> cases h
    · rintro (h | h) <;> cases h
    · rintro (h | h) <;> cases h
    · intro _; exact h (.inl rfl)
    · intro _; exact h (.inr rfl)

/-- A literal, if there is one, holds. -/
def OptHolds (a : Asg) : Option Lit → Prop
  | some l => l.holds a
  | none => True

/-- What evaluating a condition says about the constraint. -/
def EvalRight (n : Nat) (d : Doms) (r : Reif) : Evaluated → Prop
  | .mustHold l => l.Valid n ∧ (∀ a, Within d a → l.holds a) ∧ ∀ P a, Within d a → (r.holds P a ↔ P a)
  | .mustNotHold l => l.Valid n ∧ (∀ a, Within d a → l.holds a) ∧ ∀ P a, Within d a → (r.holds P a ↔ ¬ P a)
  | .undecided c b1 b2 b3 => (Lit.cond c).Valid n ∧ c.var ∈ r.vars ∧ r.vars = [c.var] ∧ (¬ ∀ a, Within d a → c.holds a) ∧ (¬ ∀ a, Within d a → ¬ c.holds a) ∧
    (∀ (P : Asg → Prop) a, P a → (r.holds P a ↔ OptHolds a (condIfMustHold c b1 b3))) ∧ (∀ (P : Asg → Prop) a, ¬ P a → (r.holds P a ↔ OptHolds a (condIfMustNotHold c b2))) ∧
    (∀ l, condIfMustHold c b1 b3 = some l ∨ condIfMustNotHold c b2 = some l → l.Valid n)
  | .deactivated => ∀ P a, Within d a → r.holds P a

theorem condIf_valid {c : Cond} {b1 b2 b3 : Bool} (h : (Lit.cond c).Valid n) (l : Lit) (hl : condIfMustHold c b1 b3 = some l ∨ condIfMustNotHold c b2 = some l) : l.Valid n := by
  unfold condIfMustHold condIfMustNotHold at hl
  have hn := h.not
  rcases hl with hl | hl
  · split at hl
    · cases hl; exact h
    · split at hl
      · cases hl; exact hn
      · cases hl
  · split at hl
    · cases hl; exact hn
    · cases hl

theorem reif_test_spec {d : Doms} {r : Reif} (hd : DomsOK d) (hl : d.length = n) (hr : r.Valid n) : RightOrOverflow (r.test d) (EvalRight n d r) := by
  subst hl
  have decided : ∀ c : Cond, (Lit.cond c).Valid d.length ∧ (Lit.cond c).RangeOK → RightOrOverflow (testLiteral d (.cond c)) (fun x =>
      (x = .definitelyTrue → ∀ a, Within d a → c.holds a) ∧ (x = .definitelyFalse → ∀ a, Within d a → ¬ c.holds a) ∧
      (x = .undecided → (¬ ∀ a, Within d a → c.holds a) ∧ ¬ ∀ a, Within d a → ¬ c.holds a)) := by
    intro c hc
    refine (testLiteral_spec d (.cond c) hd hc.1 hc.2).mono fun x hx => ⟨fun e => hx.1.1 e, fun e => hx.2.1 e, fun e => ⟨fun h => ?_, fun h => ?_⟩⟩
    · have := hx.1.2 h; rw [e] at this; cases this
    · have := hx.2.2 h; rw [e] at this; cases this
  cases r with
  | mustHold => exact .pure ⟨trivial, fun _ _ => trivial, fun P a _ => Iff.rfl⟩
  | mustNotHold => exact .pure ⟨trivial, fun _ _ => trivial, fun P a _ => Iff.rfl⟩
  | ifCond c =>
    refine (decided c hr).bind fun x hx => ?_
    cases x with
    | definitelyTrue => exact .pure ⟨hr.1, hx.1 rfl, fun P a ha => ⟨fun h => h (hx.1 rfl a ha), fun h _ => h⟩⟩
    | definitelyFalse => exact .pure fun P a ha h => absurd h (hx.2.1 rfl a ha)
    | undecided =>
      refine .pure ⟨hr.1, List.mem_singleton.2 rfl, rfl, (hx.2.2 rfl).1, (hx.2.2 rfl).2, fun P a h => ⟨fun _ => trivial, fun _ _ => h⟩, fun P a h => ⟨fun k => ?_, fun k k' => ?_⟩, condIf_valid hr.1⟩
      · exact (c.not_holds a).2 fun hc => h (k hc)
      · exact absurd k' ((c.not_holds a).1 k)
  | notIf c =>
    refine (decided c hr).bind fun x hx => ?_
    cases x with
    | definitelyTrue => exact .pure ⟨hr.1, hx.1 rfl, fun P a ha => ⟨fun h => h (hx.1 rfl a ha), fun h _ => h⟩⟩
    | definitelyFalse => exact .pure fun P a ha h => absurd h (hx.2.1 rfl a ha)
    | undecided =>
      refine .pure ⟨hr.1, List.mem_singleton.2 rfl, rfl, (hx.2.2 rfl).1, (hx.2.2 rfl).2, fun P a h => ⟨fun k => ?_, fun k k' => ?_⟩, fun P a h => ⟨fun _ => trivial, fun _ _ => h⟩, condIf_valid hr.1⟩
      · exact (c.not_holds a).2 fun hc => k hc h
      · exact absurd k' ((c.not_holds a).1 k)
  | iffCond c =>
    refine (decided c hr).bind fun x hx => ?_
    cases x with
    | definitelyTrue => exact .pure ⟨hr.1, hx.1 rfl, fun P a ha => ⟨fun h => h.1 (hx.1 rfl a ha), fun h => ⟨fun _ => h, fun _ => hx.1 rfl a ha⟩⟩⟩
    | definitelyFalse =>
      refine .pure ⟨Lit.Valid.not hr.1, fun a ha => (c.not_holds a).2 (hx.2.1 rfl a ha), fun P a ha => ⟨fun h k => hx.2.1 rfl a ha (h.2 k), fun h => ⟨fun k => absurd k (hx.2.1 rfl a ha), fun k => absurd k h⟩⟩⟩
    | undecided =>
      refine .pure ⟨hr.1, List.mem_singleton.2 rfl, rfl, (hx.2.2 rfl).1, (hx.2.2 rfl).2, fun P a h => ⟨fun k => k.2 h, fun k => ⟨fun _ => h, fun _ => k⟩⟩, fun P a h => ⟨fun k => ?_, fun k => ?_⟩, condIf_valid hr.1⟩
      · exact (c.not_holds a).2 fun hc => h (k.1 hc)
      · exact ⟨fun hc => absurd hc ((c.not_holds a).1 k), fun hp => absurd hp h⟩

/-- A condition on a known variable is decided. -/
theorem cond_known {d : Doms} {c : Cond} (h : Known d c.var) (hd : DomsOK d) : (∀ a, Within d a → c.holds a) ∨ ∀ a, Within d a → ¬ c.holds a := by
  obtain ⟨b, hb⟩ := exists_within hd
  by_cases hc : c.holds b
  · refine .inl fun a ha => ?_
    unfold Cond.holds at hc ⊢
    rw [h a b ha hb]; exact hc
  · refine .inr fun a ha => ?_
    unfold Cond.holds at hc ⊢
    rw [h a b ha hb]; exact hc

end

section
variable {σ μ : Type} {n m : Nat} {R : Err → Prop} {root : Doms} {P : Asg → Prop} {xs : List VarId} {r : Reif} {t : Triggers}
variable {hold notHold : Prog σ μ PState} {verdict : Prog σ μ Verdict}

theorem wakes_addFor {y : VarId} {v : Nat} (l : Lit) (h : y ∈ t.onChange ∨ y ∈ t.onBounds ∨ y ∈ t.onInstantiated) (e : y.underlyingIndex = some v) :
    ∃ y, (y ∈ (t.addFor l).onChange ∨ y ∈ (t.addFor l).onBounds ∨ y ∈ (t.addFor l).onInstantiated) ∧ y.underlyingIndex = some v := by
  refine ⟨y, ?_, e⟩
  cases l with
  | tt => exact h
  | ff => exact h
  | cond c =>
    simp only [Triggers.addFor]
    split <;> rcases h with h | h | h <;> simp [h]

theorem wakes_cond (c : Cond) : c.var ∈ (t.addFor (.cond c)).onChange ∨ c.var ∈ (t.addFor (.cond c)).onBounds := by
  simp only [Triggers.addFor]
  split <;> simp

theorem addFor_refined (l : Lit) : (t.addFor l).refined = t.refined := by
  cases l with
  | tt => rfl
  | ff => rfl
  | cond c => simp only [Triggers.addFor]; split <;> rfl

/-- The constraint-side triggers wake the passes. -/
def Wakes (t : Triggers) (xs : List VarId) : Prop := ∀ x ∈ xs, ∀ v, x.underlyingIndex = some v → ∃ y, (y ∈ t.onChange ∨ y ∈ t.onBounds ∨ y ∈ t.onInstantiated) ∧ y.underlyingIndex = some v

theorem ver_known {J : Job} {S : PState → Prop} {Q : PState → Doms → Prop} {C : Asg → Prop} {p : Prog σ μ PState} {d : Doms} (h : p.Ver J S Q d) (hc : ∀ a, Within d a → C a → J.C a) :
    p.Ver { J with C := C } S Q d := ver_weaken p d hc h

/-- Within `root`, `C` is `P`: a pass for one is a pass for the other. -/
theorem Enforces.implements {C : Asg → Prop} (h : Enforces n m R root P xs hold) (hc : ∀ a, Within root a → (C a ↔ P a)) (hw : Wakes t xs) (ht : t.refined = []) :
    Implements n m R root hold t C P xs where
  wakes := hw
  refined := by simp [ht]
  ver := fun d h1 h2 => ver_mono (fun _ _ h => h.when) _ _ (ver_weaken (J := { n, m, R, C := fun a => Within root a ∧ P a }) hold d (fun a _ hh => ⟨hh.1, (hc a hh.1).1 hh.2⟩) (h d h1 h2))

theorem ver_dispatch (ho : R .overflow) (hr : r.Valid n) (h1 : Enforces n m R root P xs hold) (h2 : Enforces n m R root (fun a => ¬ P a) xs notHold) (h3 : Judges n m R root P xs verdict)
    : Enforces n m R root (fun a => r.holds P a) (xs ++ r.vars) (dispatch r hold notHold verdict) := by
  intro d hd hl
  refine ver_ask (f := (r.test ·)) ho (reif_test_spec hd hl hr) fun e he => ?_
  have unclaimed : ∀ {K : Asg → Prop} (ps : PState) (d' : Doms), (∀ a, Within d' a → Within d a) → (∀ a, Within d a → (r.holds P a ↔ K a)) →
      Enforced (fun a => Within root a → K a) (xs.filterMap VarId.underlyingIndex) d ps d' →
      Enforced (fun a => Within root a → r.holds P a) ((xs ++ r.vars).filterMap VarId.underlyingIndex) d ps.withoutClaim d' := by
    rintro K ps d' hs hk ⟨e1, e2, e3⟩
    refine ⟨fun hf a ha hw => (hk a (hs a ha)).2 (e1 (fun v hv => hf v ?_) a ha hw), fun hp => ?_, fun hp a ha hw => (hk a (hs a ha)).2 (e3 ?_ a ha hw)⟩
    · rw [List.filterMap_append]; exact List.mem_append_left _ hv
    · cases ps <;> simp [PState.withoutClaim] at hp
    · cases ps <;> simp [PState.withoutClaim] at hp ⊢
  cases e with
  | mustHold l =>
    refine ver_bind (S := fun _ => True) (f := fun ps => .ret ps.withoutClaim) (T := fun _ => True) (fun _ _ => trivial) hold d hd ?_ ?_
    · exact hl
    refine ver_mono (fun ps d' hq k1 k2 k3 => unclaimed ps d' k3 (fun a ha => he.2.2 P a ha) hq) _ _ ?_
    exact ver_weaken (J := { n, m, R, C := fun a => Within root a ∧ P a }) hold d (fun a ha hh => ⟨hh.1, (he.2.2 P a ha).1 hh.2⟩) (h1 d hd hl)
  | mustNotHold l =>
    refine ver_bind (S := fun _ => True) (f := fun ps => .ret ps.withoutClaim) (T := fun _ => True) (fun _ _ => trivial) notHold d hd ?_ ?_
    · exact hl
    refine ver_mono (fun ps d' hq k1 k2 k3 => unclaimed ps d' k3 (fun a ha => he.2.2 P a ha) hq) _ _ ?_
    exact ver_weaken (J := { n, m, R, C := fun a => Within root a ∧ ¬ P a }) notHold d (fun a ha hh => ⟨hh.1, (he.2.2 P a ha).1 hh.2⟩) (h2 d hd hl)
  | undecided c b1 b2 b3 =>
    obtain ⟨hcv, hmem, hvars, hu1, hu2, hm1, hm2, hval⟩ := he
    -- the condition is not fixed
    have open_ : ¬ ∀ x ∈ xs ++ r.vars, Known d x := fun h => by
      rcases cond_known (h c.var (List.mem_append_right _ hmem)) hd with h | h
      · exact hu1 h
      · exact hu2 h
    refine ver_seq (S := fun _ => False) hd hl (fun _ h => h) (ver_weaken (J := { n, m, R, C := fun _ => True }) verdict d (fun _ _ _ => trivial) (h3 d hd hl)) ?_
    rintro v d' k1 k2 - ⟨rfl, hv1, hv2, hv3⟩
    have done : ∀ (o : Option Lit), (∀ l, o = some l → l.Valid n) → (∀ a, Within d' a → Within root a → (r.holds P a ↔ OptHolds a o)) →
        (do Prog.tellAny o; return PState.disableUntilBacktrack : Prog σ μ PState).Ver { n, m, R, C := fun a => Within root a ∧ r.holds P a } (fun _ => True)
          (Enforced (fun a => Within root a → r.holds P a) ((xs ++ r.vars).filterMap VarId.underlyingIndex) d') d' := by
      intro o hv hh
      cases o with
      | none => exact ⟨fun _ a ha hw => (hh a ha hw).2 trivial, fun _ _ a ha hw => (hh a ha hw).2 trivial, fun _ a ha hw => (hh a ha hw).2 trivial⟩
      | some l =>
        refine ver_tell (hv l rfl) (fun a ha hc => (hh a ha hc.1).1 hc.2) fun d2 _ _ h3 => ?_
        have all : ∀ a, Within d2 a → Within root a → r.holds P a := fun a ha hw => (hh a ((h3 a).1 ha).1 hw).2 ((h3 a).1 ha).2
        exact ⟨fun _ => all, fun _ _ => all, fun _ => all⟩
    cases v with
    | stillUndecided =>
      exact Enforced.intro (fun h => absurd h open_) (by rintro ⟨⟩) (by rintro ⟨⟩)
    | mustHold => exact done _ (fun l hl => hval l (.inl hl)) fun a ha hw => hm1 P a (hv1 rfl a ha hw)
    | mustNotHold => exact done _ (fun l hl => hval l (.inr hl)) fun a ha hw => hm2 P a (hv2 rfl a ha hw)
  | deactivated =>
    have all : ∀ a, Within d a → Within root a → r.holds P a := fun a ha _ => he P a ha
    exact ⟨fun _ => all, fun _ _ => all, fun _ => all⟩

/-- A constructor that refuses some operands. -/
theorem right_guard {f g : Doms → Chk (List (Item σ μ))} {H : Asg → Prop} {p : Prop} [Decidable p] {e : Err} {E : Err → Prop} (hg : ∀ d, g d = if p then .error e else f d)
    (h : (Posted.mk f H xs).Right n m R root E) : (Posted.mk g H xs).Right n m R root (fun x => E x ∨ x = e ∧ p) := by
  by_cases hp : p
  · refine ⟨fun items hi => ?_, fun e' hi => ?_⟩
    · simp only [hg, if_pos hp] at hi; cases hi
    · simp only [hg, if_pos hp] at hi; cases hi; exact .inr ⟨rfl, hp⟩
  · have : g = f := by funext d; rw [hg, if_neg hp]
    rw [this]; exact ⟨h.1, fun x hx => .inl (h.2 x hx)⟩

/-- C47: what `install_reified_dispatcher` installs is right for the reified constraint, if the passes are right for the constraint and its negation. -/
theorem dispatcher_posts (ho : R .overflow) (hroot : DomsOK root) (hlen : root.length = n) (hr : r.Valid n) (h1 : Enforces n m R root P xs hold) (h2 : Enforces n m R root (fun a => ¬ P a) xs notHold)
    (h3 : Judges n m R root P xs verdict) (hw : Wakes t xs) (ht : t.refined = []) {e : Evaluated} (he : r.test root = .ok e) :
    Posts n m R root (fun a => r.holds P a) (xs ++ r.vars) (installDispatcher e r t hold notHold verdict) := by
  have ev := (reif_test_spec hroot hlen hr).value he
  cases e with
  | deactivated => exact .nil fun a ha => ev P a ha
  | mustHold l => exact .one' P ⟨xs, fun y hy => List.mem_append_left _ hy, h1.implements (fun a ha => ev.2.2 P a ha) hw ht⟩ fun a ha => ev.2.2 P a ha
  | mustNotHold l => exact .one' (fun a => ¬ P a) ⟨xs, fun y hy => List.mem_append_left _ hy, h2.implements (fun a ha => ev.2.2 P a ha) hw ht⟩ fun a ha => ev.2.2 P a ha
  | undecided c b1 b2 b3 =>
    refine .one ⟨xs ++ r.vars, fun y hy => hy, (ver_dispatch ho hr h1 h2 h3).implements (fun _ _ => Iff.rfl) ?_ (by rw [addFor_refined, ht])⟩
    intro x hx v hv
    rcases List.mem_append.1 hx with hx | hx
    · obtain ⟨y, hy, e⟩ := hw x hx v hv
      exact wakes_addFor _ hy e
    · rw [ev.2.2.1] at hx
      rw [List.mem_singleton.1 hx] at hv
      exact ⟨c.var, (wakes_cond c).imp id .inl, hv⟩

end
end Gcs
