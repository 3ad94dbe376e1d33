import Verif.Lemmas.Learning

/-! Nogoods with refined watches: what one run does. -/

namespace Gcs
open IntervalSet Queue
namespace Nogoods

section
variable {σ μ : Type} {n m np : Nat} {R : Err → Prop}

theorem stateGet_set (w : Watches) (o k x o' i : Nat) : (w.stateSet o k x).stateGet o' i = if o' = o ∧ i = k then x else w.stateGet o' i := by
  obtain ⟨vs, h1, _, _, h4, h5, _⟩ := stateSet_spec w o k x
  by_cases ho : o' = o
  · subst ho
    rw [stateGet_eq, h1]
    simp only [Option.getD_some, h4, true_and]
  · rw [stateGet_eq, h5 o' ho, if_neg (fun h => ho h.1), ← stateGet_eq]

theorem armed_stateSet (w : Watches) (o k x v : Nat) : armed (w.stateSet o k x) v = armed w v := rfl
theorem register_stateGet (w : Watches) (o : Nat) (l : Lit) (p o' i : Nat) : (w.register o l p true).stateGet o' i = w.stateGet o' i := by
  unfold Watches.register; cases l.underlyingIndex <;> rfl
theorem register_inbox (w : Watches) (o : Nat) (l : Lit) (p : Nat) : (w.register o l p true).inbox = w.inbox := by
  unfold Watches.register; cases l.underlyingIndex <;> rfl
theorem register_keeps (w : Watches) (o : Nat) (l : Lit) (p : Nat) {v : Nat} {x : RefinedWatch} (h : x ∈ armed w v) : x ∈ armed (w.register o l p true) v := by
  cases hu : l.underlyingIndex with
  | none => have : w.register o l p true = w := by unfold Watches.register; rw [hu]
            rw [this]; exact h
  | some u => rw [armed_register w o l p true hu]; simp [h]

/-- The propagator's watch for nogood `ni` on the condition is armed. -/
def Watched (w : Watches) (me ni : Nat) (x : Cond) : Prop := ∃ v, ∃ y ∈ armed w v, y.owner = me ∧ y.payload = ni ∧ y.literal = .cond x

/-- Either armed, or it has fired and the propagator has been told. -/
def Half (s : Sys σ μ) (me ni : Nat) (x : Cond) : Prop := Watched s.w me ni x ∨ (Entailed s.doms (.cond x) ∧ ni ∈ box s.w me)

/-- The nogood is satisfied, or two of its literals, at the positions noted, are as `H` says. -/
def TwoOf (H : Cond → Prop) (s : Sys σ μ) (me ni : Nat) (g : List Cond) : Prop :=
  (∃ x ∈ g, Refuted s.doms x) ∨ ∃ p q x y, p ≠ q ∧ g[p]? = some x ∧ g[q]? = some y ∧ s.w.stateGet me ni = pack p q ∧ H x ∧ H y

abbrev ClauseOK (s : Sys σ μ) (me ni : Nat) (g : List Cond) : Prop := TwoOf (Half s me ni) s me ni g
abbrev Good (s : Sys σ μ) (me ni : Nat) (g : List Cond) : Prop := TwoOf (Watched s.w me ni) s me ni g

theorem Good.ok {s : Sys σ μ} {me ni : Nat} {g : List Cond} (h : Good s me ni g) : ClauseOK s me ni g := by
  rcases h with h | ⟨p, q, x, y, h1, h2, h3, h4, h5, h6⟩
  · exact .inl h
  · exact .inr ⟨p, q, x, y, h1, h2, h3, h4, .inl h5, .inl h6⟩

theorem ClauseOK.good {s : Sys σ μ} {me ni : Nat} {g : List Cond} (h : ClauseOK s me ni g) (hb : ni ∉ box s.w me) : Good s me ni g := by
  rcases h with h | ⟨p, q, x, y, h1, h2, h3, h4, h5, h6⟩
  · exact .inl h
  · exact .inr ⟨p, q, x, y, h1, h2, h3, h4, h5.resolve_right fun h => hb h.2, h6.resolve_right fun h => hb h.2⟩

/-- What happens up to the point where a run goes on: only the notes on the nogoods in `ks` change, and watches are only added. -/
structure Went (n m me : Nat) (ok : Asg → Prop) (ks : Nat → Prop) (s s1 : Sys σ μ) : Prop where
  run : Runnable n m s1
  evolve : ∃ cs, Evolve s.doms cs s1.doms
  keep : ∀ a, Within s.doms a → ok a → Within s1.doms a
  mem : s1.mem = s.mem
  inbox : s1.w.inbox = s.w.inbox
  armed : ∀ v x, x ∈ armed s.w v → x ∈ armed s1.w v
  state : ∀ o i, (o ≠ me ∨ ¬ ks i) → s1.w.stateGet o i = s.w.stateGet o i

theorem Went.refl {me : Nat} {ok : Asg → Prop} {ks : Nat → Prop} {s : Sys σ μ} (h : Runnable n m s) : Went n m me ok ks s s :=
  ⟨h, ⟨[], .refl _ h.domsOK⟩, fun _ h _ => h, rfl, rfl, fun _ _ h => h, fun _ _ _ => rfl⟩

theorem Went.trans {me : Nat} {p q r : Asg → Prop} {k1 k2 k3 : Nat → Prop} {s s1 s2 : Sys σ μ} (h1 : Went n m me p k1 s s1) (h2 : Went n m me q k2 s1 s2) (hp : ∀ a, r a → p a) (hq : ∀ a, r a → q a)
    (hk1 : ∀ i, k1 i → k3 i) (hk2 : ∀ i, k2 i → k3 i) : Went n m me r k3 s s2 := by
  obtain ⟨c1, e1⟩ := h1.evolve
  obtain ⟨c2, e2⟩ := h2.evolve
  exact ⟨h2.run, ⟨_, e1.trans e2⟩, fun a ha hr => h2.keep a (h1.keep a ha (hp a hr)) (hq a hr), h2.mem.trans h1.mem, h2.inbox.trans h1.inbox, fun v x h => h2.armed v x (h1.armed v x h),
    fun o i h => (h2.state o i (h.imp id fun h hk => h (hk2 i hk))).trans (h1.state o i (h.imp id fun h hk => h (hk1 i hk)))⟩

theorem Went.watched {me : Nat} {ok : Asg → Prop} {ks : Nat → Prop} {s s1 : Sys σ μ} (h : Went n m me ok ks s s1) {ni : Nat} {x : Cond} (hw : Watched s.w me ni x) : Watched s1.w me ni x := by
  obtain ⟨v, y, hy, h2⟩ := hw
  exact ⟨v, y, h.armed v y hy, h2⟩

theorem Went.half {me : Nat} {ok : Asg → Prop} {ks : Nat → Prop} {s s1 : Sys σ μ} (h : Went n m me ok ks s s1) {ni : Nat} {x : Cond} (hw : Half s me ni x) : Half s1 me ni x := by
  obtain ⟨cs, e⟩ := h.evolve
  rcases hw with hw | ⟨h1, h2⟩
  · exact .inl (h.watched hw)
  · exact .inr ⟨h1.evolve e, by unfold box at h2 ⊢; rw [h.inbox]; exact h2⟩

/-- What is noted about other nogoods stays right. -/
theorem Went.others {me : Nat} {ok : Asg → Prop} {ks : Nat → Prop} {s s1 : Sys σ μ} (h : Went n m me ok ks s s1) {ni : Nat} (hn : ¬ ks ni) {g : List Cond} :
    (Good s me ni g → Good s1 me ni g) ∧ (ClauseOK s me ni g → ClauseOK s1 me ni g) := by
  obtain ⟨cs, e⟩ := h.evolve
  have hst := h.state me ni (.inr hn)
  constructor
  · rintro (⟨x, hx, hr⟩ | ⟨p, q, x, y, h1, h2, h3, h4, h5, h6⟩)
    · exact .inl ⟨x, hx, hr.evolve e⟩
    · exact .inr ⟨p, q, x, y, h1, h2, h3, hst.trans h4, h.watched h5, h.watched h6⟩
  · rintro (⟨x, hx, hr⟩ | ⟨p, q, x, y, h1, h2, h3, h4, h5, h6⟩)
    · exact .inl ⟨x, hx, hr.evolve e⟩
    · exact .inr ⟨p, q, x, y, h1, h2, h3, hst.trans h4, h.half h5, h.half h6⟩

/-- The two ways in which the work for some nogoods can end: everything is forbidden, or the run goes on and `Q` holds. -/
def Does (n m : Nat) (c : Ctx) (gs : List (List Cond)) (ks : Nat → Prop) (k : Prog σ μ PState) (Q : Sys σ μ → Prop) (s : Sys σ μ) (r : Res PState) (s' : Sys σ μ) : Prop :=
  (r = .failed ∧ (∀ a, Within s.doms a → ∃ g ∈ gs, Forbids g a) ∧ s'.mem = s.mem) ∨
  ∃ s1, runProg c k s1 = .ok (r, s') ∧ Went n m c.owner (fun a => ∀ g ∈ gs, ¬ Forbids g a) ks s s1 ∧ Q s1

theorem const_refuted {d : Doms} {x : Cond} (h : x.var.underlyingIndex = none) (hn : ¬ Entailed d (.cond x)) : Refuted d x := by
  intro a _ ha
  apply hn
  intro b _
  obtain ⟨var, op, value, upper⟩ := x
  cases var with
  | const c => exact ha
  | simple i => cases h
  | view i ng k => cases h

/-- After arming, either the watch is armed or the condition is constantly false. -/
theorem watched_register (w : Watches) (me ni : Nat) {x : Cond} {d : Doms} (hn : ¬ Entailed d (.cond x)) : Watched (w.register me (.cond x) ni true) me ni x ∨ Refuted d x := by
  cases hu : (Lit.cond x).underlyingIndex with
  | none => exact .inr (const_refuted hu hn)
  | some u =>
    refine .inl ⟨u, ⟨.cond x, ni, me, w.nextId, triggerMask (.cond x)⟩, ?_, rfl, rfl, rfl⟩
    rw [armed_register w me (.cond x) ni true hu]
    simp

theorem went_register {c : Ctx} {ok : Asg → Prop} {ks : Nat → Prop} {s : Sys σ μ} (h : Runnable n m s) (l : Lit) (ni : Nat) :
    Went n m c.owner ok ks s { s with w := s.w.register c.owner l ni true } :=
  ⟨h.setW _, ⟨[], .refl _ h.domsOK⟩, fun _ h _ => h, rfl, register_inbox _ _ _ _, fun _ _ h => register_keeps _ _ _ _ h, fun _ _ _ => register_stateGet _ _ _ _ _ _⟩

theorem went_stateSet {me : Nat} {ok : Asg → Prop} {s : Sys σ μ} (h : Runnable n m s) (ni x : Nat) :
    Went n m me ok (· = ni) s { s with w := s.w.stateSet me ni x } :=
  ⟨h.setW _, ⟨[], .refl _ h.domsOK⟩, fun _ h _ => h, rfl, rfl, fun _ _ h => h, fun o i hx => by
    show (s.w.stateSet me ni x).stateGet o i = _
    rw [stateGet_set, if_neg]
    rintro ⟨rfl, rfl⟩
    rcases hx with hx | hx <;> exact hx rfl⟩

theorem does_unit {c : Ctx} {g : List Cond} (hg : Proper n g) {ni q : Nat} {k : Prog σ μ PState} {s : Sys σ μ} (h : Runnable n m s) {r : Res PState} {s' : Sys σ μ}
    (hu : ∀ (i : Nat) x, g[i]? = some x → some q ≠ some (0 + i) → Entailed s.doms (.cond x)) (e : runProg c (inferNot g q k) s = .ok (r, s')) :
    Does n m c [g] (· = ni) k (fun s1 => ∃ x ∈ g, Refuted s1.doms x) s r s' := by
  rcases run_unit hg h hu e with ⟨h1, h2, h3⟩ | ⟨s1, cs, x, h1, h2, h3, h4, h5, h6, h7, h8⟩
  · exact .inl ⟨h1, fun a ha => ⟨g, by simp, h2 a ha⟩, h3⟩
  · exact .inr ⟨s1, h1, ⟨h2, ⟨cs, h3⟩, fun a ha hn => h4 a ha (hn g (by simp)), h8, by rw [h7], by rw [h7]; exact fun _ _ h => h, by rw [h7]; exact fun _ _ _ => rfl⟩, x, List.mem_of_getElem? h5, h6⟩

theorem does_fail {c : Ctx} {g : List Cond} {ks : Nat → Prop} {k : Prog σ μ PState} {Q : Sys σ μ → Prop} {s : Sys σ μ} {r : Res PState} {s' : Sys σ μ}
    (hu : ∀ (i : Nat) x, g[i]? = some x → none ≠ some (0 + i) → Entailed s.doms (.cond x)) (e : runProg c (.fail : Prog σ μ PState) s = .ok (r, s')) : Does n m c [g] ks k Q s r s' := by
  cases e
  refine .inl ⟨rfl, fun a ha => ⟨g, by simp, fun x hx => ?_⟩, rfl⟩
  obtain ⟨i, hi⟩ := List.mem_iff_getElem?.1 hx
  exact hu i x hi (by simp) a ha

theorem Does.mono {c : Ctx} {gs : List (List Cond)} {ks : Nat → Prop} {k : Prog σ μ PState} {Q Q' : Sys σ μ → Prop} {s : Sys σ μ} {r : Res PState} {s' : Sys σ μ} (h : Does n m c gs ks k Q s r s')
    (hq : ∀ s1, Q s1 → Q' s1) : Does n m c gs ks k Q' s r s' := h.imp id fun ⟨s1, h1, h2, h3⟩ => ⟨s1, h1, h2, hq s1 h3⟩

/-- Both positions are new. -/
theorem does_both {c : Ctx} {g : List Cond} {ni p q : Nat} {k : Prog σ μ PState} {s : Sys σ μ} (h : Runnable n m s) {r : Res PState} {s' : Sys σ μ}
    (hpq : p ≠ q) (hp : ∃ x, g[p]? = some x ∧ ¬ Entailed s.doms (.cond x)) (hq : ∃ x, g[q]? = some x ∧ ¬ Entailed s.doms (.cond x))
    (e : runProg c (watchAt g p ni (watchAt g q ni (.setWatchState ni (pack p q) k))) s = .ok (r, s')) : Does n m c [g] (· = ni) k (fun s1 => Good s1 c.owner ni g) s r s' := by
  obtain ⟨x, hx, e⟩ := run_watchAt e
  obtain ⟨y, hy, e⟩ := run_watchAt e
  obtain ⟨x', hx', nx⟩ := hp
  obtain ⟨y', hy', ny⟩ := hq
  rw [hx] at hx'; cases hx'
  rw [hy] at hy'; cases hy'
  have w1 := went_register (c := c) (ok := fun a => ∀ g' ∈ [g], ¬ Forbids g' a) (ks := (· = ni)) h (.cond x) ni
  have w2 := went_register (c := c) (ok := fun a => ∀ g' ∈ [g], ¬ Forbids g' a) (ks := (· = ni)) w1.run (.cond y) ni
  have w3 := went_stateSet (me := c.owner) (ok := fun a => ∀ g' ∈ [g], ¬ Forbids g' a) w2.run ni (pack p q)
  have w23 := w2.trans w3 (fun _ h => h) (fun _ h => h) (fun _ h => h) (fun _ h => h)
  refine .inr ⟨_, e, w1.trans w23 (fun _ h => h) (fun _ h => h) (fun _ h => h) (fun _ h => h), ?_⟩
  rcases watched_register s.w c.owner ni nx with h1 | h1
  · rcases watched_register (s.w.register c.owner (.cond x) ni true) c.owner ni ny with h2 | h2
    · exact .inr ⟨p, q, x, y, hpq, hx, hy, by rw [stateGet_set, if_pos ⟨rfl, rfl⟩], w23.watched h1, w3.watched h2⟩
    · exact .inl ⟨y, List.mem_of_getElem? hy, h2⟩
  · exact .inl ⟨x, List.mem_of_getElem? hx, h1⟩

/-- One position is new. `a` is it, `b` the one that stays. -/
theorem does_one {c : Ctx} {g : List Cond} {ni a b p q : Nat} {k : Prog σ μ PState} {s : Sys σ μ} (h : Runnable n m s) {r : Res PState} {s' : Sys σ μ} {x y : Cond}
    (hpq : (p = a ∧ q = b) ∨ (p = b ∧ q = a)) (hab : a ≠ b) (hx : g[a]? = some x) (nx : ¬ Entailed s.doms (.cond x)) (hy : g[b]? = some y)
    (e : runProg c (watchAt g a ni (.setWatchState ni (pack p q) k)) s = .ok (r, s')) :
    Does n m c [g] (· = ni) k (fun s1 => (∃ z ∈ g, Refuted s.doms z) ∨ Watched s.w c.owner ni y → Good s1 c.owner ni g) s r s' := by
  obtain ⟨x', hx', e⟩ := run_watchAt e
  rw [hx] at hx'; cases hx'
  have w1 := went_register (c := c) (ok := fun a => ∀ g' ∈ [g], ¬ Forbids g' a) (ks := (· = ni)) h (.cond x) ni
  have w2 := went_stateSet (me := c.owner) (ok := fun a => ∀ g' ∈ [g], ¬ Forbids g' a) w1.run ni (pack p q)
  refine .inr ⟨_, e, w1.trans w2 (fun _ h => h) (fun _ h => h) (fun _ h => h) (fun _ h => h), fun hw => ?_⟩
  rcases hw with ⟨z, hz, hr⟩ | hw
  · exact .inl ⟨z, hz, hr⟩
  rcases watched_register s.w c.owner ni nx with h1 | h1
  · have hst : (((s.w.register c.owner (.cond x) ni true).stateSet c.owner ni (pack p q)).stateGet c.owner ni) = pack p q := by rw [stateGet_set, if_pos ⟨rfl, rfl⟩]
    rcases hpq with ⟨rfl, rfl⟩ | ⟨rfl, rfl⟩
    · exact .inr ⟨_, _, x, y, hab, hx, hy, hst, w2.watched h1, w2.watched (w1.watched hw)⟩
    · exact .inr ⟨_, _, y, x, hab.symm, hy, hx, hst, w2.watched (w1.watched hw), w2.watched h1⟩
  · exact .inl ⟨x, List.mem_of_getElem? hx, h1⟩

theorem setUpOne_does {c : Ctx} {g : List Cond} (hg : Proper n g) {ni : Nat} {k : Prog σ μ PState} {s : Sys σ μ} (h : Runnable n m s) {r : Res PState} {s' : Sys σ μ}
    (e : runProg c (setUpOne g ni k) s = .ok (r, s')) : Does n m c [g] (· = ni) k (fun s1 => Good s1 c.owner ni g) s r s' := by
  unfold setUpOne at e
  obtain ⟨p, h1, e⟩ := run_ask e
  obtain ⟨a1, a2⟩ := unbroken_spec h.domsOK h.domsLen none g 0 p hg h1
  cases p with
  | none => exact does_fail (a1 rfl) e
  | some p =>
    obtain ⟨i, x, ei, hx, _, hn⟩ := a2 p rfl
    obtain ⟨q, h2, e⟩ := run_ask e
    obtain ⟨b1, b2⟩ := unbroken_spec h.domsOK h.domsLen (some p) g 0 q hg h2
    have epi : p = i := by omega
    subst epi
    cases q with
    | none =>
      rcases does_unit (ni := ni) hg h (b1 rfl) e with h3 | ⟨s1, h3, h4, z, hz, hr⟩
      · exact .inl h3
      · obtain ⟨x', hx', e⟩ := run_watchAt h3
        have w1 := went_register (c := c) (ok := fun a => ∀ g' ∈ [g], ¬ Forbids g' a) (ks := (· = ni)) h4.run (.cond x') ni
        have w2 := went_stateSet (me := c.owner) (ok := fun a => ∀ g' ∈ [g], ¬ Forbids g' a) w1.run ni (pack p p)
        have w12 := w1.trans w2 (fun _ h => h) (fun _ h => h) (fun _ h => h) (fun _ h => h)
        exact .inr ⟨_, e, h4.trans w12 (fun _ h => h) (fun _ h => h) (fun _ h => h) (fun _ h => h), .inl ⟨z, hz, hr⟩⟩
    | some q =>
      obtain ⟨j, y, ej, hy, hne, ny⟩ := b2 q rfl
      have eqj : q = j := by omega
      subst eqj
      exact does_both h (fun hh => hne (by rw [hh])) ⟨x, hx, hn⟩ ⟨y, hy, ny⟩ e

theorem pack_unpack {p q : Nat} (hq : q < 2 ^ 32) : pack p q / 2 ^ 32 = p ∧ pack p q % 2 ^ 32 = q := by
  unfold pack; omega

theorem visit_does {c : Ctx} {g : List Cond} (hg : Proper n g) (hgl : g.length < 2 ^ 32) {ni : Nat} {k : Prog σ μ PState} {s : Sys σ μ} (h : Runnable n m s) {r : Res PState} {s' : Sys σ μ}
    (e : runProg c (visit g ni (s.w.stateGet c.owner ni / 2 ^ 32) (s.w.stateGet c.owner ni % 2 ^ 32) k) s = .ok (r, s')) :
    Does n m c [g] (· = ni) k (fun s1 => ClauseOK s c.owner ni g → Good s1 c.owner ni g) s r s' := by
  generalize hp : s.w.stateGet c.owner ni / 2 ^ 32 = p at e
  generalize hq : s.w.stateGet c.owner ni % 2 ^ 32 = q at e
  unfold visit at e
  obtain ⟨b1, hb1, e⟩ := run_ask e
  obtain ⟨x1, hx1, hi1⟩ := broken_spec h.domsOK h.domsLen hg hb1
  obtain ⟨b2, hb2, e⟩ := run_ask e
  obtain ⟨x2, hx2, hi2⟩ := broken_spec h.domsOK h.domsLen hg hb2
  -- what is known of the two positions
  have known : ClauseOK s c.owner ni g → (∃ z ∈ g, Refuted s.doms z) ∨ p ≠ q ∧ Half s c.owner ni x1 ∧ Half s c.owner ni x2 := by
    rintro (hz | ⟨p0, q0, x, y, h1, h2, h3, h4, h5, h6⟩)
    · exact .inl hz
    · have hq0 : q0 < 2 ^ 32 := Nat.lt_trans (List.getElem?_eq_some_iff.1 h3).1 hgl
      rw [h4, (pack_unpack hq0).1] at hp
      rw [h4, (pack_unpack hq0).2] at hq
      subst hp; subst hq
      rw [hx1] at h2; cases h2
      rw [hx2] at h3; cases h3
      exact .inr ⟨h1, h5, h6⟩
  cases b1 with
  | true =>
    cases b2 with
    | true =>
      simp only [if_true] at e
      obtain ⟨p', h1, e⟩ := run_ask e
      obtain ⟨a1, a2⟩ := unbroken_spec h.domsOK h.domsLen none g 0 p' hg h1
      cases p' with
      | none => exact does_fail (a1 rfl) e
      | some p' =>
        obtain ⟨i, x, ei, hx, _, hn⟩ := a2 p' rfl
        obtain ⟨q', h2, e⟩ := run_ask e
        obtain ⟨b1, b2⟩ := unbroken_spec h.domsOK h.domsLen (some p') g 0 q' hg h2
        have epi : p' = i := by omega
        subst epi
        cases q' with
        | none => exact (does_unit hg h (b1 rfl) e).mono fun s1 h1 _ => .inl h1
        | some q' =>
          obtain ⟨j, y, ej, hy, hne, ny⟩ := b2 q' rfl
          have eqj : q' = j := by omega
          subst eqj
          exact (does_both h (fun hh => hne (by rw [hh])) ⟨x, hx, hn⟩ ⟨y, hy, ny⟩ e).mono fun s1 h1 _ => h1
    | false =>
      have hn2 : ¬ Entailed s.doms (.cond x2) := fun he => by simpa using hi2.2 he
      simp only [if_true, Bool.false_eq_true, if_false] at e
      obtain ⟨p', h1, e⟩ := run_ask e
      obtain ⟨a1, a2⟩ := unbroken_spec h.domsOK h.domsLen (some q) g 0 p' hg h1
      cases p' with
      | none => exact (does_unit hg h (a1 rfl) e).mono fun s1 h1 _ => .inl h1
      | some p' =>
        obtain ⟨i, x, ei, hx, hne, hn⟩ := a2 p' rfl
        have epi : p' = i := by omega
        subst epi
        refine (does_one h (.inl ⟨rfl, rfl⟩) (fun hh => hne (by rw [hh])) hx hn hx2 e).mono fun s1 h1 hc => h1 ?_
        exact (known hc).imp id fun h => h.2.2.resolve_right fun h => hn2 h.1
  | false =>
    have hn1 : ¬ Entailed s.doms (.cond x1) := fun he => by simpa using hi1.2 he
    cases b2 with
    | true =>
      simp only [if_true, Bool.false_eq_true, if_false] at e
      obtain ⟨q', h1, e⟩ := run_ask e
      obtain ⟨a1, a2⟩ := unbroken_spec h.domsOK h.domsLen (some p) g 0 q' hg h1
      cases q' with
      | none => exact (does_unit hg h (a1 rfl) e).mono fun s1 h1 _ => .inl h1
      | some q' =>
        obtain ⟨i, x, ei, hx, hne, hn⟩ := a2 q' rfl
        have epi : q' = i := by omega
        subst epi
        refine (does_one h (.inr ⟨rfl, rfl⟩) (fun hh => hne (by rw [hh])) hx hn hx1 e).mono fun s1 h1 hc => h1 ?_
        exact (known hc).imp id fun h => h.2.1.resolve_right fun h => hn1 h.1
    | false =>
      have hn2 : ¬ Entailed s.doms (.cond x2) := fun he => by simpa using hi2.2 he
      simp only [Bool.false_eq_true, if_false] at e
      refine .inr ⟨s, e, .refl h, fun hc => ?_⟩
      rcases hc with hz | ⟨p0, q0, x, y, h1, h2, h3, h4, h5, h6⟩
      · exact .inl hz
      · have hq0 : q0 < 2 ^ 32 := Nat.lt_trans (List.getElem?_eq_some_iff.1 h3).1 hgl
        rw [h4, (pack_unpack hq0).1] at hp
        rw [h4, (pack_unpack hq0).2] at hq
        subst hp; subst hq
        rw [hx1] at h2; cases h2
        rw [hx2] at h3; cases h3
        exact .inr ⟨_, _, _, _, h1, hx1, hx2, h4, h5.resolve_right fun h => hn1 h.1, h6.resolve_right fun h => hn2 h.1⟩

/-- The watches of all nogoods from number `ni`. -/
theorem setUpAll_does {c : Ctx} {k : Prog σ μ PState} {r : Res PState} {s' : Sys σ μ} : ∀ (gs : List (List Cond)) (ni : Nat) {s : Sys σ μ}, (∀ g ∈ gs, Proper n g) → Runnable n m s →
    runProg c (setUpAll k ni gs) s = .ok (r, s') → Does n m c gs (ni ≤ ·) k (fun s1 => ∀ (i : Nat) g, gs[i]? = some g → Good s1 c.owner (ni + i) g) s r s'
  | [], ni, s, _, h, e => .inr ⟨s, e, .refl h, by simp⟩
  | g :: gs, ni, s, hg, h, e => by
    rcases setUpOne_does (hg g (by simp)) h e with ⟨h1, h2, h3⟩ | ⟨s1, h1, h2, h3⟩
    · exact .inl ⟨h1, fun a ha => (h2 a ha).imp fun x hx => ⟨by simp [List.mem_singleton.1 hx.1], hx.2⟩, h3⟩
    · rcases setUpAll_does gs (ni + 1) (fun x hx => hg x (by simp [hx])) h2.run h1 with ⟨k1, k2, k3⟩ | ⟨s2, k1, k2, k3⟩
      · refine .inl ⟨k1, fun a ha => ?_, k3.trans h2.mem⟩
        by_cases hf : Forbids g a
        · exact ⟨g, by simp, hf⟩
        · obtain ⟨x, hx, hfx⟩ := k2 a (h2.keep a ha fun x hx => by rw [List.mem_singleton.1 hx]; exact hf)
          exact ⟨x, by simp [hx], hfx⟩
      · refine .inr ⟨s2, k1, h2.trans k2 (fun a ha x hx => ha x (by simp [List.mem_singleton.1 hx])) (fun a ha x hx => ha x (by simp [hx])) (fun i hi => by omega) (fun i hi => by omega), ?_⟩
        intro i x hx
        cases i with
        | zero =>
          simp at hx; subst hx
          exact (k2.others (by omega)).1 h3
        | succ i =>
          have := k3 i x (by simpa using hx)
          rw [Nat.add_assoc, Nat.add_comm 1 i] at this
          exact this

theorem visitAll_does {c : Ctx} {store : List (List Cond)} (hst : ∀ g ∈ store, g.length < 2 ^ 32 ∧ Proper n g) {r : Res PState} {s' : Sys σ μ} : ∀ (nis : List Nat) {s : Sys σ μ}, nis.Nodup → Runnable n m s →
    runProg c (visitAll c.owner store nis) s = .ok (r, s') →
    Does n m c store (· ∈ nis) (.ret .enable) (fun s1 => ∀ ni ∈ nis, ∀ g, store[ni]? = some g → ClauseOK s c.owner ni g → Good s1 c.owner ni g) s r s'
  | [], s, _, h, e => .inr ⟨s, e, .refl h, by simp⟩
  | ni :: nis, s, hnd, h, e => by
    have hnd := List.nodup_cons.1 hnd
    unfold visitAll at e
    cases hg : store[ni]? with
    | none => rw [hg] at e; cases e
    | some g =>
      rw [hg] at e
      have hm := List.mem_of_getElem? hg
      rcases visit_does (hst g hm).2 (hst g hm).1 h e with ⟨h1, h2, h3⟩ | ⟨s1, h1, h2, h3⟩
      · exact .inl ⟨h1, fun a ha => (h2 a ha).imp fun x hx => ⟨by rw [List.mem_singleton.1 hx.1]; exact hm, hx.2⟩, h3⟩
      · have hsub : ∀ a, (∀ g ∈ store, ¬ Forbids g a) → ∀ g' ∈ [g], ¬ Forbids g' a := fun a ha x hx => ha x (by rw [List.mem_singleton.1 hx]; exact hm)
        rcases visitAll_does hst nis hnd.2 h2.run h1 with ⟨k1, k2, k3⟩ | ⟨s2, k1, k2, k3⟩
        · refine .inl ⟨k1, fun a ha => Classical.byContradiction fun hn => ?_, k3.trans h2.mem⟩
          exact hn (k2 a (h2.keep a ha (hsub a fun g hg hf => hn ⟨g, hg, hf⟩)))
        · refine .inr ⟨s2, k1, h2.trans k2 hsub (fun _ h => h) (fun i hi => by simp [hi]) (fun i hi => by simp [hi]), ?_⟩
          intro nj hj x hx hc
          rcases List.mem_cons.1 hj with hj | hj
          · subst hj
            rw [hg] at hx; cases hx
            exact (k2.others hnd.1).1 (h3 hc)
          · have hne : ¬ nj = ni := fun h => hnd.1 (h ▸ hj)
            exact k3 nj hj x hx ((h2.others hne).2 hc)

theorem insertFired_spec : ∀ (x : Nat) (l : List Nat), l.Pairwise (· < ·) → (insertFired x l).Pairwise (· < ·) ∧ ∀ y, y ∈ insertFired x l ↔ y = x ∨ y ∈ l
  | x, [], _ => by simp [insertFired]
  | x, y :: ys, h => by
    have h := List.pairwise_cons.1 h
    obtain ⟨i1, i2⟩ := insertFired_spec x ys h.2
    unfold insertFired
    split
    · refine ⟨List.pairwise_cons.2 ⟨fun z hz => ?_, List.pairwise_cons.2 h⟩, by simp⟩
      rcases List.mem_cons.1 hz with rfl | hz
      · assumption
      · have := h.1 z hz; omega
    · split
      · rename_i hxy; subst hxy
        exact ⟨List.pairwise_cons.2 h, by simp⟩
      · refine ⟨List.pairwise_cons.2 ⟨fun z hz => ?_, i1⟩, fun z => ?_⟩
        · rcases (i2 z).1 hz with rfl | hz
          · omega
          · exact h.1 z hz
        · simp only [List.mem_cons, i2]
          constructor
          · rintro (h | h | h) <;> simp [h]
          · rintro (h | h | h) <;> simp [h]

/-- `sort` and `unique` give an increasing list of the same payloads. -/
theorem firedClauses_spec (l : List Nat) : (firedClauses l).Pairwise (· < ·) ∧ ∀ y, y ∈ firedClauses l ↔ y ∈ l := by
  unfold firedClauses
  induction l with
  | nil => simp
  | cons x xs ih =>
    obtain ⟨h1, h2⟩ := insertFired_spec x _ ih.1
    exact ⟨h1, fun y => by rw [List.foldr_cons, h2, ih.2]; simp⟩

/-- One run of the propagator with refined watches. It fails and everything within the domains is forbidden; or it ends and says it wants to be run again, without losing anything that is not forbidden,
changing only what is its own. -/
structure RefinedRan (n m me : Nat) (cell : Cell μ NogoodMem) (s s' : Sys σ μ) : Prop where
  run : Runnable n m s'
  keep : ∀ a, Within s.doms a → (∀ g ∈ (cell.get s.mem).store, ¬ Forbids g a) → Within s'.doms a
  evolve : ∃ cs, Evolve s.doms cs s'.doms
  store : (cell.get s'.mem).store = (cell.get s.mem).store
  setUp : (cell.get s'.mem).setUp = if box s.w me = [] then (cell.get s.mem).store.length else (cell.get s.mem).setUp
  inbox : s'.w.inbox = s.w.inbox
  good : (∀ ni g, ni < (cell.get s.mem).setUp → (cell.get s.mem).store[ni]? = some g → ClauseOK s me ni g) →
    ∀ ni g, ni < (cell.get s'.mem).setUp → (cell.get s'.mem).store[ni]? = some g → Good s' me ni g

theorem refined_run {cell : Cell μ NogoodMem} {c : Ctx} {s : Sys σ μ} (h : Runnable n m s) {r : Res PState} {s' : Sys σ μ} (e : runProg c (refined cell c.owner) s = .ok (r, s')) :
    (r = .failed ∧ (∀ a, Within s.doms a → ∃ g ∈ (cell.get s.mem).store, Forbids g a) ∧ s'.mem = s.mem) ∨ (r = .val .enable ∧ RefinedRan n m c.owner cell s s') := by
  have e' : runProg c (if fits s.doms.length (cell.get s.mem).store = true then
      if box s.w c.owner = [] then
        setUpAll (.read fun t => .setMem (cell.set { cell.get t.mem with setUp := (cell.get s.mem).store.length } t.mem) (.ret .enable)) (cell.get s.mem).setUp ((cell.get s.mem).store.drop (cell.get s.mem).setUp)
      else visitAll c.owner (cell.get s.mem).store (firedClauses (box s.w c.owner))
    else .raise .ub) s = .ok (r, s') := e
  split at e'
  · rename_i hfit
    rw [h.domsLen, fits_iff] at hfit
    split at e'
    · rename_i hbox
      rcases setUpAll_does _ _ (fun g hg => (hfit.2 g (List.mem_of_mem_drop hg)).2) h e' with ⟨h1, h2, h3⟩ | ⟨s1, h1, h2, h3⟩
      · exact .inl ⟨h1, fun a ha => (h2 a ha).imp fun g hg => ⟨List.mem_of_mem_drop hg.1, hg.2⟩, h3⟩
      · have h1' : runProg c (.setMem (cell.set { cell.get s1.mem with setUp := (cell.get s.mem).store.length } s1.mem) (.ret .enable)) s1 = .ok (r, s') := h1
        cases h1'
        refine .inr ⟨rfl, h2.run.setMem _, fun a ha hn => h2.keep a ha fun g hg => hn g (List.mem_of_mem_drop hg), h2.evolve, ?_, ?_, h2.inbox, ?_⟩
        · show (cell.get (cell.set _ _)).store = _
          rw [cell.get_set, h2.mem]
        · show (cell.get (cell.set _ _)).setUp = _
          rw [cell.get_set, if_pos hbox]
        · intro hok ni g hni hg
          have hg' : (cell.get s.mem).store[ni]? = some g := by
            have : (cell.get (cell.set { cell.get s1.mem with setUp := (cell.get s.mem).store.length } s1.mem)).store[ni]? = some g := hg
            rw [cell.get_set] at this
            rw [← h2.mem]; exact this
          show Good s1 c.owner ni g
          by_cases hlt : ni < (cell.get s.mem).setUp
          · exact (h2.others (by omega)).1 ((hok ni g hlt hg').good (by rw [hbox]; simp))
          · have := h3 (ni - (cell.get s.mem).setUp) g (by rw [List.getElem?_drop, show (cell.get s.mem).setUp + (ni - (cell.get s.mem).setUp) = ni by omega]; exact hg')
            rwa [show (cell.get s.mem).setUp + (ni - (cell.get s.mem).setUp) = ni by omega] at this
    · rename_i hbox
      obtain ⟨f1, f2⟩ := firedClauses_spec (box s.w c.owner)
      have hnd : (firedClauses (box s.w c.owner)).Nodup := f1.imp fun h => Nat.ne_of_lt h
      rcases visitAll_does hfit.2 _ hnd h e' with ⟨h1, h2, h3⟩ | ⟨s1, h1, h2, h3⟩
      · exact .inl ⟨h1, h2, h3⟩
      · cases h1
        refine .inr ⟨rfl, h2.run, h2.keep, h2.evolve, by rw [h2.mem], by rw [h2.mem, if_neg hbox], h2.inbox, ?_⟩
        intro hok ni g hni hg
        rw [h2.mem] at hni hg
        by_cases hm : ni ∈ firedClauses (box s.w c.owner)
        · exact h3 ni hm g hg (hok ni g hni hg)
        · exact (h2.others hm).1 ((hok ni g hni hg).good fun h => hm ((f2 ni).2 h))
  · cases e'

end
end Nogoods
end Gcs
