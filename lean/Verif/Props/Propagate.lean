import Verif.Lemmas.Fix
import Verif.Lemmas.Install

/-!
# Propagation: termination, soundness, fixed point, waking (C18, C20, C21, C22)

All statements are about `Sys.propagate`, the model of `Propagators::propagate`, for arbitrary propagation functions (`Prog`), trigger tables, domains,
guesses and abort schedules. `Engine.WF` holds for every engine made by `install` (`Built.wf`); `CallOK` is shown for concrete calls in
`Props/EngineDemo.lean` and kept by searching in `Lemmas/Session.lean`.
-/

namespace Gcs
open IntervalSet Queue

section
variable {σ μ : Type} {n m : Nat} {R : Err → Prop}

/-! ## C22: termination -/

/-- More fuel makes no difference once the loop ends. -/
theorem loop_more {E : Engine σ μ} {abort : Nat → Bool} : ∀ (fuel : Nat) (s : Sys σ μ), (∀ s', Sys.loop E abort fuel s ≠ .ok (none, s')) →
    ∀ k, Sys.loop E abort (fuel + k) s = Sys.loop E abort fuel s
  | 0, s, h, _ => absurd rfl (h s)
  | fuel + 1, s, h, k => by
    have e : fuel + 1 + k = (fuel + k) + 1 := by omega
    rw [e]
    unfold Sys.loop at h ⊢
    cases h1 : (if s.q.begin_ = s.q.end_ then Sys.endRound E s else .ok s) with
    | error e => rfl
    | ok s1 =>
      rw [h1] at h
      simp only [bind, Except.bind] at h ⊢
      by_cases hb : s1.q.begin_ = s1.q.end_
      · simp [hb]
      · simp only [hb, if_false] at h ⊢
        cases h2 : Sys.runOne E s1 with
        | error e => rfl
        | ok x =>
          rw [h2] at h
          obtain ⟨t, s2⟩ := x
          cases t with
          | contradiction => rfl
          | skipped => exact loop_more fuel s2 h k
          | fine =>
            simp only at h ⊢
            by_cases ha : abort s2.clock = true
            · simp [ha]
            · simp only [ha] at h ⊢
              exact loop_more fuel _ h k

/-- The loop in `propagate` ends on its own: giving it any number of extra turns beyond the bound changes nothing. -/
theorem propagate_loop_ends {E : Engine σ μ} (hE : E.WF n m R) (abort : Nat → Bool) {gs : List Lit} {s : Sys σ μ} (h : CallOK n m E gs s) {s1 : Sys σ μ}
    (hp : Sys.prepare E gs s = .ok s1) (k : Nat) :
    (∀ s', Sys.loop E abort (Sys.turns E s1) s1 ≠ .ok (none, s')) ∧ Sys.loop E abort (Sys.turns E s1 + k) s1 = Sys.loop E abort (Sys.turns E s1) s1 := by
  rcases prepare_ok hE h with e | ⟨s2, e, h2⟩
  · rw [hp] at e; cases e
  · rw [hp] at e; cases e
    have := loop_fuel hE abort (Sys.turns E s1) s1 h2.ok (Sys.turns_potential h2)
    exact ⟨this, loop_more _ _ this k⟩

theorem potential_init {E : Engine σ μ} {gs : List Lit} {s s1 : Sys σ μ} (h : PrepSpec n m E gs s s1) :
    potential E.progs.length s1 ≤ E.progs.length + (E.progs.length + 1) * s.doms.card := by
  have h1 := (ready_length h.ok.ok.inv).2
  have hi : s1.tr.inferences = [] := by rw [h.eq]; rfl
  unfold potential
  rw [hi, h.doms]
  simp only [List.length_nil, Nat.add_zero]; omega

/-- `propagate` returns, or throws an overflow or something a propagation function throws: no undefined behaviour, no endless loop. It runs at most
`np + (np + 1) * c` propagation functions, where `c` is the number of values in all domains together. -/
theorem propagate_terminates {E : Engine σ μ} (hE : E.WF n m R) (abort : Nat → Bool) {gs : List Lit} {s : Sys σ μ} (h : CallOK n m E gs s) :
    (∃ e, Sys.propagate E gs abort s = .error e ∧ (e = .overflow ∨ R e)) ∨
    ∃ b s', Sys.propagate E gs abort s = .ok (b, s') ∧ s'.total ≤ s.total + E.progs.length + (E.progs.length + 1) * s.doms.card := by
  have ind := propagate_ind hE abort h (fun x => x.total + potential E.progs.length x ≤ s.total + (E.progs.length + (E.progs.length + 1) * s.doms.card)) ?_ ?_ ?_ ?_
  rotate_left
  · intro s1 h1
    have := potential_init h1
    have ht : s1.total = s.total := by rw [h1.eq]
    omega
  · intro s1 s2 h1 hi hb h2
    have ht : s2.total = s1.total := by rw [h2.eq]
    by_cases hne : s2.q.begin_ = s2.q.end_
    · have hr : (Ready s2.q).length = 0 := by unfold Ready; rw [hne]; simp
      have hd : s2.doms = s1.doms := by rw [h2.eq]; rfl
      have hin : s2.tr.inferences = [] := by rw [h2.eq]
      have : potential E.progs.length s2 ≤ potential E.progs.length s1 := by
        unfold potential
        rw [hr, hd, hin]
        have := Nat.mul_le_mul_left (E.progs.length + 1) (show s1.doms.card + 0 ≤ s1.doms.card + s1.tr.inferences.length by omega)
        simp only [List.length_nil]; omega
      omega
    · have := h2.potential hne; omega
  · intro s1 t s2 h1 hi hne h2 ht
    have hp := h2.potential ht
    cases h2 with
    | contradiction => exact absurd rfl ht
    | skipped p q' hp' hd => simp only at hp ⊢; omega
    | fine p q' f sc ig ps sr cs hp' hd hf hsc hig hrun hfr hran =>
      have : sr.total = s1.total + 1 := hfr.total
      have h3 : (sr.settled ig p ps).total = sr.total := rfl
      omega
  · intro s1 k _ hi; exact hi
  rcases ind with ht | ⟨b, s2, e, hend⟩
  · exact .inl ht
  · refine .inr ⟨b, _, e, ?_⟩
    show s2.total ≤ _
    generalize (some (!b) : Option Bool) = ob at hend
    cases hend with
    | fuel _ hi => omega
    | contradiction s1 s2 h1 hi hne ht =>
      have hpot : 1 ≤ potential E.progs.length s1 := by
        have := ready_length h1.ok.inv
        have := h1.ok.inv.be
        unfold potential; omega
      cases ht with
      | contradiction p q' f sc r sr w hp hd hf hsc hrun hfr hfail hw =>
        have : sr.total = s1.total + 1 := hfr.total
        show sr.total ≤ _
        omega
    | drained s1 s2 h1 hi h2 hi2 hb => omega
    | aborted s1 i h1 hi ha _ => omega

/-! ## C20: no solution is lost -/

/-- If every enabled propagation function keeps the assignment `a`, which is within the domains, then `propagate` does not report a contradiction, and `a` is
still within the domains afterwards. -/
theorem propagate_keeps {E : Engine σ μ} (hE : E.WF n m R) (abort : Nat → Bool) {gs : List Lit} {s : Sys σ μ} (h : CallOK n m E gs s) {K : Sys σ μ → Prop} {a : Asg}
    (hC : CoreStable K) (hs : ∀ (p : Nat) f sc, E.progs[p]? = some f → E.scope[p]? = some sc → E.permDisabled[p]? = some false → Keeps n m K a ⟨p, sc⟩ f)
    (hK : K s) (ha : Within s.doms a) {b : Bool} {s' : Sys σ μ} (hr : Sys.propagate E gs abort s = .ok (b, s')) : b = true ∧ Within s'.doms a ∧ K s' := by
  have hrun : ∀ (s1 : Sys σ μ) p q' f sc r sr, LoopOK n m E.progs.length s1 → Within s1.doms a ∧ K s1 → E.progs[p]? = some f → E.scope[p]? = some sc →
      E.permDisabled[p]? = some false → runProg ⟨p, sc⟩ f (s1.started p q') = .ok (r, sr) → ¬ Failed r sr ∧ Within sr.doms a ∧ K sr := by
    intro s1 p q' f sc r sr h1 hi hf hsc hd hrun
    exact hs p f sc hf hsc hd (s1.started p q') r sr ⟨h1.ok.run.1, h1.ok.run.2, h1.ok.run.3, h1.ok.run.4, h1.ok.run.5⟩ (hC s1 _ rfl rfl rfl rfl hi.2) hi.1 hrun
  have ind := propagate_ind hE abort h (fun x => Within x.doms a ∧ K x) ?_ ?_ ?_ ?_
  rotate_left
  · intro s1 h1; exact ⟨h1.doms ▸ ha, h1.core hC hK⟩
  · intro s1 s2 h1 hi hb h2
    have hd : s2.doms = s1.doms := by rw [h2.eq]; rfl
    exact ⟨hd ▸ hi.1, h2.core hC hi.2⟩
  · intro s1 t s2 h1 hi hne h2 ht
    cases h2 with
    | contradiction => exact absurd rfl ht
    | skipped p q' hp hd => exact ⟨hi.1, hC s1 _ rfl rfl rfl rfl hi.2⟩
    | fine p q' f sc ig ps sr cs hp hd hf hsc hig hrun' hfr hran =>
      have := hrun s1 p q' f sc _ sr h1 hi hf hsc hd hrun'
      exact ⟨this.2.1, hC sr _ rfl rfl rfl rfl this.2.2⟩
  · intro s1 k _ hi; exact ⟨hi.1, hC s1 _ rfl rfl rfl rfl hi.2⟩
  rcases ind with ⟨e, he, _⟩ | ⟨b, s2, e, hend⟩
  · rw [he] at hr; cases hr
  · rw [e] at hr; cases hr
    generalize hbb : (some (!b) : Option Bool) = ob at hend
    have key : ob = some false ∧ Within s2.doms a ∧ K s2 := by
      cases hend with
      | fuel => cases hbb
      | contradiction s1 s2 h1 hi hne ht =>
        cases ht with
        | contradiction p q' f sc r sr w hp hd hf hsc hrun' hfr hfail hw => exact absurd hfail (hrun s1 p q' f sc r sr h1 hi hf hsc hd hrun').1
      | drained s1 s2 h1 hi h2 hi2 hb => exact ⟨rfl, hi2⟩
      | aborted s1 i h1 hi ha _ => exact ⟨rfl, hi⟩
    refine ⟨?_, key.2.1, hC s2 _ rfl rfl rfl rfl key.2.2⟩
    have h1 := key.1
    rw [← hbb] at h1
    simpa using h1

/-- Domains only shrink in a call that returns true: whatever is within them afterwards was before. -/
theorem propagate_shrinks {E : Engine σ μ} (hE : E.WF n m R) (abort : Nat → Bool) {gs : List Lit} {s : Sys σ μ} (h : CallOK n m E gs s) {s' : Sys σ μ}
    (hr : Sys.propagate E gs abort s = .ok (true, s')) : DomsOK s'.doms ∧ s'.doms.length = n ∧ ∀ a, Within s'.doms a → Within s.doms a := by
  have ind := propagate_ind hE abort h (fun x => ∃ cs, Evolve s.doms cs x.doms) ?_ ?_ ?_ ?_
  rotate_left
  · intro s1 h1; exact ⟨[], by rw [h1.doms]; exact .refl _ h.domsOK⟩
  · intro s1 s2 h1 hi hb h2
    have hd : s2.doms = s1.doms := by rw [h2.eq]; rfl
    rw [hd]; exact hi
  · intro s1 t s2 h1 hi hne h2 ht
    cases h2 with
    | contradiction => exact absurd rfl ht
    | skipped p q' hp hd => exact hi
    | fine p q' f sc ig ps sr cs hp hd hf hsc hig hrun' hfr hran =>
      obtain ⟨ds, h3⟩ := hi
      exact ⟨ds ++ cs, h3.trans hran.evolve⟩
  · intro s1 k _ hi; exact hi
  rcases ind with ⟨e, he, _⟩ | ⟨b, s2, e, hend⟩
  · rw [he] at hr; cases hr
  · rw [e] at hr; cases hr
    have hd : (Sys.flushed s2).doms = s2.doms := rfl
    rw [hd]
    cases hend with
    | drained s1 s2 h1 hi h2 hi2 hb => obtain ⟨cs, h3⟩ := hi2; exact ⟨h3.ok, by rw [h3.length]; exact h.domsLen, fun a ha => h3.within ha⟩
    | aborted s1 i h1 hi ha _ => obtain ⟨cs, h3⟩ := hi; exact ⟨h3.ok, by rw [h3.length]; exact h.domsLen, fun a ha => h3.within ha⟩

/-- C20. `Sol` is any set of assignments such that the propagation functions only infer what holds in all of it. After `propagate` has returned true, the
solutions within the domains are exactly those there were before; when it returns false, there were none. -/
theorem propagate_loses_nothing {E : Engine σ μ} (hE : E.WF n m R) (abort : Nat → Bool) {gs : List Lit} {s : Sys σ μ} (h : CallOK n m E gs s) (Sol : Asg → Prop)
    (hs : ∀ (p : Nat) f, E.progs[p]? = some f → E.permDisabled[p]? = some false → ∀ a, Sol a → f.Truthful n a) {b : Bool} {s' : Sys σ μ}
    (hr : Sys.propagate E gs abort s = .ok (b, s')) :
    if b then ∀ a, Sol a → (Within s'.doms a ↔ Within s.doms a) else ∀ a, Sol a → ¬ Within s.doms a := by
  have key : ∀ a, Sol a → Within s.doms a → b = true ∧ Within s'.doms a := by
    intro a ha hw
    have := propagate_keeps hE abort h (K := fun _ => True) (a := a) (fun _ _ _ _ _ _ _ => trivial)
      (fun p f sc hf hsc hd => sound_keeps (R := R) (np := E.progs.length) (c := ⟨p, sc⟩) (List.getElem?_eq_some_iff.1 hf).1 (hE.progs f (List.mem_of_getElem? hf)) (hs p f hf hd a ha))
      trivial hw hr
    exact ⟨this.1, this.2.1⟩
  cases b with
  | false => intro a ha hw; exact nomatch (key a ha hw).1
  | true => exact fun a ha => ⟨(propagate_shrinks hE abort h hr).2.2 a, fun hw => (key a ha hw).2⟩

/-! ## C21: fixed point -/

/-- Since the last change `p` subscribes to, it has started a run, or finished a run in which it claimed to be idempotent and the claim is honoured. -/
def UpToDate (E : Engine σ μ) (t : List Ev) (p : Nat) : Prop :=
  ∀ pre v inf post, t = pre ++ .change v inf :: post → Sub E p v inf →
    .start p ∈ post ∨ (.finish p .enableButIdempotent ∈ post ∧ E.claimsIgnored[p]? = some false)

theorem split_append {α : Type} {t u pre post : List α} {x : α} (h : t ++ u = pre ++ x :: post) :
    (∃ p', t = pre ++ x :: p' ∧ post = p' ++ u) ∨ ∃ q, u = q ++ x :: post ∧ pre = t ++ q := by
  rcases List.append_eq_append_iff.1 h with ⟨a, h1, h2⟩ | ⟨c, h1, h2⟩
  · exact .inr ⟨a, h2, h1⟩
  · cases c with
    | nil => exact .inr ⟨[], by simpa using h2.symm, by simpa using h1.symm⟩
    | cons y c =>
      simp only [List.cons_append, List.cons.injEq] at h2
      obtain ⟨rfl, h2⟩ := h2
      exact .inl ⟨c, h1, h2⟩

/-- Which propagators have to be run in any case: all of them at the root, and those subscribed to the guessed variables otherwise. -/
def Seeded (E : Engine σ μ) (gs : List Lit) (p : Nat) : Prop := gs = [] ∨ ∃ c ∈ seeds gs, Sub E p c.1 c.2

theorem trace_contract (n m : Nat) (E : Engine σ μ) (gs : List Lit) :
    FixContract n m E (fun _ => True) (fun p _ t => (Seeded E gs p → .start p ∈ t) ∧ UpToDate E t p) (fun _ _ => True) where
  core := fun _ _ _ _ _ _ _ => trivial
  keepsK := fun _ _ _ _ _ _ _ _ _ _ _ _ _ _ => trivial
  other := by
    intro p t q ps d cs d' hpq _ hsub h
    refine ⟨fun hg => by simp [h.1 hg], ?_⟩
    intro pre v inf post he hs
    rw [List.append_assoc, List.append_assoc] at he
    rcases split_append he with ⟨p', h1, h2⟩ | ⟨q2, h1, h2⟩
    · rcases h.2 pre v inf p' h1 hs with h3 | h3
      · left; rw [h2]; simp [h3]
      · right; rw [h2]; exact ⟨by simp [h3.1], h3.2⟩
    · have hmem : Ev.change v inf ∈ [Ev.start q] ++ (cs.map (fun c => Ev.change c.1 c.2) ++ [Ev.finish q ps]) := by rw [h1]; simp
      have hc : (v, inf) ∈ cs := by
        simp only [List.cons_append, List.nil_append, List.mem_cons, List.mem_append, List.mem_map, reduceCtorEq, List.not_mem_nil, false_or, or_false, Ev.change.injEq] at hmem
        obtain ⟨c, hc, h1, h2⟩ := hmem
        rw [← h1, ← h2]; exact hc
      exact absurd hs (hsub _ hc)
  own := by
    intro p f sc s t ps s' cs _ _ _ _ _ _ _ _ _ hc
    refine ⟨fun _ => by simp, ?_⟩
    intro pre v inf post he hs
    rw [List.append_assoc, List.append_assoc] at he
    rcases split_append he with ⟨p', h1, h2⟩ | ⟨q2, h1, h2⟩
    · left; rw [h2]; simp
    · rcases hc with hc | hc
      · have hmem : Ev.change v inf ∈ [Ev.start p] ++ (cs.map (fun c => Ev.change c.1 c.2) ++ [Ev.finish p ps]) := by rw [h1]; simp
        have hc' : (v, inf) ∈ cs := by
          simp only [List.cons_append, List.nil_append, List.mem_cons, List.mem_append, List.mem_map, reduceCtorEq, List.not_mem_nil, false_or, or_false, Ev.change.injEq] at hmem
          obtain ⟨c, hc, h1, h2⟩ := hmem
          rw [← h1, ← h2]; exact hc
        exact absurd hs (hc _ hc')
      · right
        refine ⟨?_, hc.2⟩
        have hl : post.getLast? = some (.finish p ps) ∨ post = [] := by
          have := congrArg List.getLast? h1
          rw [List.getLast?_append] at this
          cases post with
          | nil => exact .inr rfl
          | cons y r =>
            left
            simp [List.getLast?_append, List.getLast?_cons_cons] at this ⊢
            rw [List.getLast?_cons] at this ⊢
            simpa using this.symm
        rcases hl with hl | hl
        · rw [← hc.1]; exact List.mem_of_getLast? hl
        · subst hl
          have := congrArg List.getLast? h1
          rw [← List.append_assoc, List.getLast?_concat, List.getLast?_concat] at this
          simp at this
  disable := fun _ _ _ _ _ _ _ _ _ _ _ _ _ => trivial
  stable := fun _ _ _ _ _ _ => trivial

/-- C21. When `propagate` returns true and did not read a set abort flag, the queue is empty and every enabled propagator is up to date; at the root each of them has run,
and below the root each of those subscribed to a guessed variable. -/
theorem propagate_fixed_point {E : Engine σ μ} (hE : E.WF n m R) {abort : Nat → Bool} {gs : List Lit} {s : Sys σ μ} (h : CallOK n m E gs s)
    {s' : Sys σ μ} (hr : Sys.propagate E gs abort s = .ok (true, s')) (hab : ∀ i, i < s'.clock → abort i = false) :
    Ready s'.q = [] ∧ ∀ p, E.permDisabled[p]? = some false → ¬ IsDisabled s'.q p → UpToDate E s'.trace p ∧ (Seeded E gs p → .start p ∈ s'.trace) := by
  have := propagate_fix hE h (trace_contract n m E gs) ⟨trivial, fun _ _ _ _ => trivial, ?_⟩ hr hab
  · refine ⟨this.2.1, fun p hp hd => ?_⟩
    have h1 := (this.2.2 p hp).2 hd
    exact ⟨h1.2, h1.1⟩
  · intro hg p _ _ hs
    refine ⟨?_, ?_⟩
    · rintro (h1 | ⟨c, h1, h2⟩)
      · exact absurd h1 hg
      · exact absurd h2 (hs c h1)
    · intro pre v inf post he
      simp at he

/-! ## C18: who is woken -/

/-- What a propagator has asked to be woken for, in terms of the domain of variable `v` before and after a change. -/
def Triggers.Cares (t : Triggers) (v : Nat) (old new : IntervalSet) : Prop :=
  (∃ x ∈ t.onChange, x.underlyingIndex = some v ∧ Changed old new) ∨
  (∃ x ∈ t.onBounds, x.underlyingIndex = some v ∧ ∃ y, IsBound old y ∧ ¬ Mem y new) ∨
  (∃ x ∈ t.onInstantiated, x.underlyingIndex = some v ∧ SingleValued new ∧ ¬ SingleValued old)

/-- The trigger table says about propagator `p` what its `Triggers` said. -/
theorem Built.sub {E : Engine σ μ} {l : List (Prog σ μ PState × Triggers)} (hb : Built n m R E l) {p : Nat} {f : Prog σ μ PState} {t : Triggers} (hp : l[p]? = some (f, t)) (v : Nat) (inf : Inference) :
    Sub E p v inf ↔ (inf ∈ [Inference.interiorValuesChanged, .boundsChanged, .instantiated] ∧ ∃ x ∈ t.onChange, x.underlyingIndex = some v) ∨
      (inf ∈ [Inference.boundsChanged, .instantiated] ∧ ∃ x ∈ t.onBounds, x.underlyingIndex = some v) ∨
      (inf ∈ [Inference.instantiated] ∧ ∃ x ∈ t.onInstantiated, x.underlyingIndex = some v) := by
  induction hb with
  | empty => simp at hp
  | disable ids _ ih => exact ih hp
  | @install E l c g u hb hg hu ih =>
    have hlen : E.progs.length = l.length := by rw [hb.progs]; simp
    unfold Sub
    simp only [install_triggers]
    by_cases hlt : p < l.length
    · rw [List.getElem?_append_left hlt] at hp
      rw [← ih hp]
      unfold Sub
      constructor
      · rintro ⟨mk, h1 | ⟨h1, _⟩, h2⟩
        · exact ⟨mk, h1, h2⟩
        · omega
      · rintro ⟨mk, h1, h2⟩; exact ⟨mk, .inl h1, h2⟩
    · have hpe : p = l.length := by have := (List.getElem?_eq_some_iff.1 hp).1; simp at this; omega
      subst hpe
      rw [List.getElem?_append_right (Nat.le_refl _)] at hp
      simp at hp
      obtain ⟨rfl, rfl⟩ := hp
      constructor
      · rintro ⟨mk, h1 | ⟨_, ⟨h1, h2⟩ | ⟨h1, h2⟩ | ⟨h1, h2⟩⟩, h3⟩
        · have := hb.wf.trig v _ mk h1; omega
        · subst h1; exact .inl ⟨h3, h2⟩
        · subst h1; exact .inr (.inl ⟨h3, h2⟩)
        · subst h1; exact .inr (.inr ⟨h3, h2⟩)
      · rintro (⟨h1, h2⟩ | ⟨h1, h2⟩ | ⟨h1, h2⟩)
        · exact ⟨_, .inr ⟨hlen.symm, .inl ⟨rfl, h2⟩⟩, h1⟩
        · exact ⟨_, .inr ⟨hlen.symm, .inr (.inl ⟨rfl, h2⟩)⟩, h1⟩
        · exact ⟨_, .inr ⟨hlen.symm, .inr (.inr ⟨rfl, h2⟩)⟩, h1⟩

/-- The kind of change reported is enough to decide whether a propagator cares about it. -/
theorem Built.cares {E : Engine σ μ} {l : List (Prog σ μ PState × Triggers)} (hb : Built n m R E l) {p : Nat} {f : Prog σ μ PState} {t : Triggers} (hp : l[p]? = some (f, t))
    {v : Nat} {inf : Inference} {d d' : Doms} (hd : DomsOK d) (h : Step v inf d d') {old new : IntervalSet} (ho : d[v]? = some old) (hn : d'[v]? = some new) :
    Sub E p v inf ↔ t.Cares v old new := by
  rw [hb.sub hp]
  obtain ⟨s, s', h1, h2, hsub, hk⟩ := h.own
  rw [ho] at h1; rw [hn] at h2; cases h1; cases h2
  have hold : DomOK old := hd old (List.mem_of_getElem? ho)
  obtain ⟨lo, hi, hlo, hhi, hbd⟩ := exists_bounds hold
  have hnew : DomOK new := h.domsOK new (List.mem_of_getElem? hn)
  have eff := h.effective
  unfold Triggers.Cares
  cases inf with
  | noChange => exact absurd rfl eff.1
  | contradiction => exact absurd rfl eff.2
  | boundsChanged =>
    obtain ⟨k1, k2, k3⟩ := hk
    constructor
    · rintro (⟨_, x, hx, e⟩ | ⟨_, x, hx, e⟩ | ⟨hc, _⟩)
      · exact .inl ⟨x, hx, e, k1⟩
      · exact .inr (.inl ⟨x, hx, e, k3⟩)
      · simp at hc
    · rintro (⟨x, hx, e, _⟩ | ⟨x, hx, e, _⟩ | ⟨x, hx, e, hc, _⟩)
      · exact .inl ⟨by simp, x, hx, e⟩
      · exact .inr (.inl ⟨by simp, x, hx, e⟩)
      · exact absurd hc k2
  | interiorValuesChanged =>
    obtain ⟨k1, k2, k3⟩ := hk
    constructor
    · rintro (⟨_, x, hx, e⟩ | ⟨hc, _⟩ | ⟨hc, _⟩)
      · exact .inl ⟨x, hx, e, k1⟩
      · simp at hc
      · simp at hc
    · rintro (⟨x, hx, e, _⟩ | ⟨x, hx, e, y, h1, h2⟩ | ⟨x, hx, e, hc, _⟩)
      · exact .inl ⟨by simp, x, hx, e⟩
      · exact absurd (k3 y h1) h2
      · exact absurd hc k2
  | instantiated =>
    obtain ⟨k1, w, k2⟩ := hk
    -- the old domain had another value, so one of its bounds is gone
    have hbound : ∃ y, IsBound old y ∧ ¬ Mem y new := by
      by_cases h1 : lo = w
      · by_cases h2 : hi = w
        · exfalso
          apply k1
          intro x
          rw [k2]
          constructor
          · rintro rfl; exact h1 ▸ hlo
          · intro hx; have := hbd x hx; omega
        · exact ⟨hi, ⟨hhi, .inr fun y hy => (hbd y hy).2⟩, fun hm => h2 ((k2 hi).1 hm)⟩
      · exact ⟨lo, ⟨hlo, .inl fun y hy => (hbd y hy).1⟩, fun hm => h1 ((k2 lo).1 hm)⟩
    have hmany : ¬ SingleValued old := by
      rintro ⟨u, hu⟩
      apply k1
      intro x
      rw [hu, k2]
      have h1 := (hu w).1 (hsub w ((k2 w).2 rfl))
      rw [h1]
    constructor
    · rintro (⟨_, x, hx, e⟩ | ⟨_, x, hx, e⟩ | ⟨_, x, hx, e⟩)
      · exact .inl ⟨x, hx, e, k1⟩
      · exact .inr (.inl ⟨x, hx, e, hbound⟩)
      · exact .inr (.inr ⟨x, hx, e, ⟨w, k2⟩, hmany⟩)
    · rintro (⟨x, hx, e, _⟩ | ⟨x, hx, e, _⟩ | ⟨x, hx, e, _⟩)
      · exact .inl ⟨by simp, x, hx, e⟩
      · exact .inr (.inl ⟨by simp, x, hx, e⟩)
      · exact .inr (.inr ⟨by simp, x, hx, e⟩)

/-- C18 for one inference. `old` and `new` are the domain of `v` before and after it. Exactly the idle propagators that care about the change, or have a
watch on a literal of `v` that is looked at for changes of this kind and has become entailed, are made ready; the others stay as they are, and those that
were ready stay ready, in the same order. -/
theorem requeue_wakes {E : Engine σ μ} {l : List (Prog σ μ PState × Triggers)} (hb : Built n m R E l) {v : Nat} {inf : Inference} {d d' : Doms} (hd : DomsOK d)
    (h : Step v inf d d') {old new : IntervalSet} (ho : d[v]? = some old) (hn : d'[v]? = some new) {s : Sys σ μ} (hs : SysOK n m E.progs.length s) :
    RightOrOverflow (Sys.requeue E v inf s) (fun s' =>
      (∀ p f t, l[p]? = some (f, t) → (p ∈ Ready s'.q ↔ p ∈ Ready s.q ∨ (IsIdle s.q p ∧
        (t.Cares v old new ∨ ∃ x ∈ armed s.w v, x.owner = p ∧ inf ∈ triggerMask x.literal ∧ Entailed s.doms x.literal)))) ∧
      Ready s.q <+: Ready s'.q ∧ (∀ p, IsDisabled s'.q p ↔ IsDisabled s.q p) ∧ s'.doms = s.doms) := by
  refine (requeue_spec hb.wf hs v inf).mono fun s' h' => ⟨?_, h'.woken.order, h'.woken.disabled, h'.qw.doms⟩
  intro p f t hp
  rw [h'.woken.ready, ← hb.cares hp hd h ho hn]
  have hmask : ∀ x ∈ armed s.w v, x.mask = triggerMask x.literal := by
    intro x hx
    unfold armed at hx
    cases hbv : s.w.byVar[v]? with
    | none => rw [hbv] at hx; simp at hx
    | some ws => rw [hbv] at hx; exact (hs.watches v ws x hbv hx).2.2.2.2.1
  constructor
  · rintro (a | ⟨a, ⟨c, hc, e⟩ | ⟨u, x, hx, ⟨⟨i, hi, hm⟩, he⟩, e⟩⟩)
    · exact .inl a
    · simp only [List.mem_singleton] at hc; subst hc; exact .inr ⟨a, .inl e⟩
    · simp only [List.mem_singleton, Prod.mk.injEq] at hi
      obtain ⟨rfl, rfl⟩ := hi
      exact .inr ⟨a, .inr ⟨x, hx, e, hmask x hx ▸ hm, he⟩⟩
  · rintro (a | ⟨a, e | ⟨x, hx, e, hm, he⟩⟩)
    · exact .inl a
    · exact .inr ⟨a, .inl ⟨(v, inf), by simp, e⟩⟩
    · exact .inr ⟨a, .inr ⟨v, x, hx, ⟨⟨inf, by simp, by rw [hmask x hx]; exact hm⟩, he⟩, e⟩⟩

/-- C18 for a whole round: exactly those propagators are ready in the next round that are not disabled, and subscribe to an inference of the round they had
not already seen when truthfully claiming idempotence, or, if nobody claimed idempotence in the round, have a watch that was hit. -/
theorem endRound_wakes {E : Engine σ μ} (hE : E.WF n m R) {s : Sys σ μ} (h : LoopOK n m E.progs.length s) :
    RightOrOverflow (Sys.endRound E s) (fun s' => ∀ p, p ∈ Ready s'.q ↔ p < E.progs.length ∧ ¬ IsDisabled s.q p ∧ p ∉ s.toDisable ∧
      ((∃ j c, s.tr.inferences[j]? = some c ∧ Sub E p c.1 c.2 ∧ ∀ e, (e, p) ∈ s.claims → e ≤ j) ∨
       (s.claims = [] ∧ ∃ v, ∃ y ∈ armed s.w v, Hit s.doms s.tr.inferences v y ∧ y.owner = p))) :=
  (endRound_ok hE h).mono fun _ h' => h'.ready

/-- Below the root, exactly those enabled propagators are ready at the start that have any trigger on a guessed variable, or a watch that is entailed. -/
theorem guess_wakes {E : Engine σ μ} {l : List (Prog σ μ PState × Triggers)} (hb : Built n m R E l) {gs : List Lit} (hg : gs ≠ []) {s : Sys σ μ} (h : CallOK n m E gs s) :
    RightOrOverflow (Sys.prepare E gs s) (fun s' => ∀ p f t, l[p]? = some (f, t) → (p ∈ Ready s'.q ↔ ¬ IsDisabled s.q p ∧
      ((∃ g ∈ gs, ∃ v, g.underlyingIndex = some v ∧ ∃ x ∈ t.onChange ++ t.onBounds ++ t.onInstantiated, x.underlyingIndex = some v) ∨
       ∃ g ∈ gs, ∃ v, g.underlyingIndex = some v ∧ ∃ y ∈ armed s.w v, y.owner = p ∧ Entailed s.doms y.literal))) := by
  refine (prepare_ok hb.wf h).mono fun s' h' => ?_
  intro p f t hp
  have hlt : p < E.progs.length := by rw [hb.progs, List.length_map]; exact (List.getElem?_eq_some_iff.1 hp).1
  rw [(h'.child hg).2.2.2]
  have hseed : ∀ v inf, (v, inf) ∈ seeds gs ↔ inf = .instantiated ∧ ∃ g ∈ gs, g.underlyingIndex = some v := by
    intro v inf
    unfold seeds
    simp only [List.mem_filterMap, Option.map_eq_some_iff, Prod.mk.injEq]
    constructor
    · rintro ⟨g, hg, u, hu, rfl, rfl⟩; exact ⟨rfl, g, hg, hu⟩
    · rintro ⟨rfl, g, hg, hu⟩; exact ⟨g, hg, v, hu, rfl, rfl⟩
  have hmask : ∀ v, ∀ x ∈ armed s.w v, Inference.instantiated ∈ x.mask := by
    intro v x hx
    unfold armed at hx
    cases hbv : s.w.byVar[v]? with
    | none => rw [hbv] at hx; simp at hx
    | some ws =>
      rw [hbv] at hx
      rw [(h.watches v ws x hbv hx).2.2.2.2.1]
      cases x.literal with
      | cond c => obtain ⟨_, op, _, _⟩ := c; cases op <;> simp [triggerMask]
      | tt => simp [triggerMask]
      | ff => simp [triggerMask]
  constructor
  · rintro ⟨_, h1, ⟨⟨v, inf⟩, hc, hs⟩ | ⟨v, y, hy, ⟨⟨inf, hi, _⟩, he⟩, ho⟩⟩
    · obtain ⟨rfl, g, hg, hu⟩ := (hseed v inf).1 hc
      refine ⟨h1, .inl ⟨g, hg, v, hu, ?_⟩⟩
      rw [hb.sub hp] at hs
      rcases hs with ⟨_, x, hx, e⟩ | ⟨_, x, hx, e⟩ | ⟨_, x, hx, e⟩ <;> exact ⟨x, by simp [hx], e⟩
    · obtain ⟨_, g, hg, hu⟩ := (hseed v inf).1 hi
      exact ⟨h1, .inr ⟨g, hg, v, hu, y, hy, ho, he⟩⟩
  · rintro ⟨h1, ⟨g, hg, v, hu, x, hx, e⟩ | ⟨g, hg, v, hu, y, hy, ho, he⟩⟩
    · refine ⟨hlt, h1, .inl ⟨(v, .instantiated), (hseed _ _).2 ⟨rfl, g, hg, hu⟩, ?_⟩⟩
      rw [hb.sub hp]
      simp only [List.mem_append] at hx
      rcases hx with (hx | hx) | hx
      · exact .inl ⟨by simp, x, hx, e⟩
      · exact .inr (.inl ⟨by simp, x, hx, e⟩)
      · exact .inr (.inr ⟨by simp, x, hx, e⟩)
    · exact ⟨hlt, h1, .inr ⟨v, y, hy, ⟨⟨.instantiated, (hseed _ _).2 ⟨rfl, g, hg, hu⟩, hmask v y hy⟩, he⟩, ho⟩⟩

end
end Gcs
