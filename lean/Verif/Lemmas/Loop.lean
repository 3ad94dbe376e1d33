import Verif.Lemmas.Round

/-! The end of a round, one turn, and the loop. -/

namespace Gcs
open IntervalSet Queue

section
variable {σ μ : Type} {n m np : Nat} {R : Err → Prop}

/-- Invariant at the head of the loop. -/
structure LoopOK (n m np : Nat) (s : Sys σ μ) : Prop where
  ok : SysOK n m np s
  disNodup : s.toDisable.Nodup
  disDone : ∀ p ∈ s.toDisable, IsDone s.q p
  sorted : s.claims.Pairwise (fun a b => a.1 ≤ b.1)
  distinct : (s.claims.map (·.2)).Nodup
  claimDone : ∀ c ∈ s.claims, c.1 ≤ s.tr.inferences.length ∧ IsDone s.q c.2

/-- `p` subscribes to an inference of this round that it had not already seen when it claimed idempotence. -/
def Pending (E : Engine σ μ) (s : Sys σ μ) (p : Nat) : Prop :=
  ∃ j c, s.tr.inferences[j]? = some c ∧ Sub E p c.1 c.2 ∧ ∀ e, (e, p) ∈ s.claims → e ≤ j

/-- What the end of a round does. -/
structure EndSpec (n m : Nat) (E : Engine σ μ) (s s' : Sys σ μ) : Prop where
  eq : s' = { s with q := s'.q, w := s'.w, claims := [], toDisable := [], tr := { s.tr with inferences := [], madeProgress := false, didAnything := false } }
  steps : WSteps n E.progs.length s.w s'.w
  wstate : s'.w.wstate = s.w.wstate
  ok : SysOK n m E.progs.length s'
  idle : s'.q.idle ≤ s.q.idle
  keep : ∀ j : Nat, s.q.idle ≤ j → s'.q.queue[j]? = s.q.queue[j]?
  disabled : ∀ x, IsDisabled s'.q x ↔ IsDisabled s.q x ∨ x ∈ s.toDisable
  notDone : ∀ x, ¬ IsDone s'.q x
  ready : ∀ x, x ∈ Ready s'.q ↔ x < E.progs.length ∧ ¬ IsDisabled s.q x ∧ x ∉ s.toDisable ∧
    (Pending E s x ∨ (s.claims = [] ∧ ∃ v, ∃ y ∈ armed s.w v, Hit s.doms s.tr.inferences v y ∧ y.owner = x))
  fired : s.claims = [] → ∀ v, ∃ f, (armed s'.w v ++ f).Perm (armed s.w v) ∧ (∀ x ∈ f, Hit s.doms s.tr.inferences v x ∧ x.payload ∈ box s'.w x.owner) ∧
    ∀ x ∈ armed s'.w v, ¬ Hit s.doms s.tr.inferences v x
  unfired : s.claims ≠ [] → s'.w = s.w
  news : ∀ p, ∀ y ∈ box s'.w p, y ∈ box s.w p ∨ (s.claims = [] ∧ ∃ v, ∃ x ∈ armed s.w v, Hit s.doms s.tr.inferences v x ∧ x.owner = p ∧ x.payload = y)

theorem not_done_restart (q : Queue) (x : Nat) : ¬ IsDone q.restart x := by
  rintro ⟨i, hi, _⟩; exact absurd hi (Nat.not_lt_zero i)

theorem endRound_ok {E : Engine σ μ} (hE : E.WF n m R) {s : Sys σ μ} (h : LoopOK n m E.progs.length s) :
    RightOrOverflow (Sys.endRound E s) (EndSpec n m E s) := by
  obtain ⟨q', e, hinv, hr, hid, hkeep, hdis, hidl⟩ := Queue.endRound_spec h.ok.inv h.disNodup h.disDone
  unfold Sys.endRound
  rw [e]
  show RightOrOverflow (Except.bind (if s.claims = [] then _ else _) _) _
  have hok1 : SysOK n m E.progs.length ({ s with q := q'.restart, toDisable := [] } : Sys σ μ) :=
    ⟨⟨h.ok.run.1, h.ok.run.2, h.ok.run.3, h.ok.run.4, h.ok.run.5⟩, hinv, h.ok.watches, h.ok.inboxLen, h.ok.pend⟩
  by_cases hc : s.claims = []
  · rw [if_pos hc]
    refine RightOrOverflow.bind (replay_spec hE s.tr.inferences hok1) fun s2 h2 => ?_
    refine .inr ⟨_, rfl, ?_⟩
    have hp : ∀ x, Pending E s x ↔ ∃ c ∈ s.tr.inferences, Sub E x c.1 c.2 := by
      intro x
      unfold Pending
      rw [hc]
      constructor
      · rintro ⟨j, c, a, b, _⟩; exact ⟨c, List.mem_of_getElem? a, b⟩
      · rintro ⟨c, a, b⟩
        obtain ⟨j, hj⟩ := List.mem_iff_getElem?.1 a
        exact ⟨j, c, hj, b, by simp⟩
    have heq := h2.qw.eq
    refine { eq := ?_, steps := h2.qw.steps, wstate := h2.qw.wstate, ok := ?_, idle := ?_, keep := ?_, disabled := ?_, notDone := ?_, ready := ?_, fired := ?_, unfired := ?_, news := ?_ }
    · rw [heq]
    · exact ⟨⟨h2.ok.run.1, h2.ok.run.2, h2.ok.run.3, h2.ok.run.4, h2.ok.run.5⟩, h2.ok.inv, h2.ok.watches, h2.ok.inboxLen, h2.ok.pend⟩
    · have := h2.woken.idle; show s2.q.idle ≤ _; rw [this]; exact hid
    · intro j hj
      show s2.q.queue[j]? = _
      rw [h2.woken.keep j (.inr (by show q'.restart.idle ≤ j; exact Nat.le_trans hid hj))]
      exact hkeep j hj
    · intro x; show IsDisabled s2.q x ↔ _; rw [h2.woken.disabled]; exact hdis x
    · intro x; show ¬ IsDone s2.q x; rw [h2.woken.done hinv]; exact not_done_restart q' x
    · intro x
      show x ∈ Ready s2.q ↔ _
      rw [h2.woken.ready]
      show x ∈ Ready q'.restart ∨ IsIdle q'.restart x ∧ _ ↔ _
      rw [hr, hp]
      constructor
      · rintro (a | ⟨a, b⟩)
        · simp at a
        · have hx := (idle_iff hinv x).1 a
          have := (hidl x hx.1).1 a
          refine ⟨hx.1, this.1, this.2, ?_⟩
          rcases b with b | b
          · exact .inl b
          · exact .inr ⟨hc, b⟩
      · rintro ⟨a, b, c, d⟩
        refine .inr ⟨(hidl x a).2 ⟨b, c⟩, ?_⟩
        rcases d with d | d
        · exact .inl d
        · exact .inr d.2
    · intro _; exact h2.fired
    · intro hne; exact absurd hc hne
    · intro p y hy
      rcases h2.news p y hy with h | h
      · exact .inl h
      · exact .inr ⟨hc, h⟩
  · rw [if_neg hc]
    obtain ⟨q2, e2, w2⟩ := replayClaims_spec hE s.tr.inferences 0 s.claims (fun p => s.claims.any (fun c => c.2 = p)) (s := { s with q := q'.restart, toDisable := [] })
      hinv h.sorted h.distinct (by
        intro p
        rw [List.any_eq_true]
        constructor
        · rintro ⟨c, a, b⟩
          have hcp : c.2 = p := by simpa using b
          subst hcp
          exact ⟨c.1, a⟩
        · rintro ⟨e, a⟩; exact ⟨(e, p), a, by simp⟩)
    show RightOrOverflow (Except.bind (Sys.replayClaims E 0 s.claims (fun p => s.claims.any (fun c => c.2 = p)) s.tr.inferences { s with q := q'.restart, toDisable := [] }) _) _
    rw [e2]
    refine .inr ⟨_, rfl, ?_⟩
    refine { eq := rfl, steps := .refl _, wstate := rfl, ok := ?_, idle := ?_, keep := ?_, disabled := ?_, notDone := ?_, ready := ?_, fired := ?_, unfired := ?_, news := ?_ }
    · exact ⟨⟨h.ok.run.1, h.ok.run.2, h.ok.run.3, h.ok.run.4, h.ok.run.5⟩, w2.inv, h.ok.watches, h.ok.inboxLen, h.ok.pend⟩
    · have := w2.idle; show q2.idle ≤ _; rw [this]; exact hid
    · intro j hj
      show q2.queue[j]? = _
      rw [w2.keep j (.inr (by show q'.restart.idle ≤ j; exact Nat.le_trans hid hj))]
      exact hkeep j hj
    · intro x; show IsDisabled q2 x ↔ _; rw [w2.disabled]; exact hdis x
    · intro x; show ¬ IsDone q2 x; rw [w2.done hinv]; exact not_done_restart q' x
    · intro x
      show x ∈ Ready q2 ↔ _
      rw [w2.ready]
      show x ∈ Ready q'.restart ∨ IsIdle q'.restart x ∧ _ ↔ _
      rw [hr]
      simp only [Nat.zero_add]
      constructor
      · rintro (a | ⟨a, b⟩)
        · simp at a
        · have hx := (idle_iff hinv x).1 a
          have := (hidl x hx.1).1 a
          exact ⟨hx.1, this.1, this.2, .inl b⟩
      · rintro ⟨a, b, c, d⟩
        refine .inr ⟨(hidl x a).2 ⟨b, c⟩, ?_⟩
        rcases d with d | d
        · exact d
        · exact absurd d.1 hc
    · intro a; exact absurd a hc
    · intro _; rfl
    · intro p y hy; exact .inl hy

theorem EndSpec.loopOK {E : Engine σ μ} {s s' : Sys σ μ} (h : EndSpec n m E s s') : LoopOK n m E.progs.length s' where
  ok := h.ok
  disNodup := by rw [h.eq]; exact List.nodup_nil
  disDone := by rw [h.eq]; simp
  sorted := by rw [h.eq]; simp
  distinct := by rw [h.eq]; simp
  claimDone := by rw [h.eq]; simp

/-- The system in which a propagation function is called. -/
def Sys.started (s : Sys σ μ) (p : Nat) (q' : Queue) : Sys σ μ :=
  { s with q := q', total := s.total + 1, tr := { s.tr with madeProgress := false }, trace := s.trace ++ [.start p] }

/-- The system after a propagation function returned `ps` without contradiction. -/
def Sys.settled (ig : Bool) (p : Nat) (ps : PState) (s : Sys σ μ) : Sys σ μ :=
  { s with
    w := { s.w with inbox := s.w.inbox.set p [] }
    effectful := if s.tr.didAnything then s.effectful + 1 else s.effectful
    tr := { s.tr with didAnything := false }
    trace := s.trace ++ [.finish p ps]
    claims := if ps = .enableButIdempotent ∧ ig = false ∧ s.tr.inferences.length ≠ 0 then s.claims ++ [(s.tr.inferences.length, p)] else s.claims
    toDisable := if ps = .disableUntilBacktrack then s.toDisable ++ [p] else s.toDisable }

/-- `p` is taken from the front of the ready list. -/
structure Popped (np : Nat) (s : Sys σ μ) (p : Nat) (q' : Queue) : Prop where
  pop : s.q.pop = .ok (p, q')
  lt : p < np
  inv : Inv np q'
  ready : Ready s.q = p :: Ready q'
  queue : q'.queue = s.q.queue
  begin_ : q'.begin_ = s.q.begin_ + 1
  end_ : q'.end_ = s.q.end_
  idle : q'.idle = s.q.idle
  done : ∀ x, IsDone q' x ↔ IsDone s.q x ∨ x = p

theorem Popped.disabled {s : Sys σ μ} {p : Nat} {q' : Queue} (h : Popped np s p q') (x : Nat) : IsDisabled q' x ↔ IsDisabled s.q x := by
  unfold IsDisabled; rw [h.idle, h.queue]
theorem Popped.notDone {s : Sys σ μ} {p : Nat} {q' : Queue} (h : Popped np s p q') (hi : Inv np s.q) : ¬ IsDone s.q p :=
  fun hd => hi.partition.doneReady p ⟨hd, by rw [h.ready]; simp⟩
theorem Popped.notDisabled {s : Sys σ μ} {p : Nat} {q' : Queue} (h : Popped np s p q') (hi : Inv np s.q) : ¬ IsDisabled s.q p :=
  fun hd => hi.partition.readyDisabled p ⟨by rw [h.ready]; simp, hd⟩

/-- One turn of the loop. -/
inductive TurnSpec (n m : Nat) (E : Engine σ μ) (s : Sys σ μ) : Sys.Turn → Sys σ μ → Prop where
  | skipped (p : Nat) (q' : Queue) : Popped E.progs.length s p q' → E.permDisabled[p]? = some true → TurnSpec n m E s .skipped { s with q := q' }
  | contradiction (p : Nat) (q' : Queue) (f : Prog σ μ PState) (sc : List Nat) (r : Res PState) (sr : Sys σ μ) (w : Watches) :
    Popped E.progs.length s p q' → E.permDisabled[p]? = some false → E.progs[p]? = some f → E.scope[p]? = some sc →
    runProg ⟨p, sc⟩ f (s.started p q') = .ok (r, sr) → Frame n E.progs.length (s.started p q') sr → Failed r sr →
    (w = sr.w ∨ w = { sr.w with inbox := sr.w.inbox.set p [] }) →
    TurnSpec n m E s .contradiction { sr with w := w, contradicting := sr.contradicting + 1, conflicts := sr.conflicts ++ [p] }
  | fine (p : Nat) (q' : Queue) (f : Prog σ μ PState) (sc : List Nat) (ig : Bool) (ps : PState) (sr : Sys σ μ) (cs : List (Nat × Inference)) :
    Popped E.progs.length s p q' → E.permDisabled[p]? = some false → E.progs[p]? = some f → E.scope[p]? = some sc → E.claimsIgnored[p]? = some ig →
    runProg ⟨p, sc⟩ f (s.started p q') = .ok (.val ps, sr) → Frame n E.progs.length (s.started p q') sr → Ran (s.started p q') cs sr →
    TurnSpec n m E s .fine (sr.settled ig p ps)

/-- Errors a run of the engine may end with. -/
def Thrown (R : Err → Prop) {α : Type} (x : Chk α) : Prop := ∃ e, x = .error e ∧ (e = .overflow ∨ R e)

theorem runOne_ok {E : Engine σ μ} (hE : E.WF n m R) {s : Sys σ μ} (h : LoopOK n m E.progs.length s) (hr : s.q.begin_ ≠ s.q.end_) :
    Thrown R (Sys.runOne E s) ∨ ∃ t s', Sys.runOne E s = .ok (t, s') ∧ TurnSpec n m E s t s' := by
  obtain ⟨p, q', e, hp, hinv, hrd, hq, _, hb, hen, hid, hdn⟩ := pop_spec h.ok.inv hr
  have hpop : Popped E.progs.length s p q' := ⟨e, hp, hinv, hrd, hq, hb, hen, hid, hdn⟩
  obtain ⟨pd, hpd⟩ : ∃ b, E.permDisabled[p]? = some b := ⟨_, List.getElem?_eq_getElem (by rw [hE.permLen]; exact hp)⟩
  obtain ⟨f, hf⟩ : ∃ b, E.progs[p]? = some b := ⟨_, List.getElem?_eq_getElem hp⟩
  obtain ⟨sc, hsc⟩ : ∃ b, E.scope[p]? = some b := ⟨_, List.getElem?_eq_getElem (by rw [hE.scopeLen]; exact hp)⟩
  obtain ⟨ig, hig⟩ : ∃ b, E.claimsIgnored[p]? = some b := ⟨_, List.getElem?_eq_getElem (by rw [hE.ignoredLen]; exact hp)⟩
  unfold Sys.runOne
  rw [e]
  show Thrown R (Except.bind (vecAt E.permDisabled p) _) ∨ ∃ t s', Except.bind (vecAt E.permDisabled p) _ = _ ∧ _
  rw [vecAt_ok.2 hpd]
  cases pd with
  | true => exact .inr ⟨_, _, rfl, .skipped p q' hpop hpd⟩
  | false =>
    show Thrown R (Except.bind (vecAt E.progs p) _) ∨ ∃ t s', Except.bind (vecAt E.progs p) _ = _ ∧ _
    rw [vecAt_ok.2 hf]
    show Thrown R (Except.bind (vecAt E.scope p) _) ∨ ∃ t s', Except.bind (vecAt E.scope p) _ = _ ∧ _
    rw [vecAt_ok.2 hsc]
    show Thrown R (Except.bind (runProg ⟨p, sc⟩ f (s.started p q')) _) ∨ ∃ t s', Except.bind (runProg ⟨p, sc⟩ f (s.started p q')) _ = _ ∧ _
    have hrun : Runnable n m (s.started p q') := ⟨h.ok.run.1, h.ok.run.2, h.ok.run.3, h.ok.run.4, h.ok.run.5⟩
    rcases runProg_spec (np := E.progs.length) ⟨p, sc⟩ hp f (s.started p q') hrun (hE.progs f (List.mem_of_getElem? hf) _ hrun.domsOK hrun.domsLen) with ⟨e, h1, h2⟩ | ⟨r, sr, h1, hfr, h2⟩
    · rw [h1]; exact .inl ⟨e, rfl, h2⟩
    · rw [h1]
      right
      rcases h2 with h2 | ⟨ps, cs, rfl, h2⟩
      · cases r with
        | failed => exact ⟨_, _, rfl, .contradiction p q' f sc .failed sr sr.w hpop hpd hf hsc h1 hfr h2 (.inl rfl)⟩
        | val ps =>
          have hcon : sr.tr.contradicted = true := by
            rcases h2 with h2 | h2
            · cases h2
            · exact h2
          refine ⟨_, _, ?_, .contradiction p q' f sc (.val ps) sr { sr.w with inbox := sr.w.inbox.set p [] } hpop hpd hf hsc h1 hfr h2 (.inr rfl)⟩
          simp [Except.bind, hcon, pure, Except.pure]
      · refine ⟨.fine, _, ?_, .fine p q' f sc ig ps sr cs hpop hpd hf hsc hig h1 hfr h2⟩
        have hcon := h2.fine
        simp only [Except.bind, hcon, Bool.false_eq_true, if_false]
        cases ps with
        | enable => simp [Sys.settle, Sys.settled, bind, Except.bind, pure, Except.pure]
        | disableUntilBacktrack => simp [Sys.settle, Sys.settled, bind, Except.bind, pure, Except.pure]
        | enableButIdempotent =>
          simp only [Sys.settle, vecAt_ok.2 hig, Sys.settled, bind, Except.bind, pure, Except.pure]
          by_cases hc : ¬ ig = true ∧ sr.tr.inferences.length ≠ 0
          · rw [if_pos hc]; simp [hc.1, hc.2]
          · rw [if_neg hc]
            simp
            simpa using hc

theorem box_set (w : Watches) (p x : Nat) : box { w with inbox := w.inbox.set p [] } x = if x = p then [] else box w x := by
  unfold box
  simp only [List.getElem?_set]
  by_cases h : p = x
  · subst h; simp only [if_true]; split <;> rfl
  · rw [if_neg h, if_neg (fun e => h e.symm)]

/-- A turn that is not a contradiction keeps the invariant. -/
theorem TurnSpec.loopOK {E : Engine σ μ} {s s' : Sys σ μ} {t : Sys.Turn} (h : TurnSpec n m E s t s') (hs : LoopOK n m E.progs.length s)
    (ht : t ≠ .contradiction) : LoopOK n m E.progs.length s' := by
  cases h with
  | contradiction => exact absurd rfl ht
  | skipped p q' hp hd =>
    exact ⟨⟨⟨hs.ok.run.1, hs.ok.run.2, hs.ok.run.3, hs.ok.run.4, hs.ok.run.5⟩, hp.inv, hs.ok.watches, hs.ok.inboxLen, hs.ok.pend⟩, hs.disNodup,
      fun x hx => (hp.done x).2 (.inl (hs.disDone x hx)), hs.sorted, hs.distinct, fun c hc => ⟨(hs.claimDone c hc).1, (hp.done _).2 (.inl (hs.claimDone c hc).2)⟩⟩
  | fine p q' f sc ig ps sr cs hp hd hf hsc hig hrun hfr hran =>
    have hrs : Runnable n m (s.started p q') := ⟨hs.ok.run.1, hs.ok.run.2, hs.ok.run.3, hs.ok.run.4, hs.ok.run.5⟩
    have hrr := hrs.frame hfr hran
    have hqq : sr.q = q' := hfr.q
    have hin : sr.w.inbox = s.w.inbox := hfr.inbox
    have hpe : sr.w.pending = s.w.pending := hfr.pending
    have hcl : sr.claims = s.claims := hfr.claims
    have htd : sr.toDisable = s.toDisable := hfr.toDisable
    have hinf : sr.tr.inferences = s.tr.inferences ++ cs := hran.inferences
    have hnd := hp.notDone hs.ok.inv
    have hdq : ∀ x, IsDone sr.q x ↔ IsDone s.q x ∨ x = p := by intro x; rw [hqq]; exact hp.done x
    refine ⟨⟨⟨hrr.1, hrr.2, hrr.3, hrr.4, hrr.5⟩, ?_, ?_, ?_, ?_⟩, ?_, ?_, ?_, ?_, ?_⟩
    · show Inv _ sr.q; rw [hqq]; exact hp.inv
    · exact hfr.watches.ok (np := E.progs.length) hs.ok.watches
    · show (sr.w.inbox.set p []).length = _; rw [List.length_set, hin]; exact hs.ok.inboxLen
    · intro x hx
      have hb := box_set sr.w p x
      have hx' : box { sr.w with inbox := sr.w.inbox.set p [] } x ≠ [] := hx
      rw [hb] at hx'
      show x ∈ sr.w.pending
      rw [hpe]
      split at hx'
      · exact absurd rfl hx'
      · refine hs.ok.pend x ?_
        unfold box at hx' ⊢; rw [hin] at hx'; exact hx'
    · show (if ps = PState.disableUntilBacktrack then sr.toDisable ++ [p] else sr.toDisable).Nodup
      rw [htd]
      split
      · rw [List.nodup_append]
        refine ⟨hs.disNodup, by simp, ?_⟩
        intro a ha b hb hab
        simp only [List.mem_singleton] at hb
        subst hb; subst hab
        exact hnd (hs.disDone _ ha)
      · exact hs.disNodup
    · show ∀ x ∈ (if ps = PState.disableUntilBacktrack then sr.toDisable ++ [p] else sr.toDisable), IsDone sr.q x
      rw [htd]
      intro x hx
      rw [hdq]
      split at hx
      · rcases List.mem_append.1 hx with hx | hx
        · exact .inl (hs.disDone x hx)
        · exact .inr (by simpa using hx)
      · exact .inl (hs.disDone x hx)
    · show (if ps = PState.enableButIdempotent ∧ ig = false ∧ sr.tr.inferences.length ≠ 0 then sr.claims ++ [(sr.tr.inferences.length, p)] else sr.claims).Pairwise _
      rw [hcl]
      split
      · rw [List.pairwise_append]
        refine ⟨hs.sorted, by simp, ?_⟩
        intro a ha b hb
        simp only [List.mem_singleton] at hb
        subst hb
        have := (hs.claimDone a ha).1
        simp only [hinf, List.length_append]; omega
      · exact hs.sorted
    · show ((if ps = PState.enableButIdempotent ∧ ig = false ∧ sr.tr.inferences.length ≠ 0 then sr.claims ++ [(sr.tr.inferences.length, p)] else sr.claims).map _).Nodup
      rw [hcl]
      split
      · rw [List.map_append, List.nodup_append]
        refine ⟨hs.distinct, by simp, ?_⟩
        intro a ha b hb hab
        simp only [List.map_cons, List.map_nil, List.mem_singleton] at hb
        subst hb; subst hab
        obtain ⟨c, hc, hce⟩ := List.mem_map.1 ha
        exact hnd (hce ▸ (hs.claimDone c hc).2)
      · exact hs.distinct
    · show ∀ c ∈ (if ps = PState.enableButIdempotent ∧ ig = false ∧ sr.tr.inferences.length ≠ 0 then sr.claims ++ [(sr.tr.inferences.length, p)] else sr.claims), c.1 ≤ sr.tr.inferences.length ∧ IsDone sr.q c.2
      have hold : ∀ c ∈ s.claims, c.1 ≤ sr.tr.inferences.length ∧ IsDone sr.q c.2 := by
        intro c hc
        have := hs.claimDone c hc
        refine ⟨?_, (hdq _).2 (.inl this.2)⟩
        rw [hinf, List.length_append]; omega
      rw [hcl]
      intro c hc
      split at hc
      · rcases List.mem_append.1 hc with hc | hc
        · exact hold c hc
        · simp only [List.mem_singleton] at hc
          subst hc
          exact ⟨Nat.le_refl _, (hdq _).2 (.inr rfl)⟩
      · exact hold c hc

end
end Gcs
