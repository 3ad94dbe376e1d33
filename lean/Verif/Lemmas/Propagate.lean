import Verif.Lemmas.Card

/-! The whole of `propagate`. -/

namespace Gcs
open IntervalSet Queue

section
variable {σ μ : Type} {n m : Nat} {R : Err → Prop}

/-- How the loop can end, given what holds (`I`) at its head. -/
inductive LoopEnd (n m : Nat) (E : Engine σ μ) (abort : Nat → Bool) (I : Sys σ μ → Prop) : Option Bool → Sys σ μ → Prop where
  | fuel (s : Sys σ μ) : LoopOK n m E.progs.length s → I s → LoopEnd n m E abort I none s
  | contradiction (s s' : Sys σ μ) : LoopOK n m E.progs.length s → I s → s.q.begin_ ≠ s.q.end_ → TurnSpec n m E s .contradiction s' → LoopEnd n m E abort I (some true) s'
  | drained (s s' : Sys σ μ) : LoopOK n m E.progs.length s → I s → EndSpec n m E s s' → I s' → s'.q.begin_ = s'.q.end_ → LoopEnd n m E abort I (some false) s'
  | aborted (s : Sys σ μ) (i : Nat) : LoopOK n m E.progs.length s → I s → abort i = true → i < s.clock → LoopEnd n m E abort I (some false) s

theorem LoopOK.clock {np : Nat} {s : Sys σ μ} (h : LoopOK n m np s) (k : Nat) : LoopOK n m np { s with clock := k } :=
  ⟨⟨⟨h.ok.run.1, h.ok.run.2, h.ok.run.3, h.ok.run.4, h.ok.run.5⟩, h.ok.inv, h.ok.watches, h.ok.inboxLen, h.ok.pend⟩, h.disNodup, h.disDone, h.sorted, h.distinct, h.claimDone⟩

/-- Induction over the turns of the loop. -/
theorem loop_ind {E : Engine σ μ} (hE : E.WF n m R) (abort : Nat → Bool) (I : Sys σ μ → Prop)
    (hEnd : ∀ s s', LoopOK n m E.progs.length s → I s → s.q.begin_ = s.q.end_ → EndSpec n m E s s' → I s')
    (hTurn : ∀ s t s', LoopOK n m E.progs.length s → I s → s.q.begin_ ≠ s.q.end_ → TurnSpec n m E s t s' → t ≠ .contradiction → I s')
    (hClock : ∀ s k, s.clock ≤ k → I s → I { s with clock := k }) :
    ∀ (fuel : Nat) (s : Sys σ μ), LoopOK n m E.progs.length s → I s →
      Thrown R (Sys.loop E abort fuel s) ∨ ∃ r s', Sys.loop E abort fuel s = .ok (r, s') ∧ LoopEnd n m E abort I r s'
  | 0, s, h, hi => .inr ⟨_, _, rfl, .fuel s h hi⟩
  | fuel + 1, s, h, hi => by
    have turn : ∀ s1 : Sys σ μ, LoopOK n m E.progs.length s1 → I s1 → s1.q.begin_ ≠ s1.q.end_ →
        Thrown R ((Sys.runOne E s1).bind (fun x => match x.1 with
          | .skipped => Sys.loop E abort fuel x.2
          | .contradiction => return (some true, x.2)
          | .fine =>
            let s2 := { x.2 with clock := x.2.clock + 1 }
            if abort x.2.clock then return (some false, s2) else Sys.loop E abort fuel s2)) ∨
        ∃ r s', ((Sys.runOne E s1).bind (fun x => match x.1 with
          | .skipped => Sys.loop E abort fuel x.2
          | .contradiction => return (some true, x.2)
          | .fine =>
            let s2 := { x.2 with clock := x.2.clock + 1 }
            if abort x.2.clock then return (some false, s2) else Sys.loop E abort fuel s2)) = .ok (r, s') ∧ LoopEnd n m E abort I r s' := by
      intro s1 h1 i1 hne
      rcases runOne_ok hE h1 hne with ⟨e, he, hr⟩ | ⟨t, s', he, ht⟩
      · left; rw [he]; exact ⟨e, rfl, hr⟩
      · rw [he]
        cases t with
        | contradiction => exact .inr ⟨_, _, rfl, .contradiction s1 s' h1 i1 hne ht⟩
        | skipped => exact loop_ind hE abort I hEnd hTurn hClock fuel s' (ht.loopOK h1 (by simp)) (hTurn _ _ _ h1 i1 hne ht (by simp))
        | fine =>
          have hok := ht.loopOK h1 (by simp)
          have hi' := hTurn _ _ _ h1 i1 hne ht (by simp)
          simp only [Except.bind]
          by_cases ha : abort s'.clock = true
          · rw [if_pos ha]
            exact .inr ⟨_, _, rfl, .aborted _ s'.clock (hok.clock _) (hClock _ _ (Nat.le_succ _) hi') ha (Nat.lt_succ_self _)⟩
          · rw [if_neg ha]
            exact loop_ind hE abort I hEnd hTurn hClock fuel _ (hok.clock _) (hClock _ _ (Nat.le_succ _) hi')
    unfold Sys.loop
    by_cases hb : s.q.begin_ = s.q.end_
    · rw [if_pos hb]
      rcases endRound_ok hE h with he | ⟨s1, he, h1⟩
      · left; rw [he]; exact ⟨.overflow, rfl, .inl rfl⟩
      · rw [he]
        have i1 := hEnd _ _ h hi hb h1
        show Thrown R (if s1.q.begin_ = s1.q.end_ then _ else _) ∨ ∃ r s', (if s1.q.begin_ = s1.q.end_ then _ else _) = _ ∧ _
        by_cases hb1 : s1.q.begin_ = s1.q.end_
        · rw [if_pos hb1]
          exact .inr ⟨_, _, rfl, .drained s s1 h hi h1 i1 hb1⟩
        · rw [if_neg hb1]
          exact turn s1 h1.loopOK i1 hb1
    · rw [if_neg hb]
      show Thrown R (if s.q.begin_ = s.q.end_ then _ else _) ∨ ∃ r s', (if s.q.begin_ = s.q.end_ then _ else _) = _ ∧ _
      rw [if_neg hb]
      exact turn s h hi hb

/-- Work left: an upper bound on the number of turns. -/
def potential (np : Nat) (s : Sys σ μ) : Nat := (Ready s.q).length + (np + 1) * (s.doms.card + s.tr.inferences.length)

theorem ready_length {np : Nat} {q : Queue} (h : Inv np q) : (Ready q).length = q.end_ - q.begin_ ∧ (Ready q).length ≤ np := by
  unfold Ready; have := h.ei; have := h.idn; have := h.qlen; simp; omega

theorem TurnSpec.potential {E : Engine σ μ} {s s' : Sys σ μ} {t : Sys.Turn} (h : TurnSpec n m E s t s') (ht : t ≠ .contradiction) :
    potential E.progs.length s' + 1 ≤ potential E.progs.length s := by
  cases h with
  | contradiction => exact absurd rfl ht
  | skipped p q' hp hd =>
    have := congrArg List.length hp.ready
    rw [List.length_cons] at this
    show (Ready q').length + _ + 1 ≤ (Ready s.q).length + _
    simp only [Sys.doms]; omega
  | fine p q' f sc ig ps sr cs hp hd hf hsc hig hrun hfr hran =>
    have h1 := congrArg List.length hp.ready
    rw [List.length_cons] at h1
    have hq : sr.q = q' := hfr.q
    have hinf : sr.tr.inferences = s.tr.inferences ++ cs := hran.inferences
    have hev : Evolve s.doms cs sr.doms := hran.evolve
    have hc := hev.card
    show (Ready sr.q).length + (E.progs.length + 1) * (sr.doms.card + sr.tr.inferences.length) + 1 ≤ (Ready s.q).length + (E.progs.length + 1) * (s.doms.card + s.tr.inferences.length)
    rw [hq, hinf, List.length_append]
    have : (E.progs.length + 1) * (sr.doms.card + (s.tr.inferences.length + cs.length)) ≤ (E.progs.length + 1) * (s.doms.card + s.tr.inferences.length) :=
      Nat.mul_le_mul_left _ (by omega)
    omega

theorem EndSpec.potential {E : Engine σ μ} {s s' : Sys σ μ} (h : EndSpec n m E s s') (hb : s'.q.begin_ ≠ s'.q.end_) :
    potential E.progs.length s' + 1 ≤ potential E.progs.length s := by
  have hd : s'.doms = s.doms := by rw [h.eq]; rfl
  have hi : s'.tr.inferences = [] := by rw [h.eq]
  have hr := ready_length h.ok.inv
  have hne : s.tr.inferences ≠ [] := by
    intro he
    obtain ⟨x, hx⟩ : ∃ x, x ∈ Ready s'.q := by
      cases hl : Ready s'.q with
      | nil =>
        rw [hl] at hr
        have := h.ok.inv.be
        simp at hr; omega
      | cons x r => exact ⟨x, by simp⟩
    rcases ((h.ready x).1 hx).2.2.2 with ⟨j, c, hj, _⟩ | ⟨_, v, y, _, ⟨⟨inf, hin, _⟩, _⟩, _⟩
    · rw [he] at hj; simp at hj
    · rw [he] at hin; simp at hin
  have hpos : 1 ≤ s.tr.inferences.length := List.length_pos_iff.2 hne
  unfold Gcs.potential
  rw [hd, hi]
  simp only [List.length_nil, Nat.add_zero]
  have := Nat.mul_le_mul_left (E.progs.length + 1) (show s.doms.card + 1 ≤ s.doms.card + s.tr.inferences.length by omega)
  rw [Nat.mul_add] at this
  omega

/-- With enough fuel the loop does not run out of it. -/
theorem loop_fuel {E : Engine σ μ} (hE : E.WF n m R) (abort : Nat → Bool) : ∀ (fuel : Nat) (s : Sys σ μ), LoopOK n m E.progs.length s →
    potential E.progs.length s < fuel → ∀ s', Sys.loop E abort fuel s ≠ .ok (none, s')
  | 0, s, _, hf => by omega
  | fuel + 1, s, h, hf => by
    have turn : ∀ s1 : Sys σ μ, LoopOK n m E.progs.length s1 → s1.q.begin_ ≠ s1.q.end_ → potential E.progs.length s1 ≤ potential E.progs.length s → ∀ s',
        ((Sys.runOne E s1).bind (fun x => match x.1 with
          | .skipped => Sys.loop E abort fuel x.2
          | .contradiction => return (some true, x.2)
          | .fine =>
            let s2 := { x.2 with clock := x.2.clock + 1 }
            if abort x.2.clock then return (some false, s2) else Sys.loop E abort fuel s2)) ≠ .ok (none, s') := by
      intro s1 h1 hne hp s'
      rcases runOne_ok hE h1 hne with ⟨e, he, hr⟩ | ⟨t, s2, he, ht⟩
      · rw [he]; intro hc; cases hc
      · rw [he]
        cases t with
        | contradiction => intro hc; cases hc
        | skipped =>
          have := ht.potential (by simp)
          exact loop_fuel hE abort fuel s2 (ht.loopOK h1 (by simp)) (by omega) s'
        | fine =>
          have := ht.potential (by simp)
          simp only [Except.bind]
          by_cases ha : abort s2.clock = true
          · rw [if_pos ha]; intro hc; cases hc
          · rw [if_neg ha]
            exact loop_fuel hE abort fuel _ ((ht.loopOK h1 (by simp)).clock _) (by show potential E.progs.length s2 < fuel; omega) s'
    intro s'
    unfold Sys.loop
    by_cases hb : s.q.begin_ = s.q.end_
    · rw [if_pos hb]
      rcases endRound_ok hE h with he | ⟨s1, he, h1⟩
      · rw [he]; intro hc; cases hc
      · rw [he]
        show (if s1.q.begin_ = s1.q.end_ then _ else _) ≠ _
        by_cases hb1 : s1.q.begin_ = s1.q.end_
        · rw [if_pos hb1]; intro hc; cases hc
        · rw [if_neg hb1]
          have := h1.potential hb1
          exact turn s1 h1.loopOK hb1 (by omega) s'
    · rw [if_neg hb]
      show (if s.q.begin_ = s.q.end_ then _ else _) ≠ _
      rw [if_neg hb]
      exact turn s h hb (Nat.le_refl _) s'

/-! ## Before the loop -/

/-- What has to hold when `propagate` is called with the guesses `gs`. At the root (`gs = []`) the queue is built from nothing. -/
structure CallOK (n m : Nat) (E : Engine σ μ) (gs : List Lit) (s : Sys σ μ) : Prop where
  domsOK : DomsOK s.doms
  domsLen : s.doms.length = n
  varsNe : s.st.vars ≠ []
  cstatesLen : (s.st.cstates.headD []).length = m
  epochs : s.st.onBacktracks ≠ []
  watches : WatchesOK n E.progs.length s.w
  boxes : ∀ p, box s.w p = []
  inv : gs ≠ [] → Inv E.progs.length s.q

/-- What is set up before the loop. -/
structure PrepSpec (n m : Nat) (E : Engine σ μ) (gs : List Lit) (s s' : Sys σ μ) : Prop where
  ok : LoopOK n m E.progs.length s'
  eq : s' = { s with st := s'.st, q := s'.q, w := s'.w, claims := [], trace := [], tr := .fresh, toDisable := [] }
  st : ∃ e r, s.st.onBacktracks = e :: r ∧
    s'.st = { s.st with onBacktracks := (e ++ [.undoWatches s.w.trail.length s.w.wsTrail.length, .restoreIdle s'.q.idle]) :: r }
  steps : WSteps n E.progs.length s.w s'.w
  wstate : s'.w.wstate = s.w.wstate
  notDone : ∀ x, ¬ IsDone s'.q x
  root : gs = [] → Ready s'.q = (List.range E.progs.length).filter (fun p => !(E.permDisabled[p]?.getD false)) ∧
    ∀ x, IsDisabled s'.q x ↔ E.permDisabled[x]? = some true
  child : gs ≠ [] → s'.q.idle = s.q.idle ∧ (∀ j : Nat, s.q.idle ≤ j → s'.q.queue[j]? = s.q.queue[j]?) ∧ (∀ x, IsDisabled s'.q x ↔ IsDisabled s.q x) ∧
    ∀ x, x ∈ Ready s'.q ↔ x < E.progs.length ∧ ¬ IsDisabled s.q x ∧
      ((∃ c ∈ seeds gs, Sub E x c.1 c.2) ∨ ∃ v, ∃ y ∈ armed s.w v, Hit s.doms (seeds gs) v y ∧ y.owner = x)
  fired : ∀ v, ∃ f, (armed s'.w v ++ f).Perm (armed s.w v) ∧ (∀ x ∈ f, Hit s.doms (seeds gs) v x ∧ x.payload ∈ box s'.w x.owner) ∧
    ∀ x ∈ armed s'.w v, ¬ Hit s.doms (seeds gs) v x
  news : ∀ p, ∀ y ∈ box s'.w p, ∃ v, ∃ x ∈ armed s.w v, Hit s.doms (seeds gs) v x ∧ x.owner = p ∧ x.payload = y

theorem PrepSpec.doms {E : Engine σ μ} {gs : List Lit} {s s' : Sys σ μ} (h : PrepSpec n m E gs s s') : s'.doms = s.doms := by
  obtain ⟨e, r, _, h2⟩ := h.st
  unfold Sys.doms; rw [h2]

theorem onBacktrack_cons {κ : Type} {st : State σ κ} {e : List κ} {r : List (List κ)} (h : st.onBacktracks = e :: r) (k : κ) :
    st.onBacktrack k = .ok { st with onBacktracks := (e ++ [k]) :: r } := by unfold State.onBacktrack; rw [h]

theorem prepare_ok {E : Engine σ μ} (hE : E.WF n m R) {gs : List Lit} {s : Sys σ μ} (h : CallOK n m E gs s) :
    RightOrOverflow (Sys.prepare E gs s) (PrepSpec n m E gs s) := by
  obtain ⟨e, r, her⟩ := List.exists_cons_of_ne_nil h.epochs
  unfold Sys.prepare
  rw [onBacktrack_cons her]
  have hibx : ∀ p, box { s.w with inbox := s.w.inbox.take E.progs.length ++ List.replicate (E.progs.length - s.w.inbox.length) [] } p = [] := by
    intro p
    have hb := h.boxes p
    unfold box at hb ⊢
    simp only [List.getElem?_append, List.getElem?_take, List.getElem?_replicate, List.length_take]
    repeat' split
    all_goals first | rfl | exact hb
  have hlen : (s.w.inbox.take E.progs.length ++ List.replicate (E.progs.length - s.w.inbox.length) ([] : List Nat)).length = E.progs.length := by
    simp; omega
  generalize hib : s.w.inbox.take E.progs.length ++ List.replicate (E.progs.length - s.w.inbox.length) [] = ib at hibx hlen
  have hstep : WSteps n E.progs.length s.w { s.w with inbox := ib } := .snoc (.refl _) (.box s.w ib s.w.pending)
  cases gs with
  | nil =>
    obtain ⟨q', hq, hinv, hrd, hni, hnd, hdis⟩ := Queue.rebuild_spec s.q E.permDisabled
    right
    refine ⟨{ s with
        st := { s.st with onBacktracks := (e ++ [.undoWatches s.w.trail.length s.w.wsTrail.length, .restoreIdle q'.idle]) :: r }
        q := q', w := { s.w with inbox := ib }, claims := [], trace := [], tr := .fresh, toDisable := [] }, ?_, ?_⟩
    · simp [bind, Except.bind, hq, State.onBacktrack, pure, Except.pure, hib]
    · refine { ok := ⟨⟨⟨h.domsOK, h.domsLen, h.varsNe, h.cstatesLen, rfl⟩, ?_, h.watches, hlen, ?_⟩, List.nodup_nil, by simp, by simp, by simp, by simp⟩
               eq := rfl, st := ⟨e, r, her, rfl⟩, steps := hstep, wstate := rfl, notDone := hnd, root := fun _ => ⟨?_, hdis⟩, child := fun hc => absurd rfl hc, fired := ?_, news := ?_ }
      · rw [← hE.permLen]; exact hinv
      · intro p hp; exact absurd (hibx p) hp
      · rw [← hE.permLen]; exact hrd
      · intro v; exact ⟨[], by simp [armed], by simp, by simp [Hit, seeds]⟩
      · intro p y hy; have hy' : y ∈ box { s.w with inbox := ib } p := hy; rw [hibx] at hy'; simp at hy'
  | cons g gs =>
    have hinv := h.inv (by simp)
    have hrest : Inv E.progs.length s.q.restart := ⟨⟨hinv.qlen, hinv.llen, hinv.fwd, hinv.bwd⟩, Nat.le_refl 0, Nat.zero_le _, hinv.idn⟩
    show RightOrOverflow (Except.bind (Sys.seed E (g :: gs) _) _) _
    let s1 : Sys σ μ := { s with
      st := { s.st with onBacktracks := (e ++ [.undoWatches s.w.trail.length s.w.wsTrail.length]) :: r }
      q := s.q.restart, w := { s.w with inbox := ib }, claims := [], trace := [], tr := .fresh }
    have hok1 : SysOK n m E.progs.length s1 :=
      ⟨⟨h.domsOK, h.domsLen, h.varsNe, h.cstatesLen, rfl⟩, hrest, h.watches, hlen, fun p hp => absurd (hibx p) hp⟩
    show RightOrOverflow (Except.bind (Sys.seed E (g :: gs) s1) _) _
    refine RightOrOverflow.bind (seed_spec hE (g :: gs) hok1) fun s2 h2 => ?_
    have heq := h2.qw.eq
    have hst : s2.st = s1.st := by rw [heq]
    rw [hst]
    right
    have hready0 : Ready s.q.restart = [] := by simp [Ready, Queue.restart]
    have hidle : ∀ x, IsIdle s.q.restart x ↔ x < E.progs.length ∧ ¬ IsDisabled s.q x := by
      intro x
      rw [idle_iff hrest]
      have h1 : ¬ IsDone s.q.restart x := not_done_restart s.q x
      have h2 : IsDisabled s.q.restart x ↔ IsDisabled s.q x := Iff.rfl
      rw [hready0, h2]
      simp [h1]
    refine ⟨{ s2 with st := { s1.st with onBacktracks := ((e ++ [.undoWatches s.w.trail.length s.w.wsTrail.length]) ++ [.restoreIdle s2.q.idle]) :: r }, toDisable := [] }, ?_, ?_⟩
    · simp [Except.bind, State.onBacktrack, pure, Except.pure, s1, bind]
    · refine { ok := ⟨⟨⟨h.domsOK, h.domsLen, h.varsNe, h.cstatesLen, h2.ok.run.fine⟩, h2.ok.inv, h2.ok.watches, h2.ok.inboxLen, h2.ok.pend⟩, List.nodup_nil, by simp, ?_, ?_, ?_⟩
               eq := ?_, st := ⟨e, r, her, by simp [s1]⟩, steps := hstep.trans h2.qw.steps, wstate := h2.qw.wstate, notDone := ?_, root := fun hc => absurd hc (by simp), child := fun _ => ⟨?_, ?_, ?_, ?_⟩, fired := ?_, news := ?_ }
      · rw [heq]; simp [s1]
      · rw [heq]; simp [s1]
      · rw [heq]; simp [s1]
      · rw [heq]
      · intro x hx; exact not_done_restart s.q x ((h2.woken.done hrest x).1 hx)
      · exact h2.woken.idle
      · intro j hj; exact h2.woken.keep j (.inr hj)
      · intro x; exact h2.woken.disabled x
      · intro x
        show x ∈ Ready s2.q ↔ _
        rw [h2.woken.ready]
        show x ∈ Ready s.q.restart ∨ IsIdle s.q.restart x ∧ _ ↔ _
        rw [hready0, hidle]
        constructor
        · rintro (a | ⟨⟨a, b⟩, c⟩)
          · cases a
          · exact ⟨a, b, c⟩
        · rintro ⟨a, b, c⟩; exact .inr ⟨⟨a, b⟩, c⟩
      · exact h2.fired
      · intro p y hy
        rcases h2.news p y hy with h | h
        · have hy' : y ∈ box { s.w with inbox := ib } p := h
          rw [hibx] at hy'; simp at hy'
        · exact h

theorem Sys.turns_potential {E : Engine σ μ} {gs : List Lit} {s s1 : Sys σ μ} (h : PrepSpec n m E gs s s1) : potential E.progs.length s1 < Sys.turns E s1 := by
  have := (ready_length h.ok.ok.inv).2
  have hi : s1.tr.inferences = [] := by rw [h.eq]; rfl
  unfold potential turns Doms.card
  rw [hi]
  simp only [List.length_nil, Nat.add_zero]
  omega

/-- The inbox emptied at the end of `propagate`. -/
def Sys.flushed (s : Sys σ μ) : Sys σ μ := { s with w := { s.w with inbox := Sys.dropPending s.w.pending s.w.inbox, pending := [] } }

/-- Induction over a call of `propagate`, from before the first turn to its end. -/
theorem propagate_ind {E : Engine σ μ} (hE : E.WF n m R) (abort : Nat → Bool) {gs : List Lit} {s : Sys σ μ} (h : CallOK n m E gs s) (I : Sys σ μ → Prop)
    (hPrep : ∀ s1, PrepSpec n m E gs s s1 → I s1)
    (hEnd : ∀ s s', LoopOK n m E.progs.length s → I s → s.q.begin_ = s.q.end_ → EndSpec n m E s s' → I s')
    (hTurn : ∀ s t s', LoopOK n m E.progs.length s → I s → s.q.begin_ ≠ s.q.end_ → TurnSpec n m E s t s' → t ≠ .contradiction → I s')
    (hClock : ∀ s k, s.clock ≤ k → I s → I { s with clock := k }) :
    Thrown R (Sys.propagate E gs abort s) ∨
    ∃ b s', Sys.propagate E gs abort s = .ok (b, s'.flushed) ∧ LoopEnd n m E abort I (some (!b)) s' := by
  unfold Sys.propagate
  rcases prepare_ok hE h with e | ⟨s1, e, h1⟩
  · left; rw [e]; exact ⟨.overflow, rfl, .inl rfl⟩
  · rw [e]
    show Thrown R (Except.bind (Sys.loop E abort (Sys.turns E s1) s1) _) ∨ ∃ b s', Except.bind (Sys.loop E abort (Sys.turns E s1) s1) _ = _ ∧ _
    have hf := loop_fuel hE abort (Sys.turns E s1) s1 h1.ok (Sys.turns_potential h1)
    rcases loop_ind hE abort I hEnd hTurn hClock (Sys.turns E s1) s1 h1.ok (hPrep s1 h1) with ⟨e, he, hr⟩ | ⟨r, s2, he, h2⟩
    · left; rw [he]; exact ⟨e, rfl, hr⟩
    · right
      cases r with
      | none => exact absurd he (hf s2)
      | some b =>
        rw [he]
        exact ⟨!b, s2, rfl, by rw [Bool.not_not]; exact h2⟩

end
end Gcs
