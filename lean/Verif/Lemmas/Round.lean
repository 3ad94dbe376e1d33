import Verif.Lemmas.Engine

/-! Replaying inferences, ending a round, and one turn of the loop. -/

namespace Gcs
open IntervalSet Queue

section
variable {σ μ : Type} {n m np : Nat} {R : Err → Prop}

/-- Everything about an engine that `install` guarantees, for propagation functions that play by the rules. -/
structure Engine.WF (n m : Nat) (R : Err → Prop) (E : Engine σ μ) : Prop where
  ignoredLen : E.claimsIgnored.length = E.progs.length
  permLen : E.permDisabled.length = E.progs.length
  scopeLen : E.scope.length = E.progs.length
  trig : ∀ v p m, (p, m) ∈ Sys.triggersOf E v → p < E.progs.length
  progs : ∀ f ∈ E.progs, f.Safe n m R

/-- Propagator `p` subscribes to changes of kind `inf` of variable `v`. -/
def Sub (E : Engine σ μ) (p v : Nat) (inf : Inference) : Prop := ∃ mk, (p, mk) ∈ Sys.triggersOf E v ∧ inf ∈ mk

/-- Watches armed on a variable. -/
def armed (w : Watches) (v : Nat) : List RefinedWatch := w.byVar[v]?.getD []
/-- Payloads waiting for a propagator. -/
def box (w : Watches) (p : Nat) : List Nat := w.inbox[p]?.getD []

/-- The literal holds whatever values the variables take. -/
def Entailed (d : Doms) (l : Lit) : Prop := ∀ a, Within d a → l.holds a

/-- One of the inferences `cs` makes a watch on `v` be looked at, and its literal is entailed. -/
def Hit (d : Doms) (cs : List (Nat × Inference)) (v : Nat) (x : RefinedWatch) : Prop := (∃ inf, (v, inf) ∈ cs ∧ inf ∈ x.mask) ∧ Entailed d x.literal

/-- Invariant of the system between steps of the engine. -/
structure SysOK (n m np : Nat) (s : Sys σ μ) : Prop where
  run : Runnable n m s
  inv : Inv np s.q
  watches : WatchesOK n np s.w
  inboxLen : s.w.inbox.length = np
  pend : ∀ p, box s.w p ≠ [] → p ∈ s.w.pending

/-- Only the queue and the watches changed. -/
structure QW (n np : Nat) (s s' : Sys σ μ) : Prop where
  eq : s' = { s with q := s'.q, w := s'.w }
  steps : WSteps n np s.w s'.w
  wstate : s'.w.wstate = s.w.wstate

theorem QW.refl (s : Sys σ μ) : QW n np s s := ⟨rfl, .refl _, rfl⟩
theorem QW.trans {a b c : Sys σ μ} (h : QW n np a b) (k : QW n np b c) : QW n np a c :=
  ⟨by rw [k.eq]; rw [h.eq], h.steps.trans k.steps, k.wstate.trans h.wstate⟩
theorem QW.doms {s s' : Sys σ μ} (h : QW n np s s') : s'.doms = s.doms := by rw [h.eq]; rfl
theorem QW.runnable {s s' : Sys σ μ} (h : QW n np s s') (r : Runnable n m s) : Runnable n m s' := by
  rw [h.eq]; exact ⟨r.1, r.2, r.3, r.4, r.5⟩

/-- What requeueing for the inferences `cs` does. -/
structure ReplaySpec (n m np : Nat) (E : Engine σ μ) (cs : List (Nat × Inference)) (s s' : Sys σ μ) : Prop where
  qw : QW n np s s'
  ok : SysOK n m np s'
  woken : Woken np s.q s'.q (fun p => (∃ c ∈ cs, Sub E p c.1 c.2) ∨ ∃ v, ∃ x ∈ armed s.w v, Hit s.doms cs v x ∧ x.owner = p)
  fired : ∀ v, ∃ f, (armed s'.w v ++ f).Perm (armed s.w v) ∧ (∀ x ∈ f, Hit s.doms cs v x ∧ x.payload ∈ box s'.w x.owner) ∧
    ∀ x ∈ armed s'.w v, ¬ Hit s.doms cs v x
  boxes : ∀ p, box s.w p <+: box s'.w p
  news : ∀ p, ∀ y ∈ box s'.w p, y ∈ box s.w p ∨ ∃ v, ∃ x ∈ armed s.w v, Hit s.doms cs v x ∧ x.owner = p ∧ x.payload = y

theorem ReplaySpec.refl {E : Engine σ μ} {s : Sys σ μ} (h : SysOK n m np s) : ReplaySpec n m np E [] s s where
  qw := .refl s
  ok := h
  woken := (Woken.refl h.inv).congr (by simp [Hit])
  fired v := ⟨[], by simp, by simp, by simp [Hit]⟩
  boxes _ := List.prefix_refl _
  news _ _ h := .inl h

theorem ReplaySpec.trans {E : Engine σ μ} {s s1 s2 : Sys σ μ} {cs ds} (h0 : SysOK n m np s) (h : ReplaySpec n m np E cs s s1) (k : ReplaySpec n m np E ds s1 s2) :
    ReplaySpec n m np E (cs ++ ds) s s2 where
  qw := h.qw.trans k.qw
  ok := k.ok
  woken := by
    refine (h.woken.trans h0.inv k.woken).congr fun p => ?_
    have hd := h.qw.doms
    constructor
    · rintro ((⟨c, hc, hs⟩ | ⟨v, x, hx, hh, ho⟩) | (⟨c, hc, hs⟩ | ⟨v, x, hx, hh, ho⟩))
      · exact .inl ⟨c, by simp [hc], hs⟩
      · obtain ⟨⟨inf, h1, h2⟩, h3⟩ := hh
        exact .inr ⟨v, x, hx, ⟨⟨inf, by simp [h1], h2⟩, h3⟩, ho⟩
      · exact .inl ⟨c, by simp [hc], hs⟩
      · obtain ⟨⟨inf, h1, h2⟩, h3⟩ := hh
        obtain ⟨f, hf, _, _⟩ := h.fired v
        exact .inr ⟨v, x, hf.mem_iff.1 (by simp [hx]), ⟨⟨inf, by simp [h1], h2⟩, hd ▸ h3⟩, ho⟩
    · rintro (⟨c, hc, hs⟩ | ⟨v, x, hx, ⟨⟨inf, h1, h2⟩, h3⟩, ho⟩)
      · rcases List.mem_append.1 hc with hc | hc
        · exact .inl (.inl ⟨c, hc, hs⟩)
        · exact .inr (.inl ⟨c, hc, hs⟩)
      · obtain ⟨f, hf, hf2, _⟩ := h.fired v
        rcases List.mem_append.1 (hf.mem_iff.2 hx) with hx1 | hx1
        · rcases List.mem_append.1 h1 with h1 | h1
          · exact .inl (.inr ⟨v, x, hx, ⟨⟨inf, h1, h2⟩, h3⟩, ho⟩)
          · exact .inr (.inr ⟨v, x, hx1, ⟨⟨inf, h1, h2⟩, hd ▸ h3⟩, ho⟩)
        · exact .inl (.inr ⟨v, x, hx, (hf2 x hx1).1, ho⟩)
  fired v := by
    have hd := h.qw.doms
    obtain ⟨f, h1, h2, h3⟩ := h.fired v
    obtain ⟨g, k1, k2, k3⟩ := k.fired v
    refine ⟨g ++ f, ?_, ?_, ?_⟩
    · rw [← List.append_assoc]; exact (k1.append_right f).trans h1
    · intro x hx
      rcases List.mem_append.1 hx with hx | hx
      · obtain ⟨⟨⟨inf, a, b⟩, c⟩, d⟩ := k2 x hx
        exact ⟨⟨⟨inf, by simp [a], b⟩, hd ▸ c⟩, d⟩
      · obtain ⟨⟨⟨inf, a, b⟩, c⟩, d⟩ := h2 x hx
        exact ⟨⟨⟨inf, by simp [a], b⟩, c⟩, (k.boxes _).subset d⟩
    · rintro x hx ⟨⟨inf, a, b⟩, c⟩
      rcases List.mem_append.1 a with a | a
      · exact h3 x (k1.mem_iff.1 (by simp [hx])) ⟨⟨inf, a, b⟩, c⟩
      · exact k3 x hx ⟨⟨inf, a, b⟩, hd.symm ▸ c⟩
  boxes p := (h.boxes p).trans (k.boxes p)
  news p y hy := by
    rcases k.news p y hy with hy | ⟨v, x, hx, ⟨⟨inf, a, b⟩, c⟩, d⟩
    · rcases h.news p y hy with hy | ⟨v, x, hx, ⟨⟨inf, a, b⟩, c⟩, d⟩
      · exact .inl hy
      · exact .inr ⟨v, x, hx, ⟨⟨inf, by simp [a], b⟩, c⟩, d⟩
    · obtain ⟨f, hf, _, _⟩ := h.fired v
      exact .inr ⟨v, x, hf.mem_iff.1 (by simp [hx]), ⟨⟨inf, by simp [a], b⟩, h.qw.doms ▸ c⟩, d⟩

/-- Delivering fired watches. -/
theorem deliver_spec (v : Nat) : ∀ (xs : List RefinedWatch) (s : Sys σ μ), Inv np s.q → s.w.inbox.length = np → (∀ p, box s.w p ≠ [] → p ∈ s.w.pending) →
    (∀ x ∈ xs, x.owner < np) →
    ∃ s', Sys.deliver v xs s = .ok s' ∧ Woken np s.q s'.q (fun p => ∃ x ∈ xs, x.owner = p) ∧
      s' = { s with q := s'.q, w := { s.w with inbox := s'.w.inbox, pending := s'.w.pending, trail := (xs.map (fun x => ⟨false, v, x⟩)).reverse ++ s.w.trail } } ∧
      s'.w.inbox.length = np ∧ (∀ p, box s'.w p ≠ [] → p ∈ s'.w.pending) ∧
      (∀ p, box s'.w p = box s.w p ++ (xs.filter (fun x => x.owner = p)).map (·.payload))
  | [], s, hq, hl, hp, _ => ⟨s, rfl, (Woken.refl hq).congr (by simp), rfl, hl, hp, by simp⟩
  | x :: xs, s, hq, hl, hp, ho => by
    have hx := ho x (by simp)
    obtain ⟨q1, e1, w1⟩ := enqueue_woken hq hx
    have hb : s.w.inbox[x.owner]? = some (box s.w x.owner) := by unfold box; rw [List.getElem?_eq_getElem (by omega)]; rfl
    have hbox : ∀ p, (s.w.inbox.set x.owner (box s.w x.owner ++ [x.payload]))[p]?.getD [] = box s.w p ++ if x.owner = p then [x.payload] else [] := by
      intro p
      rw [List.getElem?_set]
      by_cases h : x.owner = p
      · subst h; simp [hl, hx]
      · simp [h]; rfl
    obtain ⟨s2, e2, w2, q2, l2, p2, b2⟩ := deliver_spec v xs
      { s with q := q1, w := { s.w with
          pending := if (box s.w x.owner).isEmpty then s.w.pending ++ [x.owner] else s.w.pending
          inbox := s.w.inbox.set x.owner (box s.w x.owner ++ [x.payload])
          trail := ⟨false, v, x⟩ :: s.w.trail } } w1.inv (by simpa using hl) (by
        intro p hne
        replace hne : (s.w.inbox.set x.owner (box s.w x.owner ++ [x.payload]))[p]?.getD [] ≠ [] := hne
        rw [hbox] at hne
        by_cases h : x.owner = p
        · subst h
          by_cases he : (box s.w x.owner).isEmpty
          · simp [he]
          · simp only [he, Bool.false_eq_true, if_false]
            exact hp _ (by simpa using he)
        · simp only [h, if_false, List.append_nil] at hne
          have := hp p hne
          simp only
          split
          · simp [this]
          · exact this) (fun y hy => ho y (by simp [hy]))
    refine ⟨s2, ?_, (w1.trans hq w2).congr ?_, ?_, l2, p2, ?_⟩
    · unfold Sys.deliver
      rw [vecAt_ok.2 hb]
      show ((s.q.enqueueIfIdle x.owner).bind _ : Chk _) = _
      rw [e1]
      exact e2
    · intro p
      simp [eq_comm]
    · rw [q2]; simp
    · intro p
      rw [b2]
      show (s.w.inbox.set x.owner (box s.w x.owner ++ [x.payload]))[p]?.getD [] ++ _ = _
      rw [hbox, List.filter_cons]
      by_cases h : x.owner = p <;> simp [h]

theorem fires_spec {d : Doms} {inf : Inference} {x : RefinedWatch} (hd : DomsOK d) (hl : x.literal.Valid d.length) (hr : x.literal.RangeOK) :
    RightOrOverflow (Sys.fires d inf x) (fun b => b = true ↔ inf ∈ x.mask ∧ Entailed d x.literal) := by
  unfold Sys.fires
  by_cases h : inf ∈ x.mask
  · rw [if_pos h]
    rcases testLiteral_spec d x.literal hd hl hr with e | ⟨t, e, k⟩
    · rw [e]; exact .inl rfl
    · rw [e]; refine .inr ⟨_, rfl, ?_⟩
      show decide _ = true ↔ _
      rw [decide_eq_true_iff, k.1]; simp [h, Entailed]
  · rw [if_neg h]; exact .inr ⟨_, rfl, by simp [h]⟩

/-- Requeueing for one inference. -/
theorem requeue_spec {E : Engine σ μ} (hE : E.WF n m R) {s : Sys σ μ} (h : SysOK n m E.progs.length s) (v : Nat) (inf : Inference) :
    RightOrOverflow (Sys.requeue E v inf s) (ReplaySpec n m E.progs.length E [(v, inf)] s) := by
  obtain ⟨q1, e1, w1⟩ := wake_spec inf (fun _ => false) (Sys.triggersOf E v) h.inv (fun t ht => hE.trig v t.1 t.2 ht)
  unfold Sys.requeue
  rw [e1]
  show RightOrOverflow (Sys.fireWatches v inf { s with q := q1 }) _
  unfold Sys.fireWatches
  cases hb : s.w.byVar[v]? with
  | none =>
    simp only
    have ha : armed s.w v = [] := by unfold armed; rw [hb]; rfl
    refine .inr ⟨_, rfl, ⟨rfl, .refl _, rfl⟩, ⟨⟨h.run.1, h.run.2, h.run.3, h.run.4, h.run.5⟩, w1.inv, h.watches, h.inboxLen, h.pend⟩, ?_, ?_, fun _ => List.prefix_refl _, fun _ _ h => .inl h⟩
    · refine w1.congr fun p => ?_
      simp only [List.mem_singleton, exists_eq_left, true_and]
      constructor
      · exact .inl
      · rintro (a | ⟨u, x, hx, ⟨⟨i, hi, _⟩, _⟩, _⟩)
        · exact a
        · have : u = v := by simp at hi; exact hi.1
          subst this
          rw [ha] at hx; simp at hx
    · intro u
      refine ⟨[], by simp, by simp, ?_⟩
      rintro x hx ⟨⟨i, hi, _⟩, _⟩
      have : u = v := by simp at hi; exact hi.1
      subst this
      have hx' : x ∈ armed s.w u := hx
      rw [ha] at hx'; simp at hx'
  | some ws =>
    simp only
    have ha : armed s.w v = ws := by unfold armed; rw [hb]; rfl
    have hd : DomsOK s.doms := h.run.domsOK
    have hf : ∀ x ∈ ws, RightOrOverflow (Sys.fires s.doms inf x) (fun b => b = true ↔ inf ∈ x.mask ∧ Entailed s.doms x.literal) := by
      intro x hx
      obtain ⟨a1, a2, _⟩ := h.watches v ws x hb hx
      exact fires_spec hd (h.run.domsLen.symm ▸ a1) a2
    show RightOrOverflow ((Watches.removeLoop (Sys.fires s.doms inf) 0 ws).bind _) _
    cases hr : Watches.removeLoop (Sys.fires s.doms inf) 0 ws with
    | error e =>
      obtain ⟨x, hx, he⟩ := Watches.removeLoop_error _ _ _ hr
      rcases hf x hx with k | ⟨b, k, _⟩
      · rw [k] at he; cases he; exact .inl rfl
      · rw [k] at he; cases he
    | ok r =>
      have hok := Watches.removeLoop_ok _ _ _ hr
      have hin : ∀ x ∈ r.2, x ∈ ws := fun x hx => hok.1.mem_iff.1 (by simp [hx])
      have hin1 : ∀ x ∈ r.1, x ∈ ws := fun x hx => hok.1.mem_iff.1 (by simp [hx])
      obtain ⟨s2, e2, w2, q2, l2, p2, b2⟩ := deliver_spec (σ := σ) (μ := μ) (np := E.progs.length) v r.2
        { s with q := q1, w := { s.w with byVar := s.w.byVar.set v r.1 } } w1.inv h.inboxLen h.pend
        (fun x hx => (h.watches v ws x hb (hin x hx)).2.2.2.1)
      refine .inr ⟨s2, e2, ?_⟩
      have hhit : ∀ x ∈ ws, (Sys.fires s.doms inf x = .ok true ↔ Hit s.doms [(v, inf)] v x) := by
        intro x hx
        rcases hf x hx with k | ⟨b, k, kb⟩
        · constructor
          · intro e; rw [k] at e; cases e
          · intro hh
            -- an overflow would have stopped the loop
            exfalso
            rcases List.mem_append.1 (hok.1.mem_iff.2 hx) with h1 | h1
            · have := hok.2.2.2 x (by simpa using h1); rw [k] at this; cases this
            · have := hok.2.2.1 x h1; rw [k] at this; cases this
        · rw [k]
          constructor
          · intro e; cases e
            have := kb.1 rfl
            exact ⟨⟨inf, by simp, this.1⟩, this.2⟩
          · rintro ⟨⟨i, hi, h1⟩, h2⟩
            simp only [List.mem_singleton, Prod.mk.injEq, true_and] at hi; subst hi
            rw [kb.2 ⟨h1, h2⟩]
      have hsteps : WSteps n E.progs.length s.w s2.w := by
        have hwq : s2.w = { s.w with byVar := s.w.byVar.set v r.1, inbox := s2.w.inbox, pending := s2.w.pending, trail := (r.2.map (fun x => ⟨false, v, x⟩)).reverse ++ s.w.trail } := by
          conv => lhs; rw [q2]
        have h1 : WStep n E.progs.length s.w _ := .remove s.w v ws _ r hb hr
        have h2 : WStep n E.progs.length _ _ := .box { s.w with byVar := s.w.byVar.set v r.1, trail := (r.2.map (fun x => ⟨false, v, x⟩)).reverse ++ s.w.trail } s2.w.inbox s2.w.pending
        rw [hwq]
        exact .snoc (.one h1) h2
      have hqw1 : s2 = { s with q := s2.q, w := s2.w } := by
        conv => lhs; rw [q2]
        conv => rhs; rw [q2]
      have hqw : QW n E.progs.length s s2 := ⟨hqw1, hsteps, by rw [q2]⟩
      have harm : ∀ u, armed s2.w u = if u = v then r.1 else armed s.w u := by
        intro u
        have : s2.w.byVar = s.w.byVar.set v r.1 := by rw [q2]
        unfold armed
        rw [this, List.getElem?_set]
        have hlt : v < s.w.byVar.length := (List.getElem?_eq_some_iff.1 hb).1
        by_cases hu : v = u
        · subst hu; simp [hlt]
        · rw [if_neg hu, if_neg (fun e => hu e.symm)]
      refine ⟨hqw, ⟨hqw.runnable h.run, w2.inv, hsteps.ok h.watches, l2, p2⟩, ?_, ?_, ?_, ?_⟩
      · refine (w1.trans h.inv w2).congr fun p => ?_
        simp only [List.mem_singleton, exists_eq_left, true_and]
        constructor
        · rintro (a | ⟨x, hx, ho⟩)
          · exact .inl a
          · exact .inr ⟨v, x, ha ▸ hin x hx, (hhit x (hin x hx)).1 (hok.2.2.1 x hx), ho⟩
        · rintro (a | ⟨u, x, hx, hh, ho⟩)
          · exact .inl a
          · have hu : u = v := by obtain ⟨⟨i, hi, _⟩, _⟩ := hh; simp at hi; exact hi.1
            subst hu
            rw [ha] at hx
            have ht := (hhit x hx).2 hh
            rcases List.mem_append.1 (hok.1.mem_iff.2 hx) with h1 | h1
            · have := hok.2.2.2 x (by simpa using h1); rw [ht] at this; cases this
            · exact .inr ⟨x, h1, ho⟩
      · intro u
        by_cases hu : u = v
        · subst hu
          refine ⟨r.2, ?_, ?_, ?_⟩
          · rw [harm, if_pos rfl, ha]; exact hok.1
          · intro x hx
            refine ⟨(hhit x (hin x hx)).1 (hok.2.2.1 x hx), ?_⟩
            rw [b2]
            refine List.mem_append_right _ (List.mem_map.2 ⟨x, List.mem_filter.2 ⟨hx, by simp⟩, rfl⟩)
          · rw [harm, if_pos rfl]
            intro x hx hh
            have ht := (hhit x (hin1 x hx)).2 hh
            have := hok.2.2.2 x (by simpa using hx); rw [ht] at this; cases this
        · refine ⟨[], by rw [harm, if_neg hu]; simp, by simp, ?_⟩
          rintro x _ ⟨⟨i, hi, _⟩, _⟩
          simp at hi; exact hu hi.1
      · intro p
        rw [b2]; exact List.prefix_append ..
      · intro p y hy
        rw [b2] at hy
        rcases List.mem_append.1 hy with hy | hy
        · exact .inl hy
        · obtain ⟨x, hx, e⟩ := List.mem_map.1 hy
          have := List.mem_filter.1 hx
          exact .inr ⟨v, x, ha ▸ hin x this.1, (hhit x (hin x this.1)).1 (hok.2.2.1 x this.1), by simpa using this.2, e⟩

theorem RightOrOverflow.mono {α : Type} {x : Chk α} {P Q : α → Prop} (h : RightOrOverflow x P) (k : ∀ a, P a → Q a) : RightOrOverflow x Q := by
  rcases h with h | ⟨a, h, ha⟩
  · exact .inl h
  · exact .inr ⟨a, h, k a ha⟩

theorem replay_spec {E : Engine σ μ} (hE : E.WF n m R) : ∀ (cs : List (Nat × Inference)) {s : Sys σ μ}, SysOK n m E.progs.length s →
    RightOrOverflow (Sys.replay E cs s) (ReplaySpec n m E.progs.length E cs s)
  | [], s, h => .inr ⟨s, rfl, .refl h⟩
  | (v, inf) :: cs, s, h => by
    unfold Sys.replay
    refine RightOrOverflow.bind (requeue_spec hE h v inf) fun s1 h1 => ?_
    exact (replay_spec hE cs h1.ok).mono fun s2 h2 => h1.trans h h2

/-- The inferences that seeding pretends were made. -/
def seeds (gs : List Lit) : List (Nat × Inference) := gs.filterMap (fun l => l.underlyingIndex.map (fun v => (v, Inference.instantiated)))

theorem seed_spec {E : Engine σ μ} (hE : E.WF n m R) : ∀ (gs : List Lit) {s : Sys σ μ}, SysOK n m E.progs.length s →
    RightOrOverflow (Sys.seed E gs s) (ReplaySpec n m E.progs.length E (seeds gs) s)
  | [], s, h => .inr ⟨s, rfl, .refl h⟩
  | l :: gs, s, h => by
    unfold Sys.seed
    cases hl : l.underlyingIndex with
    | none =>
      have : seeds (l :: gs) = seeds gs := by simp [seeds, hl]
      rw [this]; exact seed_spec hE gs h
    | some v =>
      have : seeds (l :: gs) = [(v, .instantiated)] ++ seeds gs := by simp [seeds, hl]
      rw [this]
      refine RightOrOverflow.bind (requeue_spec hE h v .instantiated) fun s1 h1 => ?_
      exact (seed_spec hE gs h1.ok).mono fun s2 h2 => h1.trans h h2

/-! ## Replaying with claims -/

theorem advance_spec (idx : Nat) : ∀ (cl : List (Nat × Nat)) (prot : Nat → Bool), cl.Pairwise (fun a b => a.1 ≤ b.1) → (cl.map (·.2)).Nodup →
    (∀ p, prot p = true ↔ ∃ e, (e, p) ∈ cl) →
    ∃ pre, cl = pre ++ (Sys.advance idx cl prot).1 ∧ (∀ c ∈ pre, c.1 ≤ idx) ∧ (∀ c ∈ (Sys.advance idx cl prot).1, idx < c.1) ∧
      (∀ p, (Sys.advance idx cl prot).2 p = true ↔ ∃ e, (e, p) ∈ (Sys.advance idx cl prot).1)
  | [], prot, _, _, hp => ⟨[], rfl, by simp, by simp [Sys.advance], hp⟩
  | (e, p) :: r, prot, hs, hn, hp => by
    rw [List.pairwise_cons] at hs
    rw [List.map_cons, List.nodup_cons] at hn
    unfold Sys.advance
    by_cases h : e ≤ idx
    · simp only [h, if_true]
      obtain ⟨pre, h1, h2, h3, h4⟩ := advance_spec idx r (fun x => if x = p then false else prot x) hs.2 hn.2 (by
        intro x
        by_cases hx : x = p
        · subst hx
          simp only [if_true, Bool.false_eq_true, false_iff]
          rintro ⟨e', he'⟩
          exact hn.1 (List.mem_map.2 ⟨(e', x), he', rfl⟩)
        · simp only [hx, if_false, hp]
          constructor
          · rintro ⟨e', he'⟩
            rcases List.mem_cons.1 he' with he' | he'
            · cases he'; exact absurd rfl hx
            · exact ⟨e', he'⟩
          · rintro ⟨e', he'⟩; exact ⟨e', by simp [he']⟩)
      refine ⟨(e, p) :: pre, by rw [List.cons_append, ← h1], ?_, h3, h4⟩
      intro c hc
      rcases List.mem_cons.1 hc with rfl | hc
      · exact h
      · exact h2 c hc
    · simp only [h, if_false]
      refine ⟨[], rfl, by simp, ?_, hp⟩
      intro c hc
      rcases List.mem_cons.1 hc with rfl | hc
      · simpa using h
      · have := hs.1 c hc; simp only at this; omega

/-- Replaying with claims wakes exactly the idle propagators with a subscribed inference no earlier than the end of their claim. -/
theorem replayClaims_spec {E : Engine σ μ} (hE : E.WF n m R) : ∀ (cs : List (Nat × Inference)) (idx : Nat) (cl : List (Nat × Nat)) (prot : Nat → Bool)
    {s : Sys σ μ}, Inv E.progs.length s.q → cl.Pairwise (fun a b => a.1 ≤ b.1) → (cl.map (·.2)).Nodup → (∀ p, prot p = true ↔ ∃ e, (e, p) ∈ cl) →
    ∃ q', Sys.replayClaims E idx cl prot cs s = .ok { s with q := q' } ∧
      Woken E.progs.length s.q q' (fun p => ∃ j c, cs[j]? = some c ∧ Sub E p c.1 c.2 ∧ ∀ e, (e, p) ∈ cl → e ≤ idx + j)
  | [], idx, cl, prot, s, h, _, _, _ => ⟨s.q, rfl, (Woken.refl h).congr (by simp)⟩
  | (v, inf) :: cs, idx, cl, prot, s, h, hs, hn, hp => by
    obtain ⟨pre, h1, h2, h3, h4⟩ := advance_spec idx cl prot hs hn hp
    unfold Sys.replayClaims
    generalize Sys.advance idx cl prot = ad at *
    obtain ⟨q1, e1, w1⟩ := wake_spec inf ad.2 (Sys.triggersOf E v) h (fun t ht => hE.trig v t.1 t.2 ht)
    have hs' : ad.1.Pairwise (fun a b => a.1 ≤ b.1) := by rw [h1] at hs; exact (List.pairwise_append.1 hs).2.1
    have hn' : (ad.1.map (·.2)).Nodup := by rw [h1, List.map_append] at hn; exact (List.nodup_append.1 hn).2.1
    obtain ⟨q2, e2, w2⟩ := replayClaims_spec hE cs (idx + 1) ad.1 ad.2 (s := { s with q := q1 }) w1.inv hs' hn' h4
    refine ⟨q2, ?_, (w1.trans h w2).congr fun p => ?_⟩
    · simp only [Sys.requeueUnlessSeen, e1]; exact e2
    · have hcl : ∀ k, idx ≤ k → ((∀ e, (e, p) ∈ cl → e ≤ k) ↔ ∀ e, (e, p) ∈ ad.1 → e ≤ k) := by
        intro k hk
        constructor
        · intro a e he; exact a e (by rw [h1]; simp [he])
        · intro a e he
          rw [h1] at he
          rcases List.mem_append.1 he with he | he
          · have := h2 _ he; simp only at this; omega
          · exact a e he
      constructor
      · rintro (⟨a, mk, b, c⟩ | ⟨j, c, a, b, d⟩)
        · refine ⟨0, (v, inf), rfl, ⟨mk, b, c⟩, ?_⟩
          rw [hcl _ (by omega)]
          intro e he
          exact absurd ((h4 p).2 ⟨e, he⟩) (by simp [a])
        · exact ⟨j + 1, c, by simpa using a, b, by rw [hcl _ (by omega)]; intro e he; have := d e he; omega⟩
      · rintro ⟨j, c, a, b, d⟩
        rw [hcl _ (by omega)] at d
        cases j with
        | zero =>
          left
          simp only [List.getElem?_cons_zero, Option.some.injEq] at a
          subst a
          obtain ⟨mk, k1, k2⟩ := b
          refine ⟨?_, mk, k1, k2⟩
          by_cases hpr : ad.2 p = true
          · obtain ⟨e, he⟩ := (h4 p).1 hpr
            have := d e he; have := h3 _ he; simp only at this; omega
          · simpa using hpr
        | succ j =>
          right
          exact ⟨j, c, by simpa using a, b, fun e he => by have := d e he; omega⟩

end
end Gcs
