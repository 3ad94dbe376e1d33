import Verif.Lemmas.Firing
import Verif.Props.Epoch

/-! What a call of `propagate` leaves behind, and how backtracking puts the whole system back. -/

namespace Gcs
open IntervalSet Queue

section
variable {σ μ : Type} {n m : Nat} {R : Err → Prop}

/-- What a call of `propagate` leaves, whatever it returned. -/
structure CallSpec (n : Nat) (E : Engine σ μ) (gs : List Lit) (s : Sys σ μ) (b : Bool) (s' : Sys σ μ) : Prop where
  onb : ∃ e r i, s.st.onBacktracks = e :: r ∧ s'.st.onBacktracks = (e ++ [.undoWatches s.w.trail.length s.w.wsTrail.length, .restoreIdle i]) :: r ∧
    s'.q.idle ≤ i ∧ (gs ≠ [] → i = s.q.idle ∧ ∀ j : Nat, i ≤ j → s'.q.queue[j]? = s.q.queue[j]?)
  inv : Inv E.progs.length s'.q
  varsTail : s'.st.vars.tail = s.st.vars.tail
  varsNe : s'.st.vars ≠ []
  cstatesTail : s'.st.cstates.tail = s.st.cstates.tail
  cstatesNe : s.st.cstates ≠ [] → s'.st.cstates ≠ []
  cstatesLen : (s'.st.cstates.headD []).length = (s.st.cstates.headD []).length
  guesses : s'.st.guesses = s.st.guesses
  extra : s'.st.extra = s.st.extra
  minimise : s'.st.minimise = s.st.minimise
  incumbent : s'.st.incumbent = s.st.incumbent
  steps : WSteps n E.progs.length s.w s'.w
  boxes : ∀ p, box s'.w p = []
  clock : s.clock ≤ s'.clock
  good : b = true → ∃ cs, Evolve s.doms cs s'.doms

/-- What is carried through the turns of a call. -/
structure Carry (n : Nat) (np : Nat) (s1 t : Sys σ μ) : Prop where
  onb : t.st.onBacktracks = s1.st.onBacktracks
  idle : t.q.idle ≤ s1.q.idle
  keep : ∀ j : Nat, s1.q.idle ≤ j → t.q.queue[j]? = s1.q.queue[j]?
  varsTail : t.st.vars.tail = s1.st.vars.tail
  varsNe : s1.st.vars ≠ [] → t.st.vars ≠ []
  cstatesTail : t.st.cstates.tail = s1.st.cstates.tail
  cstatesNe : s1.st.cstates ≠ [] → t.st.cstates ≠ []
  cstatesLen : (t.st.cstates.headD []).length = (s1.st.cstates.headD []).length
  guesses : t.st.guesses = s1.st.guesses
  extra : t.st.extra = s1.st.extra
  minimise : t.st.minimise = s1.st.minimise
  incumbent : t.st.incumbent = s1.st.incumbent
  steps : WSteps n np s1.w t.w
  clock : s1.clock ≤ t.clock

theorem Carry.refl {np : Nat} (s : Sys σ μ) : Carry n np s s :=
  ⟨rfl, Nat.le_refl _, fun _ _ => rfl, rfl, id, rfl, id, rfl, rfl, rfl, rfl, rfl, .refl _, Nat.le_refl _⟩

theorem Carry.trans {np : Nat} {a b c : Sys σ μ} (h : Carry n np a b) (k : Carry n np b c) : Carry n np a c :=
  ⟨k.onb.trans h.onb, Nat.le_trans k.idle h.idle, fun j hj => (k.keep j (Nat.le_trans h.idle hj)).trans (h.keep j hj), k.varsTail.trans h.varsTail, k.varsNe ∘ h.varsNe,
    k.cstatesTail.trans h.cstatesTail, k.cstatesNe ∘ h.cstatesNe, k.cstatesLen.trans h.cstatesLen, k.guesses.trans h.guesses, k.extra.trans h.extra,
    k.minimise.trans h.minimise, k.incumbent.trans h.incumbent, h.steps.trans k.steps, Nat.le_trans h.clock k.clock⟩

theorem EndSpec.carry {E : Engine σ μ} {s s' : Sys σ μ} (h : EndSpec n m E s s') : Carry n E.progs.length s s' := by
  have hst : s'.st = s.st := by rw [h.eq]
  have hck : s'.clock = s.clock := by rw [h.eq]
  refine ⟨by rw [hst], h.idle, h.keep, by rw [hst], by rw [hst]; exact id, by rw [hst], by rw [hst]; exact id, by rw [hst], by rw [hst], by rw [hst], by rw [hst],
    by rw [hst], h.steps, by omega⟩

theorem Frame.carry {np : Nat} {s : Sys σ μ} {p : Nat} {q' : Queue} (hp : Popped np s p q') {sr : Sys σ μ} (h : Frame n np (s.started p q') sr) : Carry n np s sr := by
  have hq : sr.q = q' := h.q
  refine ⟨h.onBacktracks, ?_, ?_, h.varsTail, h.varsNe, h.cstatesTail, h.cstatesNe, h.cstatesLen, h.guesses, h.extra, h.minimise, h.incumbent, h.watches, ?_⟩
  · rw [hq, hp.idle]; exact Nat.le_refl _
  · intro j _; rw [hq, hp.queue]
  · rw [h.clock]; exact Nat.le_refl _

theorem TurnSpec.carry {E : Engine σ μ} {s s' : Sys σ μ} {t : Sys.Turn} (h : TurnSpec n m E s t s') : Carry n E.progs.length s s' := by
  cases h with
  | skipped p q' hp hd => exact ⟨rfl, by show q'.idle ≤ _; rw [hp.idle]; exact Nat.le_refl _, fun j _ => by show q'.queue[j]? = _; rw [hp.queue], rfl, id, rfl, id, rfl, rfl, rfl, rfl, rfl, .refl _, Nat.le_refl _⟩
  | contradiction p q' f sc r sr w hp hd hf hsc hrun hfr hfail hw =>
    have hc := hfr.carry hp
    refine { hc with steps := ?_ }
    rcases hw with rfl | rfl
    · exact hc.steps
    · exact hc.steps.snoc (.box sr.w _ _)
  | fine p q' f sc ig ps sr cs hp hd hf hsc hig hrun hfr hran =>
    have hc := hfr.carry hp
    exact { hc with steps := hc.steps.snoc (.box sr.w (sr.w.inbox.set p []) sr.w.pending) }

theorem dropPending_box (ps : List Nat) (ib : List (List Nat)) (p : Nat) : (Sys.dropPending ps ib)[p]?.getD [] = if p ∈ ps then [] else ib[p]?.getD [] := by
  induction ps generalizing ib with
  | nil => simp [Sys.dropPending]
  | cons o os ih =>
    rw [Sys.dropPending, ih, List.getElem?_set]
    by_cases h1 : p ∈ os
    · simp [h1]
    · by_cases h2 : o = p
      · subst h2; simp only [h1, if_false, if_true, List.mem_cons, true_or]; split <;> rfl
      · rw [if_neg h1, if_neg h2, if_neg]; simp [h1]; exact fun e => h2 e.symm

theorem flushed_boxes {s : Sys σ μ} (h : ∀ p, box s.w p ≠ [] → p ∈ s.w.pending) (p : Nat) : box s.flushed.w p = [] := by
  show (Sys.dropPending s.w.pending s.w.inbox)[p]?.getD [] = []
  rw [dropPending_box]
  by_cases hp : p ∈ s.w.pending
  · rw [if_pos hp]
  · rw [if_neg hp]
    exact Classical.byContradiction fun hc => hp (h p hc)

theorem propagate_call {E : Engine σ μ} (hE : E.WF n m R) {abort : Nat → Bool} {gs : List Lit} {s : Sys σ μ} (h : CallOK n m E gs s) {b : Bool} {s' : Sys σ μ}
    (e : Sys.propagate E gs abort s = .ok (b, s')) : CallSpec n E gs s b s' := by
  have ind := propagate_ind hE abort h (fun t => ∃ s1, PrepSpec n m E gs s s1 ∧ Carry n E.progs.length s1 t ∧ ∃ cs, Evolve s.doms cs t.doms) ?_ ?_ ?_ ?_
  rotate_left
  · intro s1 h1; exact ⟨s1, h1, .refl _, [], by rw [h1.doms]; exact .refl _ h.domsOK⟩
  · rintro t t' _ ⟨s1, h1, h2, cs, h3⟩ _ h4
    have hd : t'.doms = t.doms := by rw [h4.eq]; rfl
    exact ⟨s1, h1, h2.trans h4.carry, cs, by rw [hd]; exact h3⟩
  · rintro t k t' _ ⟨s1, h1, h2, cs, h3⟩ _ h4 hk
    refine ⟨s1, h1, h2.trans h4.carry, ?_⟩
    cases h4 with
    | contradiction => exact absurd rfl hk
    | skipped => exact ⟨cs, h3⟩
    | fine p q' f sc ig ps sr ds hp hd hf hsc hig hrun hfr hran => exact ⟨cs ++ ds, h3.trans hran.evolve⟩
  · rintro t k hk ⟨s1, h1, h2, h3⟩
    exact ⟨s1, h1, { h2 with clock := Nat.le_trans h2.clock hk }, h3⟩
  rcases ind with ⟨e', he, _⟩ | ⟨b', t, he, hend⟩
  · rw [he] at e; cases e
  · rw [he] at e; cases e
    have key : ∃ s1, PrepSpec n m E gs s s1 ∧ Carry n E.progs.length s1 t ∧ Inv E.progs.length t.q ∧ (∀ p, box t.w p ≠ [] → p ∈ t.w.pending) ∧ (b = true → ∃ cs, Evolve s.doms cs t.doms) := by
      generalize hob : (some (!b)) = ob at hend
      cases hend with
      | fuel hok hi => cases hob
      | contradiction t0 _ hok hi _ ht =>
        obtain ⟨s1, h1, h2, _⟩ := hi
        refine ⟨s1, h1, h2.trans ht.carry, ?_, ?_, ?_⟩
        · cases ht with
          | contradiction p q' f sc r sr w hp hd hf hsc hrun hfr hfail hw => show Inv _ sr.q; rw [hfr.q]; exact hp.inv
        · cases ht with
          | contradiction p q' f sc r sr w hp hd hf hsc hrun hfr hfail hw =>
            have hb : ∀ x, box sr.w x = box t0.w x := fun x => by unfold box; rw [hfr.inbox]; rfl
            have hpd : sr.w.pending = t0.w.pending := hfr.pending
            intro x hx
            rcases hw with rfl | rfl
            · show x ∈ sr.w.pending
              rw [hpd]; exact hok.ok.pend x (by rw [← hb]; exact hx)
            · show x ∈ sr.w.pending
              have hx' : box { sr.w with inbox := sr.w.inbox.set p [] } x ≠ [] := hx
              rw [box_set] at hx'
              rw [hpd]
              split at hx'
              · exact absurd rfl hx'
              · exact hok.ok.pend x (by rw [← hb]; exact hx')
        · intro hb; subst hb; cases hob
      | drained t0 _ hok hi h4 hi2 _ =>
        obtain ⟨s1, h1, h2, h3⟩ := hi2
        exact ⟨s1, h1, h2, h4.ok.inv, h4.ok.pend, fun _ => h3⟩
      | aborted _ i hok hi ha _ =>
        obtain ⟨s1, h1, h2, h3⟩ := hi
        exact ⟨s1, h1, h2, hok.ok.inv, hok.ok.pend, fun _ => h3⟩
    obtain ⟨s1, h1, h2, h3, h4, h5⟩ := key
    obtain ⟨x, r, hx, hst⟩ := h1.st
    have hclk : s1.clock = s.clock := by rw [h1.eq]
    refine { onb := ⟨x, r, s1.q.idle, hx, ?_, h2.idle, ?_⟩, inv := h3, varsTail := ?_, varsNe := ?_, cstatesTail := ?_, cstatesNe := ?_, cstatesLen := ?_, guesses := ?_,
             extra := ?_, minimise := ?_, incumbent := ?_, steps := ?_, boxes := flushed_boxes h4, clock := ?_, good := h5 }
    · show t.st.onBacktracks = _; rw [h2.onb, hst]
    · intro hg
      obtain ⟨h6, h7, _⟩ := h1.child hg
      exact ⟨h6, fun j hj => (h2.keep j hj).trans (h7 j (by omega))⟩
    · exact h2.varsTail.trans (by rw [hst])
    · exact h2.varsNe (by rw [hst]; exact h.varsNe)
    · exact h2.cstatesTail.trans (by rw [hst])
    · intro hc; exact h2.cstatesNe (by rw [hst]; exact hc)
    · exact h2.cstatesLen.trans (by rw [hst])
    · exact h2.guesses.trans (by rw [hst])
    · exact h2.extra.trans (by rw [hst])
    · exact h2.minimise.trans (by rw [hst])
    · exact h2.incumbent.trans (by rw [hst])
    · exact (h1.steps.trans h2.steps).snoc (.box t.w _ _)
    · show s.clock ≤ t.clock; have := h2.clock; omega

/-! ## The system between calls -/

/-- `s'` is `s` as far as later calls and queries can tell: the same domains, constraint states, guesses and callbacks, the same watches up to order, the same
disabled propagators. Statistics, the tracker, traces and captured memory may differ. -/
structure Same (np : Nat) (s s' : Sys σ μ) : Prop where
  st : s'.st = s.st
  w : s.w.Same s'.w
  inv : Inv np s'.q
  idle : s'.q.idle = s.q.idle
  keep : ∀ j : Nat, s.q.idle ≤ j → s'.q.queue[j]? = s.q.queue[j]?
  boxes : ∀ p, box s'.w p = []
  clock : s.clock ≤ s'.clock

theorem Same.refl {np : Nat} {s : Sys σ μ} (h : Inv np s.q) (hb : ∀ p, box s.w p = []) : Same np s s :=
  ⟨rfl, .refl _, h, rfl, fun _ _ => rfl, hb, Nat.le_refl _⟩
theorem Same.trans {np : Nat} {a b c : Sys σ μ} (h : Same np a b) (k : Same np b c) : Same np a c :=
  ⟨k.st.trans h.st, h.w.trans k.w, k.inv, k.idle.trans h.idle, fun j hj => (k.keep j (by rw [h.idle]; exact hj)).trans (h.keep j hj), k.boxes, Nat.le_trans h.clock k.clock⟩
theorem Same.doms {np : Nat} {s s' : Sys σ μ} (h : Same np s s') : s'.doms = s.doms := by unfold Sys.doms; rw [h.st]
theorem Same.disabled {np : Nat} {s s' : Sys σ μ} (h : Same np s s') (p : Nat) : IsDisabled s'.q p ↔ IsDisabled s.q p := by
  unfold IsDisabled
  rw [h.idle]
  exact ⟨fun ⟨i, a, b⟩ => ⟨i, a, by rw [← h.keep i a]; exact b⟩, fun ⟨i, a, b⟩ => ⟨i, a, by rw [h.keep i a]; exact b⟩⟩

/-- Fields no one relies on between calls, and the clock, may change. -/
theorem Same.of_eq {np : Nat} {s s' : Sys σ μ} (hi : Inv np s.q) (hb : ∀ p, box s.w p = []) (h1 : s'.st = s.st) (h2 : s'.w = s.w) (h3 : s'.q = s.q) (h4 : s.clock ≤ s'.clock) :
    Same np s s' := ⟨h1, by rw [h2]; exact .refl _, by rw [h3]; exact hi, by rw [h3], fun j _ => by rw [h3], by rw [h2]; exact hb, h4⟩

/-- The system can be used for a call, or for opening a new epoch. -/
structure NodeOK (n m : Nat) (E : Engine σ μ) (s : Sys σ μ) : Prop where
  call : CallOK n m E [] s
  inv : Inv E.progs.length s.q
  ids : IdsOK s.w
  aligned : Aligned s.st

theorem CallOK.of_nil {E : Engine σ μ} {s : Sys σ μ} (h : CallOK n m E [] s) (gs : List Lit) (hi : gs ≠ [] → Inv E.progs.length s.q) : CallOK n m E gs s :=
  ⟨h.1, h.2, h.3, h.4, h.5, h.6, h.7, hi⟩

theorem NodeOK.calls {E : Engine σ μ} {s : Sys σ μ} (h : NodeOK n m E s) (gs : List Lit) : CallOK n m E gs s := h.call.of_nil gs fun _ => h.inv

theorem WatchesOK.same {np : Nat} {w u : Watches} (h : WatchesOK n np w) (k : w.Same u) : WatchesOK n np u := by
  intro v ws x hv hx
  have hx' : x ∈ armed u v := by unfold armed; rw [hv]; exact hx
  have := armed_ok h ((k.like.armed v).mem_iff.1 hx')
  have hn := k.nextId
  exact ⟨this.1, this.2.1, this.2.2.1, this.2.2.2.1, this.2.2.2.2.1, by omega⟩

theorem NodeOK.same {E : Engine σ μ} {s s' : Sys σ μ} (h : NodeOK n m E s) (k : Same E.progs.length s s') : NodeOK n m E s' where
  call := ⟨by rw [k.doms]; exact h.call.domsOK, by rw [k.doms]; exact h.call.domsLen, by rw [k.st]; exact h.call.varsNe, by rw [k.st]; exact h.call.cstatesLen,
    by rw [k.st]; exact h.call.epochs, h.call.watches.same k.w, k.boxes, fun hc => absurd rfl hc⟩
  inv := k.inv
  ids := h.ids.like k.w.like k.w.nextId
  aligned := by rw [k.st]; exact h.aligned

theorem length_of_tail {α : Type} {a b : List α} (h : a.tail = b.tail) (ha : a ≠ []) (hb : b ≠ []) : a.length = b.length := by
  cases a with
  | nil => exact absurd rfl ha
  | cons x a => cases b with
    | nil => exact absurd rfl hb
    | cons y b => simp at h; simp [h]

theorem CallSpec.nodeOK {E : Engine σ μ} {gs : List Lit} {s s' : Sys σ μ} (h : CallSpec n E gs s true s') (hc : CallOK n m E gs s) (hi : IdsOK s.w) (ha : Aligned s.st) :
    NodeOK n m E s' := by
  obtain ⟨cs, hev⟩ := h.good rfl
  obtain ⟨e, r, i, h1, h2, _, _⟩ := h.onb
  have hcn : s.st.cstates ≠ [] := by
    intro hc'
    have h0 := hc.varsNe
    have := ha.1; rw [hc'] at this
    exact h0 (List.eq_nil_of_length_eq_zero (by simpa using this.symm))
  have hvl := length_of_tail h.varsTail h.varsNe hc.varsNe
  have hcl := length_of_tail h.cstatesTail (h.cstatesNe hcn) hcn
  exact { call := ⟨hev.ok, by rw [hev.length]; exact hc.domsLen, h.varsNe, by rw [h.cstatesLen]; exact hc.cstatesLen, by rw [h2]; simp, h.steps.ok hc.watches, h.boxes, fun hc => absurd rfl hc⟩
          inv := h.inv, ids := (h.steps.ids hi).1
          aligned := ⟨by rw [hcl, hvl]; exact ha.1, by rw [h2, hvl, ← ha.2, h1]; rfl⟩ }

/-! ## Opening an epoch and coming back -/

/-- Asserting `l` narrowed the domains `d` to `d'`. -/
structure Narrow (l : Lit) (d d' : Doms) : Prop where
  ok : DomsOK d'
  within : ∀ a, Within d' a ↔ Within d a ∧ l.holds a
  evolve : ∃ cs, Evolve d cs d' ∧ ∀ c ∈ cs, l.underlyingIndex = some c.1

theorem narrow_of_spec {d : Doms} {l : Lit} {r : Inference × Doms} (hd : DomsOK d) (h : InferSpec d l r) (hc : r.1 ≠ .contradiction) : Narrow l d r.2 := by
  have hm := inferMeaning_of_spec hd h
  refine ⟨hm.domsOK hc, hm.within hc, ?_⟩
  by_cases hn : r.1 = .noChange
  · exact ⟨[], by rw [hm.noChange hn]; exact .refl _ hd, by simp⟩
  · obtain ⟨v, hv⟩ := infer_var_of_effective h hn hc
    refine ⟨[(v, r.1)], .snoc (.refl _ hd) (step_of_spec hd h hn hc hv), ?_⟩
    intro c hc; simp at hc; rw [hc]; exact hv

/-- `s` is `p` after a new epoch and the guess `l`. -/
structure Child (p : Sys σ μ) (l : Lit) (s : Sys σ μ) : Prop where
  eq : ∃ d c, p.st.cstates.head? = some c ∧ s = { p with
    st := { p.st with vars := d :: p.st.vars, cstates := c :: p.st.cstates, onBacktracks := [] :: p.st.onBacktracks, guesses := p.st.guesses ++ [l] }
    clock := s.clock }
  clock : p.clock ≤ s.clock
  narrow : Narrow l p.doms s.doms

/-- The timestamp that was returned when the epoch was opened. -/
def stamp (p : Sys σ μ) : Timestamp := ⟨p.st.vars.length, p.st.guesses.length, none⟩

theorem open_child {E : Engine σ μ} {p : Sys σ μ} (h : NodeOK n m E p) {l : Lit} (hl : l.Valid n) (hp : ∃ a, Within p.doms a ∧ l.holds a) (k : Nat) (hk : p.clock ≤ k) :
    ∃ st1, p.st.newEpoch false = .ok (stamp p, st1) ∧
      (st1.guess l = .error .overflow ∨ ∃ st2, st1.guess l = .ok st2 ∧ Child p l { p with st := st2, clock := k }) := by
  obtain ⟨d, r, hv⟩ := List.exists_cons_of_ne_nil h.call.varsNe
  obtain ⟨c, q, hc⟩ : ∃ c q, p.st.cstates = c :: q := by
    apply List.exists_cons_of_ne_nil
    intro hc
    have := h.aligned.1
    rw [hc, hv] at this; simp at this
  have hdm : p.doms = d := doms_eq hv
  refine ⟨{ p.st with vars := d :: d :: r, cstates := c :: c :: q, onBacktracks := [] :: p.st.onBacktracks }, ?_, ?_⟩
  · unfold State.newEpoch; rw [hv, hc]; simp [stamp, hv]
  · have hd : DomsOK d := hdm ▸ h.call.domsOK
    have hln : l.Valid d.length := by rw [← hdm, h.call.domsLen]; exact hl
    rcases infer_spec d l hd hln with e | ⟨x, e, hx⟩
    · left; simp [State.guess, State.infer, e, bind, Except.bind]
    · right
      have hcon : x.1 ≠ .contradiction := by
        intro hcon
        obtain ⟨a, ha, hla⟩ := hp
        exact (inferMeaning_of_spec hd hx).contra.1 hcon a (hdm ▸ ha) hla
      refine ⟨{ p.st with vars := x.2 :: d :: r, cstates := c :: c :: q, onBacktracks := [] :: p.st.onBacktracks, guesses := p.st.guesses ++ [l] }, ?_, ?_, hk, ?_⟩
      · cases hxx : x.1 <;> simp_all [State.guess, State.infer, bind, Except.bind, pure, Except.pure]
      · exact ⟨x.2, c, by rw [hc]; rfl, by rw [hv, hc]⟩
      · rw [hdm]; exact narrow_of_spec hd hx hcon

theorem Child.nodeOK {E : Engine σ μ} {p s : Sys σ μ} {l : Lit} (h : NodeOK n m E p) (k : Child p l s) : NodeOK n m E s := by
  obtain ⟨d, c, hc, he⟩ := k.eq
  have hdl : s.doms.length = n := by obtain ⟨cs, h1, _⟩ := k.narrow.evolve; rw [h1.length]; exact h.call.domsLen
  have hcl : c = p.st.cstates.headD [] := by
    cases hcs : p.st.cstates with
    | nil => rw [hcs] at hc; cases hc
    | cons x y => rw [hcs] at hc; simp at hc; exact hc.symm
  have hw : s.w = p.w := by rw [he]
  refine ⟨⟨k.narrow.ok, hdl, by rw [he]; simp, ?_, by rw [he]; simp, by rw [hw]; exact h.call.watches, by rw [hw]; exact h.call.boxes, fun hc => absurd rfl hc⟩, by rw [he]; exact h.inv,
    by rw [hw]; exact h.ids, ?_⟩
  · rw [he]; show c.length = m; rw [hcl]; exact h.call.cstatesLen
  · rw [he]
    exact ⟨by simp [h.aligned.1], by simp [h.aligned.2]⟩

/-- `s` with the literal `l` inferred. -/
structure Inferred (s : Sys σ μ) (l : Lit) (s1 : Sys σ μ) : Prop where
  eq : ∃ d, s1 = { s with st := { s.st with vars := d :: s.st.vars.tail } }
  narrow : Narrow l s.doms s1.doms

theorem Inferred.nodeOK {E : Engine σ μ} {s s1 : Sys σ μ} {l : Lit} (h : NodeOK n m E s) (k : Inferred s l s1) : NodeOK n m E s1 := by
  obtain ⟨d, he⟩ := k.eq
  have hdl : s1.doms.length = n := by obtain ⟨cs, h1, _⟩ := k.narrow.evolve; rw [h1.length]; exact h.call.domsLen
  have hlen : (d :: s.st.vars.tail).length = s.st.vars.length := by
    obtain ⟨x, y, hv⟩ := List.exists_cons_of_ne_nil h.call.varsNe
    rw [hv]; rfl
  have hw : s1.w = s.w := by rw [he]
  refine ⟨⟨k.narrow.ok, hdl, by rw [he]; simp, by rw [he]; exact h.call.cstatesLen, by rw [he]; exact h.call.epochs, by rw [hw]; exact h.call.watches, by rw [hw]; exact h.call.boxes,
    fun hc => absurd rfl hc⟩, by rw [he]; exact h.inv, by rw [hw]; exact h.ids, ?_⟩
  rw [he]
  exact ⟨by show _ = (d :: s.st.vars.tail).length; rw [hlen]; exact h.aligned.1, by show _ = (d :: s.st.vars.tail).length; rw [hlen]; exact h.aligned.2⟩

theorem infer_objective {E : Engine σ μ} {s : Sys σ μ} (h : NodeOK n m E s) {l : Lit} (hl : l.Valid n) :
    s.st.infer l = .error .overflow ∨ ∃ inf st1, s.st.infer l = .ok (inf, st1) ∧
      (inf = .contradiction → ∀ a, Within s.doms a → ¬ l.holds a) ∧
      (inf = .noChange → st1 = s.st ∧ ∀ a, Within s.doms a → l.holds a) ∧
      (inf ≠ .contradiction → Inferred s l { s with st := st1 }) ∧
      (∃ d, st1 = { s.st with vars := d :: s.st.vars.tail }) := by
  obtain ⟨d, r, hv⟩ := List.exists_cons_of_ne_nil h.call.varsNe
  have hdm : s.doms = d := doms_eq hv
  have hd : DomsOK d := hdm ▸ h.call.domsOK
  have hln : l.Valid d.length := by rw [← hdm, h.call.domsLen]; exact hl
  rcases infer_spec d l hd hln with e | ⟨x, e, hx⟩
  · left; simp [State.infer, hv, e, bind, Except.bind]
  · right
    have hm := inferMeaning_of_spec hd hx
    refine ⟨x.1, { s.st with vars := x.2 :: r }, by simp [State.infer, hv, e, bind, Except.bind, pure, Except.pure], ?_, ?_, ?_, ⟨x.2, by rw [hv]; rfl⟩⟩
    · rw [hdm]; exact hm.contra.1
    · intro hn
      have h2 := hm.noChange hn
      refine ⟨by rw [h2, ← hv], fun a ha => ?_⟩
      rw [hdm] at ha
      exact ((hm.within (by rw [hn]; simp) a).1 (by rw [h2]; exact ha)).2
    · intro hc
      exact ⟨⟨x.2, by rw [hv]; rfl⟩, by rw [hdm]; exact narrow_of_spec hd hx hc⟩

/-- `s2` comes from `s` within the same epoch: by inferences from outside and then at most one call below the root. -/
structure Inside (n : Nat) (E : Engine σ μ) (s s2 : Sys σ μ) : Prop where
  varsTail : s2.st.vars.tail = s.st.vars.tail
  varsNe : s2.st.vars ≠ []
  cstatesTail : s2.st.cstates.tail = s.st.cstates.tail
  cstatesNe : s2.st.cstates ≠ []
  guesses : s2.st.guesses = s.st.guesses
  extra : s2.st.extra = s.st.extra
  minimise : s2.st.minimise = s.st.minimise
  incumbent : s2.st.incumbent = s.st.incumbent
  clock : s.clock ≤ s2.clock
  undo : (s2.st.onBacktracks = s.st.onBacktracks ∧ s2.w = s.w ∧ s2.q = s.q) ∨
    ∃ e r, s.st.onBacktracks = e :: r ∧ s2.st.onBacktracks = (e ++ [.undoWatches s.w.trail.length s.w.wsTrail.length, .restoreIdle s.q.idle]) :: r ∧
      s2.q.idle ≤ s.q.idle ∧ (∀ j : Nat, s.q.idle ≤ j → s2.q.queue[j]? = s.q.queue[j]?) ∧ WSteps n E.progs.length s.w s2.w

/-- Coming back: whatever happened inside the epoch, including in nested epochs that were closed again, `backtrack` makes the system the same as before the
epoch was opened. -/
theorem back_restores {E : Engine σ μ} {p s s2 s3 : Sys σ μ} {l : Lit} (hp : NodeOK n m E p) (hc : Child p l s) (hi : Inside n E s s2) (hs : Same E.progs.length s2 s3) :
    ∃ s4, s3.backtrack (stamp p) = .ok s4 ∧ Same E.progs.length p s4 ∧ s4.mem = s3.mem ∧ s4.clock = s3.clock := by
  obtain ⟨d, c, hcs, he⟩ := hc.eq
  have hq : s.q = p.q := by rw [he]
  have hw : s.w = p.w := by rw [he]
  have hv : s.st.vars.tail = p.st.vars := by rw [he]; rfl
  have hct : s.st.cstates.tail = p.st.cstates := by rw [he]; rfl
  have hg : s.st.guesses = p.st.guesses ++ [l] := by rw [he]
  have hob : s.st.onBacktracks = [] :: p.st.onBacktracks := by rw [he]
  have hex : s.st.extra = p.st.extra := by rw [he]
  have hmi : s.st.minimise = p.st.minimise := by rw [he]
  have hin : s.st.incumbent = p.st.incumbent := by rw [he]
  obtain ⟨d2, r2, hv2⟩ := List.exists_cons_of_ne_nil hi.varsNe
  obtain ⟨c2, q2, hc2⟩ := List.exists_cons_of_ne_nil hi.cstatesNe
  have hr2 : r2 = p.st.vars := by have := hi.varsTail; rw [hv2, hv] at this; exact this
  have hq2 : q2 = p.st.cstates := by have := hi.cstatesTail; rw [hc2, hct] at this; exact this
  have hvars : s3.st.vars = [d2] ++ p.st.vars := by rw [hs.st, hv2, hr2]; rfl
  have hcst : s3.st.cstates = [c2] ++ p.st.cstates := by rw [hs.st, hc2, hq2]; rfl
  have hgs : s3.st.guesses = p.st.guesses ++ [l] := by rw [hs.st, hi.guesses, hg]
  obtain ⟨cbs, hcb, hund⟩ : ∃ cbs, s3.st.onBacktracks = [cbs] ++ p.st.onBacktracks ∧
      ∃ s4, Sys.runCallbacks cbs { s3 with st := p.st } = .ok s4 ∧ Same E.progs.length p s4 ∧ s4.mem = s3.mem ∧ s4.clock = s3.clock := by
    have hclk : p.clock ≤ s3.clock := Nat.le_trans hc.clock (Nat.le_trans hi.clock hs.clock)
    rcases hi.undo with ⟨h1, h2, h3⟩ | ⟨e, r, h1, h2, h3, h4, h5⟩
    · refine ⟨[], by rw [hs.st, h1, hob]; rfl, { s3 with st := p.st }, rfl, ⟨rfl, ?_, hs.inv, ?_, ?_, hs.boxes, hclk⟩, rfl, rfl⟩
      · have := hs.w; rw [h2, hw] at this; exact this
      · show s3.q.idle = _; rw [hs.idle, h3, hq]
      · intro j hj
        show s3.q.queue[j]? = _
        rw [hs.keep j (by rw [h3, hq]; exact hj), h3, hq]
    · rw [hob] at h1
      cases h1
      obtain ⟨u, h6, h7, h8, _⟩ := undo_restores h5 (by rw [hw]; exact hp.ids) hs.w
      refine ⟨[.undoWatches s.w.trail.length s.w.wsTrail.length, .restoreIdle s.q.idle], by rw [hs.st, h2]; rfl,
        { s3 with st := p.st, w := u, q := s3.q.restoreIdle s.q.idle }, ?_, ⟨rfl, ?_, ?_, ?_, ?_, ?_, hclk⟩, rfl, rfl⟩
      · show (Watches.undo s.w.trail.length s.w.wsTrail.length s3.w).bind _ = _
        rw [h6]; rfl
      · rw [hw] at h7; exact h7
      · have hinv := hs.inv
        have := hinv.ei; have := hs.idle; have hpi := hp.inv.idn
        refine ⟨⟨hinv.qlen, hinv.llen, hinv.fwd, hinv.bwd⟩, hinv.be, ?_, ?_⟩
        · show s3.q.end_ ≤ s.q.idle; omega
        · show s.q.idle ≤ _; rw [hq]; exact hpi
      · show s.q.idle = _; rw [hq]
      · intro j hj
        show s3.q.queue[j]? = _
        rw [hs.keep j (by rw [hq] at h3; omega), h4 j (by rw [hq]; exact hj), hq]
      · intro x
        show box u x = []
        have := hs.boxes x
        unfold box at this ⊢
        rw [h8]; exact this
  obtain ⟨s4, h9, h10⟩ := hund
  refine ⟨s4, ?_, h10⟩
  unfold Sys.backtrack
  have hb := backtrack_eq (s := s3.st) (t := stamp p) hvars hcst hcb rfl hp.aligned.1 hp.aligned.2 (by rw [hgs]; simp [stamp]) (by simp [stamp])
  rw [hb]
  show Sys.runCallbacks ([cbs] : List (List Callback)).flatten _ = _
  have e1 : s3.st.guesses.take (stamp p).howManyGuesses = p.st.guesses := by rw [hgs]; simp [stamp]
  have e2 : s3.st.extra = p.st.extra := by rw [hs.st, hi.extra, hex]
  have e3 : s3.st.minimise = p.st.minimise := by rw [hs.st, hi.minimise, hmi]
  have e4 : s3.st.incumbent = p.st.incumbent := by rw [hs.st, hi.incumbent, hin]
  have : ([cbs] : List (List Callback)).flatten = cbs := by simp
  rw [this]
  refine Eq.trans ?_ h9
  congr 1
  show ({ s3 with st := ⟨p.st.vars, p.st.cstates, p.st.onBacktracks, _, s3.st.extra, s3.st.minimise, s3.st.incumbent⟩ } : Sys σ μ) = _
  rw [e1, e2, e3, e4]

theorem CallSpec.inside {E : Engine σ μ} {gs : List Lit} {s s' : Sys σ μ} {b : Bool} (h : CallSpec n E gs s b s') (hg : gs ≠ []) (hc : s.st.cstates ≠ []) : Inside n E s s' := by
  obtain ⟨e, r, i, h1, h2, h3, h4⟩ := h.onb
  obtain ⟨h5, h6⟩ := h4 hg
  subst h5
  exact ⟨h.varsTail, h.varsNe, h.cstatesTail, h.cstatesNe hc, h.guesses, h.extra, h.minimise, h.incumbent, h.clock, .inr ⟨e, r, h1, h2, h3, h6, h.steps⟩⟩

theorem Inside.before {E : Engine σ μ} {s s1 s2 : Sys σ μ} (h : Inside n E s1 s2) (he : ∃ d, s1 = { s with st := { s.st with vars := d :: s.st.vars.tail } }) : Inside n E s s2 := by
  obtain ⟨d, rfl⟩ := he
  exact ⟨h.varsTail, h.varsNe, h.cstatesTail, h.cstatesNe, h.guesses, h.extra, h.minimise, h.incumbent, h.clock, h.undo⟩

theorem NodeOK.cstatesNe {E : Engine σ μ} {s : Sys σ μ} (h : NodeOK n m E s) : s.st.cstates ≠ [] := by
  intro hc
  have := h.aligned.1; rw [hc] at this
  exact h.call.varsNe (List.eq_nil_of_length_eq_zero (by simpa using this.symm))

theorem NodeOK.inside {E : Engine σ μ} {s : Sys σ μ} (h : NodeOK n m E s) : Inside n E s s :=
  ⟨rfl, h.call.varsNe, rfl, h.cstatesNe, rfl, rfl, rfl, rfl, Nat.le_refl _, .inl ⟨rfl, rfl, rfl⟩⟩

end
end Gcs
