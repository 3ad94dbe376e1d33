import Verif.Spec.Engine
import Verif.Props.Infer

/-! What one run of a propagation function does to the system. -/

namespace Gcs
open IntervalSet
variable {σ μ α : Type} {n m np : Nat} {R : Err → Prop}

theorem underlyingIndex_eq (l : Lit) : l.underlyingIndex = l.underlying := by
  cases l with
  | cond c => obtain ⟨v, _, _, _⟩ := c; cases v <;> rfl
  | tt => rfl
  | ff => rfl

theorem WSteps.trans {w1 w2 w3 : Watches} (h1 : WSteps n np w1 w2) (h2 : WSteps n np w2 w3) : WSteps n np w1 w3 := by
  induction h2 with
  | refl => exact h1
  | snoc _ s ih => exact .snoc ih s

theorem WSteps.one {w1 w2 : Watches} (h : WStep n np w1 w2) : WSteps n np w1 w2 := .snoc (.refl _) h

theorem Frame.refl (s : Sys σ μ) : Frame n np s s where
  q := rfl
  claims := rfl
  toDisable := rfl
  total := rfl
  effectful := rfl
  contradicting := rfl
  conflicts := rfl
  clock := rfl
  inbox := rfl
  pending := rfl
  varsTail := rfl
  varsNe := id
  cstatesTail := rfl
  cstatesNe := id
  cstatesLen := rfl
  onBacktracks := rfl
  guesses := rfl
  extra := rfl
  minimise := rfl
  incumbent := rfl
  watches := .refl _
  domsLen := rfl

theorem Frame.trans {a b c : Sys σ μ} (h : Frame n np a b) (k : Frame n np b c) : Frame n np a c where
  q := k.q.trans h.q
  claims := k.claims.trans h.claims
  toDisable := k.toDisable.trans h.toDisable
  total := k.total.trans h.total
  effectful := k.effectful.trans h.effectful
  contradicting := k.contradicting.trans h.contradicting
  conflicts := k.conflicts.trans h.conflicts
  clock := k.clock.trans h.clock
  inbox := k.inbox.trans h.inbox
  pending := k.pending.trans h.pending
  varsTail := k.varsTail.trans h.varsTail
  varsNe := k.varsNe ∘ h.varsNe
  cstatesTail := k.cstatesTail.trans h.cstatesTail
  cstatesNe := k.cstatesNe ∘ h.cstatesNe
  cstatesLen := k.cstatesLen.trans h.cstatesLen
  onBacktracks := k.onBacktracks.trans h.onBacktracks
  guesses := k.guesses.trans h.guesses
  extra := k.extra.trans h.extra
  minimise := k.minimise.trans h.minimise
  incumbent := k.incumbent.trans h.incumbent
  watches := h.watches.trans k.watches
  domsLen := k.domsLen.trans h.domsLen

theorem Evolve.ok {d d' : Doms} {cs} (h : Evolve d cs d') : DomsOK d' := by
  cases h with
  | refl => assumption
  | snoc _ s => exact s.domsOK

theorem Evolve.okL {d d' : Doms} {cs} (h : Evolve d cs d') : DomsOK d := by
  induction h with
  | refl => assumption
  | snoc _ _ ih => exact ih

theorem Evolve.trans {d d1 d2 : Doms} {cs cs'} (h : Evolve d cs d1) (k : Evolve d1 cs' d2) : Evolve d (cs ++ cs') d2 := by
  induction k with
  | refl => simpa using h
  | snoc _ s ih => rw [← List.append_assoc]; exact .snoc ih s

theorem Evolve.length {d d' : Doms} {cs} (h : Evolve d cs d') : d'.length = d.length := by
  induction h with
  | refl => rfl
  | snoc _ s ih => rw [s.length, ih]

theorem Ran.refl {s : Sys σ μ} (h : DomsOK s.doms) (hc : s.tr.contradicted = false) : Ran s [] s := ⟨.refl _ h, by simp, by simp, by simp, hc⟩

theorem Ran.trans {a b c : Sys σ μ} {cs ds} (h : Ran a cs b) (k : Ran b ds c) : Ran a (cs ++ ds) c where
  evolve := h.evolve.trans k.evolve
  inferences := by rw [k.inferences, h.inferences, List.append_assoc]
  trace := by rw [k.trace, h.trace]; simp
  did := by rw [k.did, h.did]; cases cs <;> cases ds <;> simp
  fine := k.fine

theorem infer_var_of_effective {d : Doms} {l : Lit} {r : Inference × Doms} (h : InferSpec d l r) (h1 : r.1 ≠ .noChange) (h2 : r.1 ≠ .contradiction) :
    ∃ v, l.underlyingIndex = some v := by
  rw [underlyingIndex_eq]
  cases hu : l.underlying with
  | some v => exact ⟨v, rfl⟩
  | none =>
    rcases (h.noVar hu).2 with h3 | h3
    · exact absurd h3.1 h1
    · exact absurd h3.1 h2

theorem step_of_spec {d : Doms} {l : Lit} {r : Inference × Doms} (hd : DomsOK d) (h : InferSpec d l r) (h1 : r.1 ≠ .noChange) (h2 : r.1 ≠ .contradiction)
    {v : Nat} (hv : l.underlyingIndex = some v) : Step v r.1 d r.2 where
  domsOK := (inferMeaning_of_spec hd h).domsOK h2
  length := h.length
  others j hj := h.others j (by rw [← underlyingIndex_eq, hv]; intro he; cases he; exact hj rfl)
  own := by
    obtain ⟨s, s', e1, e2, hc⟩ := h.own v (by rw [← underlyingIndex_eq, hv])
    exact ⟨s, s', e1, e2, hc.sub, hc.kind⟩
  effective := ⟨h1, h2⟩

theorem clear_spec : ∀ (scope : List Nat) (w : Watches) (owner : Nat), ∃ w', w.clear owner scope = .ok w' ∧ WSteps n np w w' ∧ w'.inbox = w.inbox ∧ w'.pending = w.pending
  | [], w, owner => ⟨w, rfl, .refl _, rfl, rfl⟩
  | v :: vs, w, owner => by
    have htot : ∀ (k i : Nat) (ws : List RefinedWatch), ws.length - i = k → ∃ r, Watches.removeLoop (fun x => .ok (x.owner = owner)) i ws = .ok r := by
      intro k
      induction k with
      | zero =>
        intro i ws hk
        refine ⟨(ws, []), ?_⟩
        unfold Watches.removeLoop
        split
        · rfl
        · rename_i x hx
          have := (List.getElem?_eq_some_iff.1 hx).1; omega
      | succ k ih =>
        intro i ws hk
        unfold Watches.removeLoop
        split
        · exact ⟨_, rfl⟩
        · rename_i x hx
          have := (List.getElem?_eq_some_iff.1 hx).1
          by_cases ho : x.owner = owner
          · obtain ⟨r, hr⟩ := ih i (Watches.swapRemove i ws) (by rw [Watches.length_swapRemove]; omega)
            simp only [ho, decide_true, bind, Except.bind, if_true]
            rw [hr]; exact ⟨_, rfl⟩
          · obtain ⟨r, hr⟩ := ih (i + 1) ws (by omega)
            simp only [ho, decide_false, bind, Except.bind, Bool.false_eq_true, if_false]
            exact ⟨r, hr⟩
    unfold Watches.clear
    cases hb : w.byVar[v]? with
    | none =>
      obtain ⟨w', e, h1, h2, h3⟩ := clear_spec vs w owner
      refine ⟨w', ?_, h1, h2, h3⟩
      simp only [Watches.clearVar, hb, bind, Except.bind, pure, Except.pure]; exact e
    | some ws =>
      obtain ⟨r, hr⟩ := htot _ 0 ws rfl
      obtain ⟨w', e, h1, h2, h3⟩ := clear_spec vs { w with byVar := w.byVar.set v r.1, trail := (r.2.map (fun x => ⟨false, v, x⟩)).reverse ++ w.trail } owner
      refine ⟨w', ?_, (WSteps.one (.remove w v ws _ r hb hr)).trans h1, h2, h3⟩
      simp only [Watches.clearVar, hb, hr, bind, Except.bind, pure, Except.pure]; exact e

theorem frame_w {s : Sys σ μ} {w : Watches} (h : WSteps n np s.w w) (h1 : w.inbox = s.w.inbox) (h2 : w.pending = s.w.pending) :
    Frame n np s { s with w := w } :=
  { Frame.refl (n := n) (np := np) s with inbox := h1, pending := h2, watches := h }

theorem frame_tr (s : Sys σ μ) (t : Tracker) (x : List Ev) : Frame n np s { s with tr := t, trace := x } := { Frame.refl (n := n) (np := np) s with }

theorem frame_mem (s : Sys σ μ) (x : μ) : Frame n np s { s with mem := x } := { Frame.refl (n := n) (np := np) s with }

theorem setState_spec {s : Sys σ μ} {h : Nat} (v : σ) (hh : h < (s.st.cstates.headD []).length) :
    ∃ st, s.st.setConstraintState h v = .ok st ∧ Frame n np s { s with st := st } ∧ st.vars = s.st.vars := by
  unfold State.setConstraintState
  cases hc : s.st.cstates with
  | nil => rw [hc] at hh; simp at hh
  | cons e r =>
    rw [hc] at hh
    simp only [List.headD_cons] at hh ⊢
    rw [if_pos hh]
    refine ⟨_, rfl, { Frame.refl (n := n) (np := np) s with cstatesTail := by simp [hc], cstatesNe := by simp, cstatesLen := by simp [hc] }, rfl⟩

theorem register_box (w : Watches) (o : Nat) (l : Lit) (p : Nat) (t : Bool) : (w.register o l p t).inbox = w.inbox ∧ (w.register o l p t).pending = w.pending := by
  unfold Watches.register; cases l.underlyingIndex <;> exact ⟨rfl, rfl⟩

/-- Right or thrown outcome of a run. -/
def RunRight (R : Err → Prop) (x : Chk (Res α × Sys σ μ)) (Q : Res α → Sys σ μ → Prop) : Prop :=
  (∃ e, x = .error e ∧ (e = .overflow ∨ R e)) ∨ ∃ r s', x = .ok (r, s') ∧ Q r s'

theorem RunRight.mono {x : Chk (Res α × Sys σ μ)} {Q Q' : Res α → Sys σ μ → Prop} (h : RunRight R x Q) (hq : ∀ r s', Q r s' → Q' r s') : RunRight R x Q' := by
  rcases h with h | ⟨r, s', h, k⟩
  · exact .inl h
  · exact .inr ⟨r, s', h, hq _ _ k⟩

/-- After a failed `infer_*_or_stop`, nothing but bookkeeping happens. -/
theorem runProg_stops (c : Ctx) (hc : c.owner < np) : ∀ (p : Prog σ μ α) (s : Sys σ μ), p.Stops n m R → s.tr.contradicted = true →
    (s.st.cstates.headD []).length = m → RunRight R (runProg c p s) (fun _ s' => Frame n np s s' ∧ s'.tr.contradicted = true)
  | .ret a, s, _, h, _ => .inr ⟨_, _, rfl, .refl _, h⟩
  | .raise e, s, hp, h, _ => .inl ⟨e, rfl, .inr hp⟩
  | .fail, s, _, h, _ => .inr ⟨_, _, rfl, .refl _, h⟩
  | .read k, s, hp, h, hm => runProg_stops c hc (k s) s (hp s) h hm
  | .infer _ _ _, s, hp, _, _ => hp.elim
  | .progress k, s, hp, h, hm =>
    (runProg_stops c hc (k s.tr.madeProgress) { s with tr := { s.tr with madeProgress := false } } (hp _) h hm).mono
      fun _ _ q => ⟨(frame_tr s _ _).trans q.1, q.2⟩
  | .watch l x k, s, hp, h, hm => by
    have hb := register_box s.w c.owner l x true
    exact (runProg_stops c hc k { s with w := s.w.register c.owner l x true } hp.2.2 h hm).mono
      fun _ _ q => ⟨(frame_w (.one (.register _ _ _ _ hc hp.1 hp.2.1)) hb.1 hb.2).trans q.1, q.2⟩
  | .clearWatches k, s, hp, h, hm => by
    obtain ⟨w, e, h1, h2, h3⟩ := clear_spec (n := n) (np := np) c.scope s.w c.owner
    unfold runProg; rw [e]
    exact (runProg_stops c hc k { s with w := w } hp h hm).mono fun _ _ q => ⟨(frame_w h1 h2 h3).trans q.1, q.2⟩
  | .setWatchState a b k, s, hp, h, hm =>
    (runProg_stops c hc k { s with w := s.w.stateSet c.owner a b } hp h hm).mono
      fun _ _ q => ⟨(frame_w (.one (.stateSet _ _ _ _)) rfl rfl).trans q.1, q.2⟩
  | .setState i v k, s, hp, h, hm => by
    obtain ⟨st, e, h1, h2⟩ := setState_spec (n := n) (np := np) (s := s) v (by rw [hm]; exact hp.1)
    unfold runProg; rw [e]
    exact (runProg_stops c hc k { s with st := st } hp.2 h (h1.cstatesLen.trans hm)).mono fun _ _ q => ⟨h1.trans q.1, q.2⟩
  | .setMem x k, s, hp, h, hm =>
    (runProg_stops c hc k { s with mem := x } hp h hm).mono fun _ _ q => ⟨(frame_mem s _).trans q.1, q.2⟩

theorem Runnable.frame {s s' : Sys σ μ} (h : Runnable n m s) (f : Frame n np s s') {cs} (r : Ran s cs s') : Runnable n m s' :=
  ⟨r.evolve.ok, f.domsLen.trans h.domsLen, f.varsNe h.varsNe, f.cstatesLen.trans h.cstatesLen, r.fine⟩

theorem doms_eq {s : Sys σ μ} {d r} (h : s.st.vars = d :: r) : s.doms = d := by unfold Sys.doms; rw [h]; rfl

/-- The outcome of a run: a frame, and either a failure or recorded inferences. -/
def Outcome (n np : Nat) (s : Sys σ μ) (r : Res α) (s' : Sys σ μ) : Prop :=
  Frame n np s s' ∧ (Failed r s' ∨ ∃ a cs, r = .val a ∧ Ran s cs s')

theorem Outcome.after {a b c : Sys σ μ} {r : Res α} {cs} (f : Frame n np a b) (h : Ran a cs b) (k : Outcome n np b r c) : Outcome n np a r c := by
  refine ⟨f.trans k.1, ?_⟩
  rcases k.2 with k | ⟨x, ds, k1, k2⟩
  · exact .inl k
  · exact .inr ⟨x, cs ++ ds, k1, h.trans k2⟩

/-- Running any propagation function that plays by the rules. -/
theorem runProg_spec (c : Ctx) (hc : c.owner < np) : ∀ (p : Prog σ μ α) (s : Sys σ μ), Runnable n m s → p.OKAt n m R s.doms →
    RunRight R (runProg c p s) (Outcome n np s)
  | .ret a, s, h, _ => .inr ⟨_, _, rfl, .refl _, .inr ⟨a, [], rfl, .refl h.domsOK h.fine⟩⟩
  | .raise e, s, _, hp => .inl ⟨e, rfl, .inr hp⟩
  | .fail, s, h, _ => .inr ⟨_, _, rfl, .refl _, .inl (.inl rfl)⟩
  | .read k, s, h, hp => runProg_spec c hc (k s) s h (hp s rfl)
  | .infer l o k, s, h, hp => by
    unfold runProg
    rw [if_neg (by simp [h.fine])]
    obtain ⟨d, rest, hv⟩ : ∃ d rest, s.st.vars = d :: rest := by
      cases hv : s.st.vars with
      | nil => exact absurd hv h.varsNe
      | cons d r => exact ⟨d, r, rfl⟩
    have hd := doms_eq hv
    have hdOK := h.domsOK; have hdl := h.domsLen; rw [hd] at hdOK hdl
    rcases infer_spec d l hdOK (hdl.symm ▸ hp.1) with he | ⟨r, he, hs⟩
    · refine .inl ⟨.overflow, ?_, .inl rfl⟩
      simp [State.infer, hv, he, bind, Except.bind]
    · have hinf : s.st.infer l = .ok (r.1, { s.st with vars := r.2 :: rest }) := by
        simp [State.infer, hv, he, bind, Except.bind, pure, Except.pure]
      rw [hinf]
      have hfr : ∀ (t : Tracker) (x : List Ev), Frame n np s { s with st := { s.st with vars := r.2 :: rest }, tr := t, trace := x } := by
        intro t x
        refine { Frame.refl (n := n) (np := np) s with varsTail := by simp [hv], varsNe := by simp, domsLen := ?_ }
        show r.2.length = _
        rw [hs.length, hd]
      have hmean := inferMeaning_of_spec hdOK hs
      have hnext : r.1 ≠ .contradiction → (k true).OKAt n m R r.2 := fun hcon =>
        hp.2.1 r.2 (hmean.domsOK hcon) (by rw [hs.length, hdl]) (fun b => by rw [hd]; exact hmean.within hcon b)
      by_cases hcon : r.1 = .contradiction
      · have htr : s.track r.1 l { s.st with vars := r.2 :: rest } =
            ({ s with st := { s.st with vars := r.2 :: rest }, tr := { s.tr with didAnything := true, madeProgress := true, contradicted := true } }, false) := by
          rw [hcon]; rfl
        simp only [htr, Bool.false_eq_true, if_false]
        cases o with
        | false => exact .inr ⟨_, _, rfl, hfr _ _, .inl (.inl rfl)⟩
        | true =>
          simp only [if_true]
          exact (runProg_stops (n := n) (m := m) c hc (k false) { s with st := { s.st with vars := r.2 :: rest }, tr := { s.tr with didAnything := true, madeProgress := true, contradicted := true } }
            (hp.2.2 rfl) rfl h.cstatesLen).mono fun r' s' q => ⟨(hfr _ _).trans q.1, .inl (.inr q.2)⟩
      · by_cases hno : r.1 = .noChange
        · have htr : s.track r.1 l { s.st with vars := r.2 :: rest } = ({ s with st := { s.st with vars := r.2 :: rest } }, true) := by rw [hno]; rfl
          simp only [htr, if_true]
          have hsame : r.2 = d := (inferMeaning_of_spec hdOK hs).noChange hno
          have hran : Ran s [] { s with st := { s.st with vars := r.2 :: rest } } := by
            refine ⟨?_, by simp, by simp, by simp, h.fine⟩
            show Evolve s.doms [] r.2
            rw [hsame, hd]; exact .refl _ hdOK
          exact (runProg_spec c hc (k true) _ (h.frame (hfr _ _) hran) (hnext hcon)).mono fun _ _ q => q.after (hfr _ _) hran
        · obtain ⟨v, hlv⟩ := infer_var_of_effective hs hno hcon
          have htr : s.track r.1 l { s.st with vars := r.2 :: rest } =
              ({ s with
                  st := { s.st with vars := r.2 :: rest }
                  tr := { s.tr with inferences := s.tr.inferences ++ [(v, r.1)], didAnything := true, madeProgress := true }
                  trace := s.trace ++ [.change v r.1] }, true) := by
            cases hr : r.1 <;> simp [hr] at hno hcon <;> simp [Sys.track, Tracker.record, hlv]
          simp only [htr, if_true]
          have hran : Ran s [(v, r.1)] { s with
                  st := { s.st with vars := r.2 :: rest }
                  tr := { s.tr with inferences := s.tr.inferences ++ [(v, r.1)], didAnything := true, madeProgress := true }
                  trace := s.trace ++ [.change v r.1] } := by
            refine ⟨?_, rfl, rfl, by simp, h.fine⟩
            show Evolve s.doms [(v, r.1)] r.2
            rw [hd]
            exact .snoc (.refl _ hdOK) (step_of_spec hdOK hs hno hcon hlv)
          exact (runProg_spec c hc (k true) _ (h.frame (hfr _ _) hran) (hnext hcon)).mono fun _ _ q => q.after (hfr _ _) hran
  | .progress k, s, h, hp => by
    have hf := frame_tr (n := n) (np := np) s { s.tr with madeProgress := false } s.trace
    have hr : Ran s [] { s with tr := { s.tr with madeProgress := false } } := ⟨.refl _ h.domsOK, by simp, by simp, by simp, h.fine⟩
    exact (runProg_spec c hc (k s.tr.madeProgress) _ (h.frame hf hr) (hp _)).mono fun _ _ q => q.after hf hr
  | .watch l x k, s, h, hp => by
    have hb := register_box s.w c.owner l x true
    have hf : Frame n np s { s with w := s.w.register c.owner l x true } := frame_w (.one (.register _ _ _ _ hc hp.1 hp.2.1)) hb.1 hb.2
    have hr : Ran s [] { s with w := s.w.register c.owner l x true } := ⟨.refl _ h.domsOK, by simp, by simp, by simp, h.fine⟩
    exact (runProg_spec c hc k _ (h.frame hf hr) hp.2.2).mono fun _ _ q => q.after hf hr
  | .clearWatches k, s, h, hp => by
    obtain ⟨w, e, h1, h2, h3⟩ := clear_spec (n := n) (np := np) c.scope s.w c.owner
    unfold runProg; rw [e]
    have hf : Frame n np s { s with w := w } := frame_w h1 h2 h3
    have hr : Ran s [] { s with w := w } := ⟨.refl _ h.domsOK, by simp, by simp, by simp, h.fine⟩
    exact (runProg_spec c hc k _ (h.frame hf hr) hp).mono fun _ _ q => q.after hf hr
  | .setWatchState a b k, s, h, hp => by
    have hf : Frame n np s { s with w := s.w.stateSet c.owner a b } := frame_w (.one (.stateSet _ _ _ _)) rfl rfl
    have hr : Ran s [] { s with w := s.w.stateSet c.owner a b } := ⟨.refl _ h.domsOK, by simp, by simp, by simp, h.fine⟩
    exact (runProg_spec c hc k _ (h.frame hf hr) hp).mono fun _ _ q => q.after hf hr
  | .setState i v k, s, h, hp => by
    obtain ⟨st, e, h1, h2⟩ := setState_spec (n := n) (np := np) (s := s) v (by rw [h.cstatesLen]; exact hp.1)
    unfold runProg; rw [e]
    have hr : Ran s [] { s with st := st } := ⟨by show Evolve s.doms [] (st.vars.headD []); rw [h2]; exact .refl _ h.domsOK, by simp, by simp, by simp, h.fine⟩
    have h3 : k.OKAt n m R (st.vars.headD []) := by rw [h2]; exact hp.2
    exact (runProg_spec c hc k _ (h.frame h1 hr) h3).mono fun _ _ q => q.after h1 hr
  | .setMem x k, s, h, hp => by
    have hr : Ran s [] { s with mem := x } := ⟨.refl _ h.domsOK, by simp, by simp, by simp, h.fine⟩
    have hf : Frame n np s { s with mem := x } := frame_mem s x
    exact (runProg_spec c hc k _ (h.frame hf hr) hp).mono fun _ _ q => q.after hf hr

end Gcs
