import Verif.Lemmas.RefinedOK

/-! Nogoods with refined watches: a whole call of `propagate`, and the contract of the search. -/

namespace Gcs
open IntervalSet Queue
namespace Nogoods

section
variable {σ μ : Type} {n m : Nat} {R : Err → Prop}

/-- Propagator number `me` is switched on, and the others leave its nogoods alone. -/
structure Hosted (n m : Nat) (R : Err → Prop) (E : Engine σ μ) (l : List (Prog σ μ PState × Triggers)) (cell : Cell μ NogoodMem) (me : Nat) : Prop where
  built : Built n m R E l
  on : E.permDisabled[me]? = some false
  spares : ∀ (p : Nat) f, p ≠ me → E.progs[p]? = some f → E.permDisabled[p]? = some false → Spares n m cell f

theorem _root_.Gcs.Learner.hosted {V : SearchEnv σ μ} {l : List (Prog σ μ PState × Triggers)} {cell : Cell μ NogoodMem} {me : Nat} {Sol Fin : Asg → Prop} {C : Nat → Asg → Prop} {vs : Nat → List Nat} {B : List Nat}
    (h : Learner n m R V l cell me Sol Fin C vs B) : Hosted n m R V.engine l cell me := ⟨h.built, h.on, h.spares⟩

/-- The propagator with refined watches is number `me`; it has no triggers. Watches work: nobody claims to be idempotent, and they are armed on open literals only. -/
structure Watcher (n : Nat) (E : Engine σ μ) (l : List (Prog σ μ PState × Triggers)) (cell : Cell μ NogoodMem) (me : Nat) : Prop where
  posted : l[me]? = some (refined cell me, {})
  noClaims : ∀ (p : Nat) f, p ≠ me → E.progs[p]? = some f → E.claimsIgnored[p]? = some false → ∀ d, DomsOK d → d.length = n → f.Wp n (fun ps _ => ps ≠ .enableButIdempotent) d
  arms : ∀ (p : Nat) f, p ≠ me → E.progs[p]? = some f → ∀ d, DomsOK d → d.length = n → f.ArmsOpen n d

variable {E : Engine σ μ} {V : SearchEnv σ μ} {l : List (Prog σ μ PState × Triggers)} {cell : Cell μ NogoodMem} {me : Nat} {Sol Fin : Asg → Prop} {C : Nat → Asg → Prop} {vs : Nat → List Nat} {B : List Nat}

theorem Watcher.prog (h : Hosted n m R E l cell me) (hw : Watcher n E l cell me) : E.progs[me]? = some (refined cell me) := by
  rw [h.built.progs, List.getElem?_map, hw.posted]; rfl

theorem Watcher.quiet (h : Hosted n m R E l cell me) (hw : Watcher n E l cell me) : NoClaims n E := by
  intro p f hf hig d hd hl
  by_cases hp : p = me
  · subst hp
    rw [hw.prog h] at hf; cases hf
    have : (refined cell p : Prog σ μ PState).Ends (· ≠ .enableButIdempotent) := by
      have h1 : ∀ {f : Prog σ μ PState}, f.Ends (· = .enable) → f.Ends (· ≠ .enableButIdempotent) := by
        intro f
        induction f with
        | ret a => intro h; simp only [Prog.Ends] at h ⊢; rw [h]; decide
        | raise => intro _; trivial
        | fail => intro _; trivial
        | read k ih => exact fun h s => ih s (h s)
        | infer l o k ih => exact fun h => ⟨ih true h.1, ih false h.2⟩
        | progress k ih => exact fun h b => ih b (h b)
        | watch l p k ih => exact ih
        | clearWatches k ih => exact ih
        | setWatchState a b k ih => exact ih
        | setState a b k ih => exact ih
        | setMem x k ih => exact ih
      exact h1 (refined_ends cell p)
    exact this.wp d
  · exact hw.noClaims p f hp hf hig d hd hl

theorem Watcher.open (h : Hosted n m R E l cell me) (hw : Watcher n E l cell me) (p : Nat) (f : Prog σ μ PState) (hf : E.progs[p]? = some f) (d : Doms) (hd : DomsOK d) (hl : d.length = n) :
    f.ArmsOpen n d := by
  by_cases hp : p = me
  · subst hp
    rw [hw.prog h] at hf; cases hf
    exact refined_arms cell p hd hl
  · exact hw.arms p f hp hf d hd hl

theorem Watcher.unsub (h : Hosted n m R E l cell me) (hw : Watcher n E l cell me) (v : Nat) (i : Inference) : ¬ Sub E me v i := by
  rw [h.built.sub hw.posted]
  simp

/-- At the head of the loop. `S`: the nogoods; `u0`: how many of them were set up when `propagate` was called with `gs`. -/
structure Tended (E : Engine σ μ) (cell : Cell μ NogoodMem) (me : Nat) (S : List (List Cond)) (u0 : Nat) (gs : List Lit) (t : Sys σ μ) : Prop where
  store : (cell.get t.mem).store = S
  upTo : (cell.get t.mem).setUp ≤ S.length
  clauses : ∀ ni g, ni < (cell.get t.mem).setUp → S[ni]? = some g → ClauseOK t me ni g
  claims : t.claims = []
  told : box t.w me ≠ [] → me ∈ Ready t.q
  on : ¬ IsDisabled t.q me ∧ me ∉ t.toDisable
  root : gs = [] → (cell.get t.mem).setUp = S.length ∨ me ∈ Ready t.q ∧ box t.w me = []
  child : gs ≠ [] → (cell.get t.mem).setUp = u0 ∧ (me ∈ Ready t.q → box t.w me ≠ [])

/-- Watches that fire leave a message. -/
theorem fire_half {s s' : Sys σ μ} {hits : Nat → RefinedWatch → Prop} (hd : s'.doms = s.doms) (hws : s'.w.wstate = s.w.wstate) {ni : Nat} {g : List Cond}
    (hf : ∀ v, ∃ f, (armed s'.w v ++ f).Perm (armed s.w v) ∧ (∀ x ∈ f, (hits v x ∧ Entailed s.doms x.literal) ∧ x.payload ∈ box s'.w x.owner))
    (h : Good s me ni g) : ClauseOK s' me ni g := by
  have key : ∀ {x}, Watched s.w me ni x → Half s' me ni x := by
    rintro x ⟨v, y, hy, h1, h2, h3⟩
    obtain ⟨f, hp, hx⟩ := hf v
    rcases List.mem_append.1 (hp.mem_iff.2 hy) with h | h
    · exact .inl ⟨v, y, h, h1, h2, h3⟩
    · obtain ⟨⟨_, he⟩, hb⟩ := hx y h
      refine .inr ⟨?_, ?_⟩
      · rw [hd, ← h3]; exact he
      · rw [← h1, ← h2]; exact hb
  rcases h with ⟨x, hx, hr⟩ | ⟨p, q, x, y, h1, h2, h3, h4, h5, h6⟩
  · exact .inl ⟨x, hx, by rw [hd]; exact hr⟩
  · refine .inr ⟨p, q, x, y, h1, h2, h3, ?_, key h5, key h6⟩
    rw [stateGet_eq, hws, ← stateGet_eq]; exact h4

theorem tended_prep (h : Hosted n m R E l cell me) (hw : Watcher n E l cell me) {gs : List Lit} {s s1 : Sys σ μ} (hc : CallOK n m E gs s) (hp : PrepSpec n m E gs s s1)
    (hup : (cell.get s.mem).setUp ≤ (cell.get s.mem).store.length) (hg : ∀ ni g, ni < (cell.get s.mem).setUp → (cell.get s.mem).store[ni]? = some g → Good s me ni g)
    (hoff : gs ≠ [] → ¬ IsDisabled s.q me) : Tended E cell me (cell.get s.mem).store (cell.get s.mem).setUp gs s1 := by
  have hmem : s1.mem = s.mem := by rw [hp.eq]
  have hlt : me < E.progs.length := (List.getElem?_eq_some_iff.1 (hw.prog h)).1
  have hdel := hp.delivered hc
  have hon : ¬ IsDisabled s1.q me := by
    by_cases hgs : gs = []
    · rw [(hp.root hgs).2, h.on]; simp
    · rw [(hp.child hgs).2.2.1]; exact hoff hgs
  refine ⟨by rw [hmem], by rw [hmem]; exact hup, ?_, by rw [hp.eq], ?_, ⟨hon, by rw [hp.eq]; simp⟩, ?_, ?_⟩
  · intro ni g hni hgg
    rw [hmem] at hni
    refine fire_half (hits := fun _ _ => True) hp.doms hp.wstate (fun v => ?_) (hg ni g hni hgg)
    obtain ⟨f, f1, f2, _⟩ := hp.fired v
    exact ⟨f, f1, fun x hx => ⟨⟨trivial, (f2 x hx).1.2⟩, (f2 x hx).2⟩⟩
  · intro hb
    rcases hdel me hb with h1 | h1 | h1
    · exact h1
    · rcases h1 with h1 | h1
      · exact absurd h1 hon
      · rw [hp.eq] at h1; simp at h1
    · rw [h.on] at h1; cases h1
  · intro hgs
    refine .inr ⟨?_, ?_⟩
    · rw [(hp.root hgs).1]
      simp [h.on, hlt]
    · subst hgs
      cases hb : box s1.w me with
      | nil => rfl
      | cons y r =>
        obtain ⟨v, x, _, ⟨⟨_, a, _⟩, _⟩, _⟩ := hp.news me y (by rw [hb]; simp)
        simp [seeds] at a
  · intro hgs
    refine ⟨by rw [hmem], fun hr hb => ?_⟩
    rcases (((hp.child hgs).2.2.2 me).1 hr).2.2 with ⟨c, _, hs⟩ | ⟨v, y, hy, hh, ho⟩
    · exact hw.unsub h _ _ hs
    · obtain ⟨f, f1, f2, f3⟩ := hp.fired v
      rcases List.mem_append.1 (f1.mem_iff.2 hy) with h1 | h1
      · exact f3 y h1 hh
      · have := (f2 y h1).2
        rw [ho, hb] at this; simp at this

theorem tended_end (h : Hosted n m R E l cell me) (hw : Watcher n E l cell me) {S : List (List Cond)} {u0 : Nat} {gs : List Lit} {t t' : Sys σ μ} (ht : LoopOK n m E.progs.length t)
    (hi : Tended E cell me S u0 gs t) (hb : t.q.begin_ = t.q.end_) (he : EndSpec n m E t t') : Tended E cell me S u0 gs t' := by
  have hr0 : Ready t.q = [] := by unfold Ready; rw [hb]; simp
  have hmem : t'.mem = t.mem := by rw [he.eq]
  have hd : t'.doms = t.doms := by rw [he.eq]; rfl
  have hlt : me < E.progs.length := (List.getElem?_eq_some_iff.1 (hw.prog h)).1
  have hbox : box t.w me = [] := Classical.byContradiction fun hn => by have := hi.told hn; rw [hr0] at this; simp at this
  have hon : ¬ IsDisabled t'.q me := by rw [he.disabled]; exact fun hx => hx.elim hi.on.1 hi.on.2
  refine ⟨by rw [hmem]; exact hi.store, by rw [hmem]; exact hi.upTo, ?_, by rw [he.eq], ?_, ⟨hon, by rw [he.eq]; simp⟩, ?_, ?_⟩
  · intro ni g hni hg
    rw [hmem] at hni
    refine fire_half (hits := fun _ _ => True) hd he.wstate (fun v => ?_) ((hi.clauses ni g hni hg).good (by rw [hbox]; simp))
    obtain ⟨f, f1, f2, _⟩ := he.fired hi.claims v
    exact ⟨f, f1, fun x hx => ⟨⟨trivial, (f2 x hx).1.2⟩, (f2 x hx).2⟩⟩
  · intro hne
    cases hb' : box t'.w me with
    | nil => exact absurd hb' hne
    | cons y r =>
      rcases he.news me y (by rw [hb']; simp) with h1 | ⟨hc0, v, x, hx, hh, ho, _⟩
      · rw [hbox] at h1; simp at h1
      · exact (he.ready me).2 ⟨hlt, hi.on.1, hi.on.2, .inr ⟨hc0, v, x, hx, hh, ho⟩⟩
  · intro hgs
    rcases hi.root hgs with h1 | ⟨h1, _⟩
    · exact .inl (by rw [hmem]; exact h1)
    · rw [hr0] at h1; simp at h1
  · intro hgs
    refine ⟨by rw [hmem]; exact (hi.child hgs).1, fun hr hb' => ?_⟩
    rcases ((he.ready me).1 hr).2.2.2 with ⟨_, _, _, hs, _⟩ | ⟨_, v, y, hy, hh, ho⟩
    · exact hw.unsub h _ _ hs
    · obtain ⟨f, f1, f2, f3⟩ := he.fired hi.claims v
      rcases List.mem_append.1 (f1.mem_iff.2 hy) with h1 | h1
      · exact f3 y h1 hh
      · have := (f2 y h1).2
        rw [ho, hb'] at this; simp at this

theorem ClauseOK.congr {s s' : Sys σ μ} (hd : s'.doms = s.doms) (hw : s'.w = s.w) {ni : Nat} {g : List Cond} (h : ClauseOK s me ni g) : ClauseOK s' me ni g := by
  unfold ClauseOK TwoOf Half at *
  rw [hd, hw]; exact h

theorem Good.congr {s s' : Sys σ μ} (hd : s'.doms = s.doms) (ha : ∀ v, ∀ x ∈ armed s.w v, x ∈ armed s'.w v) (hst : ∀ i, s'.w.stateGet me i = s.w.stateGet me i) {ni : Nat} {g : List Cond} (h : Good s me ni g) :
    Good s' me ni g := by
  have key : ∀ {x}, Watched s.w me ni x → Watched s'.w me ni x := fun ⟨v, y, hy, h⟩ => ⟨v, y, ha v y hy, h⟩
  rcases h with ⟨x, hx, hr⟩ | ⟨p, q, x, y, h1, h2, h3, h4, h5, h6⟩
  · exact .inl ⟨x, hx, by rw [hd]; exact hr⟩
  · exact .inr ⟨p, q, x, y, h1, h2, h3, by rw [hst]; exact h4, key h5, key h6⟩

theorem tended_turn (h : Hosted n m R E l cell me) (hw : Watcher n E l cell me) {S : List (List Cond)} {u0 : Nat} {gs : List Lit} {t t' : Sys σ μ} {k : Sys.Turn}
    (ht : LoopOK n m E.progs.length t) (hi : Tended E cell me S u0 gs t) (h1 : TurnSpec n m E t k t') (hk : k ≠ .contradiction) : Tended E cell me S u0 gs t' := by
  cases h1 with
  | contradiction => exact absurd rfl hk
  | skipped p q' hp hd =>
    have hpm : p ≠ me := by rintro rfl; rw [h.on] at hd; cases hd
    have hrd : ∀ {x}, x = me → (x ∈ Ready q' ↔ x ∈ Ready t.q) := by
      rintro x rfl; rw [hp.ready]; simp [Ne.symm hpm]
    refine ⟨hi.store, hi.upTo, fun ni g h1 h2 => (hi.clauses ni g h1 h2).congr rfl rfl, hi.claims, fun hb => (hrd rfl).2 (hi.told hb), ⟨fun hx => hi.on.1 ((hp.disabled me).1 hx), hi.on.2⟩, ?_, ?_⟩
    · intro hgs; exact (hi.root hgs).imp id fun h => ⟨(hrd rfl).2 h.1, h.2⟩
    · intro hgs; exact ⟨(hi.child hgs).1, fun h => (hi.child hgs).2 ((hrd rfl).1 h)⟩
  | fine p q' f sc ig ps sr cs hp hd hf hsc hig hrun hfr hran =>
    have hrs : Runnable n m (t.started p q') := ⟨ht.ok.run.1, ht.ok.run.2, ht.ok.run.3, ht.ok.run.4, ht.ok.run.5⟩
    have hnf : ¬ Failed (.val ps) sr := by
      rintro (hx | hx)
      · cases hx
      · rw [hran.fine] at hx; cases hx
    have hq : (sr.settled ig p ps).q = q' := hfr.q
    have hbx : ∀ x, box (sr.settled ig p ps).w x = if x = p then [] else box t.w x := by
      intro x
      have : box sr.w x = box t.w x := by unfold box; rw [hfr.inbox]; rfl
      rw [← this]
      exact box_set sr.w p x
    have hcl : (sr.settled ig p ps).claims = [] := by
      show (if ps = PState.enableButIdempotent ∧ ig = false ∧ sr.tr.inferences.length ≠ 0 then sr.claims ++ [(sr.tr.inferences.length, p)] else sr.claims) = []
      rw [if_neg, hfr.claims]
      · exact hi.claims
      · rintro ⟨h1, h2, _⟩
        subst h2
        obtain ⟨v, hv, hne⟩ := wp_run (np := E.progs.length) ⟨p, sc⟩ hp.lt f _ (h.built.wf.progs f (List.mem_of_getElem? hf) _ hrs.domsOK hrs.domsLen) (hw.quiet h p f hf hig _ hrs.domsOK hrs.domsLen) hrs _ _ hrun hnf
        cases hv
        exact hne h1
    have hdis : ¬ IsDisabled (sr.settled ig p ps).q me := by rw [hq]; exact fun hx => hi.on.1 ((hp.disabled me).1 hx)
    by_cases hpm : p = me
    · subst hpm
      rw [hw.prog h] at hf; cases hf
      have hnr : p ∉ Ready q' := by
        have := ht.ok.inv.partition.nodup
        rw [hp.ready] at this
        exact (List.nodup_cons.1 this).1
      rcases refined_run hrs hrun with ⟨h1, _⟩ | ⟨h1, h2⟩
      · cases h1
      · cases h1
        have hst : (cell.get sr.mem).store = S := h2.store.trans hi.store
        have hset : (cell.get sr.mem).setUp = if box t.w p = [] then S.length else (cell.get t.mem).setUp := by
          rw [← hi.store]; exact h2.setUp
        have hgood := h2.good (fun ni g hni hg => (hi.clauses ni g hni (by rw [← hi.store]; exact hg)).congr rfl rfl)
        refine ⟨hst, ?_, ?_, hcl, ?_, ⟨hdis, ?_⟩, ?_, ?_⟩
        · show (cell.get sr.mem).setUp ≤ _
          rw [hset]; split
          · exact Nat.le_refl _
          · exact hi.upTo
        · intro ni g hni hg
          have := hgood ni g hni (by rw [hst]; exact hg)
          exact (this.congr (s' := sr.settled ig p .enable) rfl (fun _ _ h => h) fun _ => rfl).ok
        · intro hb; rw [hbx, if_pos rfl] at hb; exact absurd rfl hb
        · show p ∉ sr.toDisable
          rw [hfr.toDisable]; exact hi.on.2
        · intro hgs
          left
          show (cell.get sr.mem).setUp = _
          rw [hset]
          rcases hi.root hgs with h1 | ⟨_, h1⟩
          · rw [h1]; simp
          · rw [if_pos h1]
        · intro hgs
          obtain ⟨c1, c2⟩ := hi.child hgs
          refine ⟨?_, fun hr => ?_⟩
          · show (cell.get sr.mem).setUp = _
            rw [hset, if_neg (c2 (by rw [hp.ready]; simp)), c1]
          · rw [hq] at hr; exact absurd hr hnr
    · have hmem : cell.get sr.mem = cell.get t.mem := h.spares p f hpm hf hd ⟨p, sc⟩ (t.started p q') _ sr hrs hrun
      have hmem' : cell.get (sr.settled ig p ps).mem = cell.get t.mem := hmem
      have hrd : ∀ {x}, x = me → (x ∈ Ready (sr.settled ig p ps).q ↔ x ∈ Ready t.q) := by
        rintro x rfl; rw [hq, hp.ready]; simp [Ne.symm hpm]
      have hb : box (sr.settled ig p ps).w me = box t.w me := by rw [hbx, if_neg (Ne.symm hpm)]
      obtain ⟨o1, o2⟩ := other_run (me := me) (c := ⟨p, sc⟩) hpm f _ _ _ hrun
      refine ⟨by rw [hmem']; exact hi.store, by rw [hmem']; exact hi.upTo, ?_, hcl, ?_, ⟨hdis, ?_⟩, ?_, ?_⟩
      · intro ni g hni hg
        rw [hmem'] at hni
        have key : ∀ {x}, Half t me ni x → Half (sr.settled ig p ps) me ni x := by
          rintro x (⟨v, y, hy, h1, h2⟩ | ⟨h1, h2⟩)
          · exact .inl ⟨v, y, o1 v y hy h1, h1, h2⟩
          · exact .inr ⟨h1.evolve (show Evolve t.doms cs sr.doms from hran.evolve), by rw [hb]; exact h2⟩
        rcases hi.clauses ni g hni hg with ⟨x, hx, hr⟩ | ⟨p, q, x, y, h1, h2, h3, h4, h5, h6⟩
        · exact .inl ⟨x, hx, hr.evolve (show Evolve t.doms cs sr.doms from hran.evolve)⟩
        · exact .inr ⟨p, q, x, y, h1, h2, h3, (o2 ni).trans h4, key h5, key h6⟩
      · intro hne; rw [hb] at hne; exact (hrd rfl).2 (hi.told hne)
      · show me ∉ (if ps = PState.disableUntilBacktrack then sr.toDisable ++ [p] else sr.toDisable)
        have : me ∉ sr.toDisable := by rw [hfr.toDisable]; exact hi.on.2
        split
        · simp [this, Ne.symm hpm]
        · exact this
      · intro hgs
        rw [hmem', hb]
        exact (hi.root hgs).imp id fun h => ⟨(hrd rfl).2 h.1, h.2⟩
      · intro hgs
        rw [hmem', hb]
        exact ⟨(hi.child hgs).1, fun h => (hi.child hgs).2 ((hrd rfl).1 h)⟩

/-- A whole call. -/
theorem refined_call (h : Hosted n m R E l cell me) (hw : Watcher n E l cell me) {abort : Nat → Bool} {gs : List Lit} {s : Sys σ μ} (hc : CallOK n m E gs s)
    (hup : (cell.get s.mem).setUp ≤ (cell.get s.mem).store.length) (hg : ∀ ni g, ni < (cell.get s.mem).setUp → (cell.get s.mem).store[ni]? = some g → Good s me ni g)
    (hoff : gs ≠ [] → ¬ IsDisabled s.q me) {b : Bool} {s' : Sys σ μ} (e : Sys.propagate E gs abort s = .ok (b, s')) :
    (cell.get s'.mem).store = (cell.get s.mem).store ∧ (gs ≠ [] → (cell.get s'.mem).setUp = (cell.get s.mem).setUp) ∧
    (b = true → (∀ i, i < s'.clock → abort i = false) →
      (cell.get s'.mem).setUp ≤ (cell.get s.mem).store.length ∧ (gs = [] → (cell.get s'.mem).setUp = (cell.get s.mem).store.length) ∧ ¬ IsDisabled s'.q me ∧
      ∀ ni g, ni < (cell.get s'.mem).setUp → (cell.get s.mem).store[ni]? = some g → Good s' me ni g) := by
  have ind := propagate_ind h.built.wf abort hc (Tended E cell me (cell.get s.mem).store (cell.get s.mem).setUp gs) ?_ ?_ ?_ ?_
  rotate_left
  · intro s1 h1; exact tended_prep h hw hc h1 hup hg hoff
  · intro t t' ht hi hb he; exact tended_end h hw ht hi hb he
  · intro t k t' ht hi _ h1 hk; exact tended_turn h hw ht hi h1 hk
  · intro t k _ hi
    exact ⟨hi.store, hi.upTo, fun ni g h1 h2 => (hi.clauses ni g h1 h2).congr rfl rfl, hi.claims, hi.told, hi.on, hi.root, hi.child⟩
  rcases ind with ⟨e', he, _⟩ | ⟨b', s1, he, hend⟩
  · rw [he] at e; cases e
  · rw [he] at e; cases e
    generalize hob : (some (!b)) = ob at hend
    cases hend with
    | fuel => cases hob
    | contradiction t _ ht hi _ hturn =>
      cases b with
      | true => cases hob
      | false =>
        cases hturn with
        | contradiction p q' f sc r sr w hp hd hf hsc hrun hfr hfail hww =>
          have hrs : Runnable n m (t.started p q') := ⟨ht.ok.run.1, ht.ok.run.2, ht.ok.run.3, ht.ok.run.4, ht.ok.run.5⟩
          have hm : cell.get sr.mem = cell.get t.mem := by
            by_cases hpm : p = me
            · subst hpm
              rw [hw.prog h] at hf; cases hf
              rcases refined_run hrs hrun with ⟨_, _, h1⟩ | ⟨h1, h2⟩
              · rw [h1]; rfl
              · subst h1
                rcases hfail with hx | hx
                · cases hx
                · rw [h2.run.fine] at hx; cases hx
            · exact h.spares p f hpm hf hd ⟨p, sc⟩ (t.started p q') _ sr hrs hrun
          refine ⟨?_, fun hgs => ?_, nofun⟩
          · show (cell.get sr.mem).store = _
            rw [hm]; exact hi.store
          · show (cell.get sr.mem).setUp = _
            rw [hm]; exact (hi.child hgs).1
    | aborted t i ht hi hx hlt =>
      refine ⟨hi.store, fun hgs => (hi.child hgs).1, fun _ hab => ?_⟩
      rw [hab i hlt] at hx; cases hx
    | drained t _ ht hit hend hi hb =>
      have hr0 : Ready s1.q = [] := by unfold Ready; rw [hb]; simp
      have hbox : box s1.w me = [] := Classical.byContradiction fun hn => by have := hi.told hn; rw [hr0] at this; simp at this
      refine ⟨hi.store, fun hgs => (hi.child hgs).1, fun _ _ => ⟨hi.upTo, fun hgs => ?_, hi.on.1, fun ni g h1 h2 => ?_⟩⟩
      · rcases hi.root hgs with h1 | ⟨h1, _⟩
        · exact h1
        · rw [hr0] at h1; simp at h1
      · exact ((hi.clauses ni g h1 h2).good (by rw [hbox]; simp)).congr (s' := s1.flushed) rfl (fun _ _ h => h) fun _ => rfl

/-! ## The contract -/

/-- Nothing armed is entailed. -/
def AllOpen (s : Sys σ μ) : Prop := ∀ v, ∀ x ∈ armed s.w v, ¬ Entailed s.doms x.literal

/-- The nogoods that have been set up are watched. -/
def Kept (cell : Cell μ NogoodMem) (me : Nat) (s : Sys σ μ) : Prop :=
  (cell.get s.mem).setUp ≤ (cell.get s.mem).store.length ∧ (∀ ni g, ni < (cell.get s.mem).setUp → (cell.get s.mem).store[ni]? = some g → Good s me ni g) ∧ AllOpen s

/-- Every nogood that is watched and violated only where something is left open has a literal that is refuted, or two at different places that are not known to be true. -/
theorem Kept.unit {s : Sys σ μ} (h : Kept cell me s) {ni : Nat} {g : List Cond} (hni : ni < (cell.get s.mem).setUp) (hg : (cell.get s.mem).store[ni]? = some g) :
    (∃ x ∈ g, Refuted s.doms x) ∨ ∃ (p q : Nat) (x y : Cond), p ≠ q ∧ g[p]? = some x ∧ g[q]? = some y ∧ ¬ Entailed s.doms (.cond x) ∧ ¬ Entailed s.doms (.cond y) := by
  have key : ∀ {x}, Watched s.w me ni x → ¬ Entailed s.doms (.cond x) := by
    rintro x ⟨v, y, hy, _, _, h3⟩ he
    exact h.2.2 v y hy (by rw [h3]; exact he)
  rcases h.2.1 ni g hni hg with hx | ⟨p, q, x, y, h1, h2, h3, _, h5, h6⟩
  · exact .inl hx
  · exact .inr ⟨p, q, x, y, h1, h2, h3, key h5, key h6⟩

theorem refined_checking (h : Learner n m R V l cell me Sol Fin C vs B) (hw : Watcher n V.engine l cell me) :
    Checking n m V.engine l (fun _ => True) (withNogoods C me []) (fun p => if p = me then [] else vs p) := by
  constructor
  · intro _ _ _ _ _ _ _; trivial
  · intros; trivial
  · intro p f t hl hpd v hv
    by_cases hp : p = me
    · rw [if_pos hp] at hv; simp at hv
    · rw [if_neg hp] at hv
      exact (h.checks p f t hp hl hpd).wakes v hv
  · intro p f sc s ps s' cs hf _ hpd hs _ hrun hran
    by_cases hp : p = me
    · subst hp
      unfold withNogoods
      rw [if_pos rfl]
      simp
    · obtain ⟨t, he⟩ := h.built.posted hf
      obtain ⟨h1, h2, h3⟩ := checks_run h.built.wf (h.checks p f t hp he hpd) hf hs hrun hran
      unfold withNogoods
      simp only [if_neg hp]
      exact ⟨h1, fun hi => h2 (h.built.claims he hi), h3⟩

theorem refined_keeps (h : Learner n m R V l cell me Sol Fin C vs B) (hw : Watcher n V.engine l cell me) {S : List (List Cond)} {a : Asg} (ha : Sol a) (hS : ∀ g ∈ S, ¬ Forbids g a) (p : Nat) (f : Prog σ μ PState) (sc : List Nat)
    (hf : V.engine.progs[p]? = some f) (hpd : V.engine.permDisabled[p]? = some false) : Keeps n m (fun t => (cell.get t.mem).store = S) a ⟨p, sc⟩ f := by
  intro s r s' hs hK hwi hrun
  by_cases hp : p = me
  · subst hp
    rw [hw.prog h.hosted] at hf; cases hf
    rcases refined_run hs hrun with ⟨_, h1, _⟩ | ⟨h1, h2⟩
    · obtain ⟨g, hg, hfb⟩ := h1 a hwi
      exact absurd hfb (hS g (hK ▸ hg))
    · subst h1
      refine ⟨?_, h2.keep a hwi (by rw [hK]; exact hS), h2.store.trans hK⟩
      rintro (hx | hx)
      · cases hx
      · rw [h2.run.fine] at hx; cases hx
  · obtain ⟨h1, h2⟩ := sound_run ⟨p, sc⟩ (List.getElem?_eq_some_iff.1 hf).1 f s (h.built.wf.progs f (List.mem_of_getElem? hf) _ hs.domsOK hs.domsLen) (h.sound p f hp hf hpd a ha _ hs.domsOK hs.domsLen hwi) hs hwi r s' hrun
    refine ⟨h1, h2, ?_⟩
    show (cell.get s'.mem).store = S
    rw [h.spares p f hp hf hpd _ s _ s' hs hrun]; exact hK

/-- Memory after the root: nogoods are only added, and none is set up. -/
def GrowsOnly (cell : Cell μ NogoodMem) (n : Nat) (B : List Nat) (x y : μ) : Prop := Grows cell n B x y ∧ (cell.get y).setUp = (cell.get x).setUp

theorem refined_contract (h : Learner n m R V l cell me Sol Fin C vs B) (hw : Watcher n V.engine l cell me) :
    SearchPre n m R V Sol Fin (fun d => ∀ v ∈ B, Fixed d v) (fun x => (cell.get x).store) (GrowsOnly cell n B) (fun s => AllGuesses n B (cell.get s.mem).store ∧ Kept cell me s)
      (fun k s => Checked V.engine (withNogoods C me []) (fun p => if p = me then [] else vs p) s ∧ k ≤ (cell.get s.mem).setUp ∧ ¬ IsDisabled s.q me ∧ AllGuesses n B (cell.get s.mem).store ∧ Kept cell me s) where
  runs := fun _ _ _ he => he.runs h.built.wf
  objective := h.objectiveFixed
  branch := h.branches
  monotone := h.monotone
  le_refl := fun _ => ⟨⟨List.prefix_refl _, id⟩, rfl⟩
  le_trans := fun _ _ _ h1 h2 => ⟨⟨h1.1.1.trans h2.1.1, fun h => h2.1.2 (h1.1.2 h)⟩, h2.2.trans h1.2⟩
  learned := by
    intro add ha g x hg
    rw [h.learn] at ha; cases ha
    have e : (cell.get (cell.set ((cell.get x).add g) x)).store = (cell.get x).store ++ [g] := by rw [cell.get_set]; rfl
    refine ⟨⟨⟨by rw [e]; exact List.prefix_append _ _, fun hx => ?_⟩, by rw [cell.get_set]; rfl⟩, e⟩
    rw [e]
    intro g' hg'
    rcases List.mem_append.1 hg' with h1 | h1
    · exact hx g' h1
    · cases List.mem_singleton.1 h1; exact hg
  call := by
    intro k gs s b s' he hr
    obtain ⟨hk, ho⟩ := he.origin
    have start : AllGuesses n B (cell.get s.mem).store ∧ (cell.get s.mem).setUp ≤ (cell.get s.mem).store.length ∧
        (∀ ni g, ni < (cell.get s.mem).setUp → (cell.get s.mem).store[ni]? = some g → Good s me ni g) ∧ (gs ≠ [] → ¬ IsDisabled s.q me ∧ k ≤ (cell.get s.mem).setUp) ∧
        (∀ v, ∀ x ∈ armed s.w v, Entailed s.doms x.literal → ∃ g ∈ gs, g.underlyingIndex = some v) := by
      rcases ho with ⟨rfl, hJ, _⟩ | ⟨_, p, cs, _, h2, _, h3, h4, h5, hm, _, h6⟩
      · exact ⟨hJ.1, hJ.2.1, hJ.2.2.1, fun h => absurd rfl h, fun v x hx he => absurd he (hJ.2.2.2 v x hx)⟩
      · obtain ⟨_, k1, k2, k3, k4⟩ := h2
        refine ⟨by rw [hm]; exact k3, by rw [hm]; exact k4.1, ?_, fun _ => ⟨by rw [h4]; exact k2, by rw [hm]; exact k1⟩, ?_⟩
        · intro ni g hni hg
          rw [hm] at hni hg
          rcases k4.2.1 ni g hni hg with ⟨x, hx, hr⟩ | ⟨a, b, x, y, q1, q2, q3, q4, q5, q6⟩
          · exact .inl ⟨x, hx, hr.evolve h3⟩
          · exact .inr ⟨a, b, x, y, q1, q2, q3, by rw [h5]; exact q4, by rw [h5]; exact q5, by rw [h5]; exact q6⟩
        · intro v x hx he
          rw [h5] at hx
          have hu := (armed_ok (h5 ▸ hk.watches) hx).2.2.1
          obtain ⟨inf, hin, _⟩ := evolve_mask h3 hu (k4.2.2 v x hx) he
          have := h6 _ hin
          obtain ⟨g, hg, hgu⟩ := List.mem_filterMap.1 this
          refine ⟨g, hg, ?_⟩
          cases hgi : g.underlyingIndex with
          | none => rw [hgi] at hgu; simp at hgu
          | some u => rw [hgi] at hgu; simp at hgu; rw [hgu]
    obtain ⟨s1, s2, s3, s4, s5⟩ := start
    obtain ⟨hstore, hsame, hfin⟩ := refined_call h.hosted hw hk s2 s3 (fun hgs => (s4 hgs).1) hr
    refine ⟨?_, fun hgs => ⟨⟨by rw [hstore]; exact List.prefix_refl _, by rw [hstore]; exact id⟩, hsame hgs⟩, hstore, ?_⟩
    · intro a ha hS hwi
      have := propagate_keeps h.built.wf V.abort hk (K := fun t => (cell.get t.mem).store = (cell.get s.mem).store) (a := a) (fun t t' _ _ h1 _ h2 => (congrArg (fun x => (cell.get x).store) h1).trans h2)
        (fun p f sc hf hsc hpd => refined_keeps h hw ha hS p f sc hf hpd) rfl hwi hr
      exact ⟨this.1, this.2.1⟩
    · rintro rfl hab
      obtain ⟨f1, f2, f3, f4⟩ := hfin rfl hab
      refine ⟨?_, ?_, f3, by rw [hstore]; exact s1, by rw [hstore]; exact f1, by rw [hstore]; exact f4, propagate_open h.built.wf hk s5 (hw.quiet h.hosted) (hw.open h.hosted) hr hab⟩
      · refine checked_call h.built (refined_checking h hw) hk trivial ?_ hr hab
        rcases ho with ⟨rfl, _⟩ | ⟨_, p, cs, _, h2, _, h3, h4, _, hm, _, h5⟩
        · exact .inl rfl
        · exact .inr ⟨p, cs, h2.1, h3, h4, h5⟩
      · by_cases hgs : gs = []
        · subst hgs
          rw [f2 rfl]
          cases he with
          | root _ _ _ hk => exact hk
        · rw [hsame hgs]; exact (s4 hgs).2
  back := by
    intro k p p' _ ⟨h1, h2, h3, h4, h5⟩ hs hle
    refine ⟨fun q hq => ?_, by rw [hle.2]; exact h2, by rw [hs.disabled]; exact h3, hle.1.2 h4, by rw [hle.2]; exact Nat.le_trans h5.1 hle.1.1.length_le, ?_, ?_⟩
    · obtain ⟨h4, h5⟩ := h1 q hq
      rw [hs.disabled q, hs.doms]
      exact ⟨h4, h5⟩
    · intro ni g hni hg
      rw [hle.2] at hni
      have hg' : (cell.get p.mem).store[ni]? = some g := by
        obtain ⟨z, hz⟩ := hle.1.1
        have : (cell.get p'.mem).store = (cell.get p.mem).store ++ z := hz.symm
        rw [this, List.getElem?_append_left (by have := h5.1; omega)] at hg
        exact hg
      exact (h5.2.1 ni g hni hg').congr hs.doms (fun v x hx => ((hs.w.like.armed v).mem_iff).2 hx) fun i => hs.w.slike.get me i
    · intro v x hx
      rw [hs.doms]
      exact h5.2.2 v x (((hs.w.like.armed v).mem_iff).1 hx)
  again := fun _ _ h => ⟨h.2.2.2.1, h.2.2.2.2⟩
  leaf := by
    intro k s _ ⟨hi, hku, _, hall, hkept⟩ hl a ha
    refine ⟨h.sol a fun p hpm hp => ?_, fun g hg hfb => ?_⟩
    · have key : withNogoods C me [] p a := by
        by_cases hd : IsDisabled s.q p
        · exact (hi p hp).1 hd a ha
        · refine (hi p hp).2 hd (fun v hv => hl v ?_) a ha
          have hv : v ∈ if p = me then [] else vs p := hv
          rw [if_neg hpm] at hv; exact h.vars p hpm hp v hv
      unfold withNogoods at key
      rw [if_neg hpm] at key; exact key
    · obtain ⟨ni, hlt, hgi⟩ := List.mem_iff_getElem.1 hg
      have hgi' : (cell.get s.mem).store[ni]? = some g := by
        rw [List.length_take] at hlt
        rw [← hgi, List.getElem_take]
        exact List.getElem?_eq_getElem (by omega)
      have hni : ni < (cell.get s.mem).setUp := by
        rw [List.length_take] at hlt; omega
      rcases hkept.unit hni hgi' with ⟨x, hx, hr⟩ | ⟨p, q, x, y, _, hx, _, ho, _⟩
      · exact hr a ha (hfb x hx)
      · have hxm := List.mem_of_getElem? hx
        exact ho fun b hb => (hall g (List.mem_of_getElem? hgi') x hxm).2 s.doms a b hl ha hb (hfb x hxm)

end
end Nogoods
end Gcs
