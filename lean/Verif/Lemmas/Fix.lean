import Verif.Lemmas.Sound

/-! When `propagate` is done, nobody has anything left to do. -/

namespace Gcs
open IntervalSet Queue

section
variable {σ μ : Type} {n m : Nat} {R : Err → Prop}

/-- `G p d t`: propagator `p` is up to date with domains `d` after the events `t`. `D p d`: it has nothing to do in `d` or below. `K`: an invariant propagators
rely on. The contract says that a run leaves the propagator up to date, if it did not change anything it subscribes to itself or truthfully claims
idempotence, and that runs of others keep it up to date if they do not change anything it subscribes to. -/
structure FixContract (n m : Nat) (E : Engine σ μ) (K : Sys σ μ → Prop) (G : Nat → Doms → List Ev → Prop) (D : Nat → Doms → Prop) : Prop where
  core : CoreStable K
  keepsK : ∀ p f sc s ps s' cs, E.progs[p]? = some f → E.scope[p]? = some sc → E.permDisabled[p]? = some false → Runnable n m s → K s →
    runProg ⟨p, sc⟩ f s = .ok (.val ps, s') → Ran s cs s' → K s'
  other : ∀ p t q ps d cs d', p ≠ q → Evolve d cs d' → (∀ c ∈ cs, ¬ Sub E p c.1 c.2) → G p d t →
    G p d' (t ++ [.start q] ++ cs.map (fun c => .change c.1 c.2) ++ [.finish q ps])
  own : ∀ p f sc s t ps s' cs, E.progs[p]? = some f → E.scope[p]? = some sc → E.permDisabled[p]? = some false → Runnable n m s → K s → s.trace = t ++ [.start p] →
    runProg ⟨p, sc⟩ f s = .ok (.val ps, s') → Ran s cs s' → ps ≠ .disableUntilBacktrack →
    ((∀ c ∈ cs, ¬ Sub E p c.1 c.2) ∨ (ps = .enableButIdempotent ∧ E.claimsIgnored[p]? = some false)) →
    G p s'.doms (t ++ [.start p] ++ cs.map (fun c => .change c.1 c.2) ++ [.finish p ps])
  disable : ∀ p f sc s s' cs, E.progs[p]? = some f → E.scope[p]? = some sc → E.permDisabled[p]? = some false → Runnable n m s → K s →
    runProg ⟨p, sc⟩ f s = .ok (.val .disableUntilBacktrack, s') → Ran s cs s' → D p s'.doms
  stable : ∀ p d cs d', Evolve d cs d' → D p d → D p d'

/-- Disabled until backtrack, now or from the end of this round. -/
def Off (s : Sys σ μ) (p : Nat) : Prop := IsDisabled s.q p ∨ p ∈ s.toDisable

/-- Everyone is accounted for. -/
def Accounted (E : Engine σ μ) (G : Nat → Doms → List Ev → Prop) (D : Nat → Doms → Prop) (s : Sys σ μ) : Prop :=
  ∀ p, E.permDisabled[p]? = some false → (Off s p → D p s.doms) ∧ (¬ Off s p → p ∈ Ready s.q ∨ Pending E s p ∨ G p s.doms s.trace)

theorem Accounted.turn {E : Engine σ μ} {K : Sys σ μ → Prop} {G D} (hC : FixContract n m E K G D) {s s' : Sys σ μ} {t : Sys.Turn}
    (hs : LoopOK n m E.progs.length s) (hK : K s) (ha : Accounted E G D s) (h : TurnSpec n m E s t s') (ht : t ≠ .contradiction) : K s' ∧ Accounted E G D s' := by
  cases h with
  | contradiction => exact absurd rfl ht
  | skipped q q' hp hd =>
    refine ⟨hC.core s _ rfl rfl rfl rfl hK, ?_⟩
    intro p hpd
    have hoff : Off { s with q := q' } p ↔ Off s p := by unfold Off; rw [hp.disabled]
    rw [hoff]
    refine ⟨(ha p hpd).1, fun hn => ?_⟩
    rcases (ha p hpd).2 hn with h | h | h
    · rw [hp.ready] at h
      rcases List.mem_cons.1 h with rfl | h
      · rw [hd] at hpd; cases hpd
      · exact .inl h
    · exact .inr (.inl h)
    · exact .inr (.inr h)
  | fine q q' f sc ig ps sr cs hp hd hf hsc hig hrun hfr hran =>
    have hrs : Runnable n m (s.started q q') := ⟨hs.ok.run.1, hs.ok.run.2, hs.ok.run.3, hs.ok.run.4, hs.ok.run.5⟩
    have hK0 : K (s.started q q') := hC.core s _ rfl rfl rfl rfl hK
    have hK1 : K sr := hC.keepsK q f sc _ ps sr cs hf hsc hd hrs hK0 hrun hran
    refine ⟨hC.core sr _ rfl rfl rfl rfl hK1, ?_⟩
    have hqq : sr.q = q' := hfr.q
    have hcl : sr.claims = s.claims := hfr.claims
    have htd : sr.toDisable = s.toDisable := hfr.toDisable
    have hinf : sr.tr.inferences = s.tr.inferences ++ cs := hran.inferences
    have hev : Evolve s.doms cs sr.doms := hran.evolve
    have htrace : (sr.settled ig q ps).trace = s.trace ++ [.start q] ++ cs.map (fun c => .change c.1 c.2) ++ [.finish q ps] := by
      show sr.trace ++ _ = _
      rw [hran.trace]; rfl
    have hclm : ∀ p e, p ≠ q → (e, p) ∈ (sr.settled ig q ps).claims → (e, p) ∈ s.claims := by
      intro p e hne he
      have he' : (e, p) ∈ (if ps = PState.enableButIdempotent ∧ ig = false ∧ sr.tr.inferences.length ≠ 0 then sr.claims ++ [(sr.tr.inferences.length, q)] else sr.claims) := he
      rw [hcl] at he'
      split at he'
      · rcases List.mem_append.1 he' with h | h
        · exact h
        · simp at h; exact absurd h.2 hne
      · exact he'
    have hdis : ∀ p, IsDisabled (sr.settled ig q ps).q p ↔ IsDisabled s.q p := by
      intro p; show IsDisabled sr.q p ↔ _; rw [hqq]; exact hp.disabled p
    have hnone : ∀ e, (e, q) ∉ s.claims := fun e he => hp.notDone hs.ok.inv ((hs.claimDone _ he).2)
    -- a subscribed inference of this run that is not covered by a claim is pending
    have hpend : ∀ p, (∃ c ∈ cs, Sub E p c.1 c.2) → (∀ e, (e, p) ∈ (sr.settled ig q ps).claims → e ≤ s.tr.inferences.length) → Pending E (sr.settled ig q ps) p := by
      rintro p ⟨c, hc, hsub⟩ hce
      obtain ⟨i, hi⟩ := List.mem_iff_getElem?.1 hc
      refine ⟨s.tr.inferences.length + i, c, ?_, hsub, ?_⟩
      · show sr.tr.inferences[_]? = _
        rw [hinf, List.getElem?_append_right (by omega)]
        rw [Nat.add_sub_cancel_left]; exact hi
      · intro e he; have := hce e he; omega
    intro p hpd
    have hoff : Off (sr.settled ig q ps) p ↔ Off s p ∨ (p = q ∧ ps = .disableUntilBacktrack) := by
      unfold Off
      rw [hdis]
      have : (sr.settled ig q ps).toDisable = if ps = PState.disableUntilBacktrack then s.toDisable ++ [q] else s.toDisable := by
        show (if ps = PState.disableUntilBacktrack then sr.toDisable ++ [q] else sr.toDisable) = _
        rw [htd]
      rw [this]
      by_cases hdd : ps = .disableUntilBacktrack
      · simp [hdd, or_assoc]
      · simp [hdd]
    by_cases hpq : p = q
    · subst hpq
      have hnoff : ¬ Off s p := by
        rintro (h | h)
        · exact hp.notDisabled hs.ok.inv h
        · exact hp.notDone hs.ok.inv (hs.disDone p h)
      constructor
      · intro ho
        rcases hoff.1 ho with h | h
        · exact absurd h hnoff
        · have h2 := h.2
          subst h2
          exact hC.disable p f sc _ sr cs hf hsc hd hrs hK0 hrun hran
      · intro ho
        have hdd : ps ≠ .disableUntilBacktrack := fun h => ho (hoff.2 (.inr ⟨rfl, h⟩))
        by_cases hidm : ps = .enableButIdempotent ∧ ig = false
        · refine .inr (.inr ?_)
          rw [htrace]
          exact hC.own p f sc _ s.trace ps sr cs hf hsc hd hrs hK0 rfl hrun hran hdd (.inr ⟨hidm.1, by rw [hig, hidm.2]⟩)
        · by_cases hsub : ∃ c ∈ cs, Sub E p c.1 c.2
          · refine .inr (.inl (hpend p hsub ?_))
            intro e he
            have he' : (e, p) ∈ (if ps = PState.enableButIdempotent ∧ ig = false ∧ sr.tr.inferences.length ≠ 0 then sr.claims ++ [(sr.tr.inferences.length, p)] else sr.claims) := he
            rw [if_neg (fun hh => hidm ⟨hh.1, hh.2.1⟩), hcl] at he'
            exact absurd he' (hnone e)
          · refine .inr (.inr ?_)
            rw [htrace]
            exact hC.own p f sc _ s.trace ps sr cs hf hsc hd hrs hK0 rfl hrun hran hdd (.inl (fun c hc hh => hsub ⟨c, hc, hh⟩))
    · have hoff' : Off (sr.settled ig q ps) p ↔ Off s p := by
        rw [hoff]
        exact ⟨fun h => h.elim id (fun h => absurd h.1 hpq), .inl⟩
      rw [hoff']
      refine ⟨fun h => hC.stable p _ cs _ hev ((ha p hpd).1 h), fun hn => ?_⟩
      rcases (ha p hpd).2 hn with h | h | h
      · left
        show p ∈ Ready sr.q
        rw [hqq]
        rw [hp.ready] at h
        rcases List.mem_cons.1 h with h | h
        · exact absurd h hpq
        · exact h
      · refine .inr (.inl ?_)
        obtain ⟨j, c, hj, hsub, hcov⟩ := h
        refine ⟨j, c, ?_, hsub, fun e he => hcov e (hclm p e hpq he)⟩
        show sr.tr.inferences[j]? = _
        rw [hinf, List.getElem?_append_left (List.getElem?_eq_some_iff.1 hj).1]; exact hj
      · by_cases hsub : ∃ c ∈ cs, Sub E p c.1 c.2
        · refine .inr (.inl (hpend p hsub ?_))
          intro e he
          exact (hs.claimDone _ (hclm p e hpq he)).1
        · refine .inr (.inr ?_)
          rw [htrace]
          exact hC.other p s.trace q ps s.doms cs sr.doms hpq hev (fun c hc hh => hsub ⟨c, hc, hh⟩) h

theorem EndSpec.core {E : Engine σ μ} {K : Sys σ μ → Prop} (hC : CoreStable K) {s s' : Sys σ μ} (h : EndSpec n m E s s') (hK : K s) : K s' := by
  refine hC s s' ?_ ?_ ?_ h.wstate hK
  · rw [h.eq]; rfl
  · rw [h.eq]
  · rw [h.eq]

theorem Accounted.endRound {E : Engine σ μ} (hE : E.WF n m R) {G D} {s s' : Sys σ μ} (ha : Accounted E G D s) (hb : s.q.begin_ = s.q.end_) (h : EndSpec n m E s s') :
    Accounted E G D s' := by
  have hd : s'.doms = s.doms := by rw [h.eq]; rfl
  have ht : s'.trace = s.trace := by rw [h.eq]
  have htd : s'.toDisable = [] := by rw [h.eq]
  have hr : Ready s.q = [] := by unfold Ready; rw [hb]; simp
  intro p hp
  have hlt : p < E.progs.length := by rw [← hE.permLen]; exact (List.getElem?_eq_some_iff.1 hp).1
  have hoff : Off s' p ↔ Off s p := by
    unfold Off; rw [h.disabled, htd]; simp
  rw [hd, ht, hoff]
  refine ⟨(ha p hp).1, fun hn => ?_⟩
  rcases (ha p hp).2 hn with h1 | h1 | h1
  · rw [hr] at h1; cases h1
  · exact .inl ((h.ready p).2 ⟨hlt, fun x => hn (.inl x), fun x => hn (.inr x), .inl h1⟩)
  · exact .inr (.inr h1)

/-- How things stand when `propagate` starts. -/
structure FixStart (E : Engine σ μ) (K : Sys σ μ → Prop) (G : Nat → Doms → List Ev → Prop) (D : Nat → Doms → Prop) (gs : List Lit) (s : Sys σ μ) : Prop where
  inv : K s
  disabled : gs ≠ [] → ∀ p, E.permDisabled[p]? = some false → IsDisabled s.q p → D p s.doms
  quiet : gs ≠ [] → ∀ p, E.permDisabled[p]? = some false → ¬ IsDisabled s.q p → (∀ c ∈ seeds gs, ¬ Sub E p c.1 c.2) → G p s.doms []

theorem Accounted.prepare {E : Engine σ μ} (hE : E.WF n m R) {K : Sys σ μ → Prop} {G D} {gs : List Lit} {s s' : Sys σ μ} (h0 : FixStart E K G D gs s)
    (h : PrepSpec n m E gs s s') : Accounted E G D s' := by
  have htd : s'.toDisable = [] := by rw [h.eq]
  have ht : s'.trace = [] := by rw [h.eq]
  intro p hp
  have hlt : p < E.progs.length := by rw [← hE.permLen]; exact (List.getElem?_eq_some_iff.1 hp).1
  have hoff : Off s' p ↔ IsDisabled s'.q p := by unfold Off; rw [htd]; simp
  rw [hoff, h.doms, ht]
  by_cases hg : gs = []
  · obtain ⟨h1, h2⟩ := h.root hg
    rw [h2, h1]
    refine ⟨fun hc => ?_, fun _ => .inl ?_⟩
    · rw [hp] at hc; cases hc
    · rw [List.mem_filter]; exact ⟨List.mem_range.2 hlt, by rw [hp]; rfl⟩
  · obtain ⟨_, _, h3, h4⟩ := h.child hg
    rw [h3]
    refine ⟨h0.disabled hg p hp, fun hn => ?_⟩
    by_cases hs : ∃ c ∈ seeds gs, Sub E p c.1 c.2
    · exact .inl ((h4 p).2 ⟨hlt, hn, .inl hs⟩)
    · exact .inr (.inr (h0.quiet hg p hp hn (fun c hc hh => hs ⟨c, hc, hh⟩)))

theorem PrepSpec.core {E : Engine σ μ} {K : Sys σ μ → Prop} (hC : CoreStable K) {gs : List Lit} {s s' : Sys σ μ} (h : PrepSpec n m E gs s s') (hK : K s) : K s' := by
  obtain ⟨e, r, _, h2⟩ := h.st
  refine hC s s' h.doms ?_ ?_ h.wstate hK
  · rw [h2]
  · rw [h.eq]

/-- The general theorem behind the fixed point properties. -/
theorem propagate_fix {E : Engine σ μ} (hE : E.WF n m R) {abort : Nat → Bool} {gs : List Lit} {s : Sys σ μ} (h : CallOK n m E gs s)
    {K : Sys σ μ → Prop} {G : Nat → Doms → List Ev → Prop} {D : Nat → Doms → Prop} (hC : FixContract n m E K G D) (h0 : FixStart E K G D gs s) {s' : Sys σ μ}
    (hr : Sys.propagate E gs abort s = .ok (true, s')) (hab : ∀ i, i < s'.clock → abort i = false) :
    K s' ∧ Ready s'.q = [] ∧ ∀ p, E.permDisabled[p]? = some false → (IsDisabled s'.q p → D p s'.doms) ∧ (¬ IsDisabled s'.q p → G p s'.doms s'.trace) := by
  have := propagate_ind hE abort h (fun s => K s ∧ Accounted E G D s)
    (fun s1 h1 => ⟨h1.core hC.core h0.inv, Accounted.prepare hE h0 h1⟩)
    (fun s1 s2 _ hi hb h2 => ⟨h2.core hC.core hi.1, hi.2.endRound hE hb h2⟩)
    (fun s1 t s2 h1 hi _ h2 ht => Accounted.turn hC h1 hi.1 hi.2 h2 ht)
    (fun s1 k _ hi => ⟨hC.core s1 _ rfl rfl rfl rfl hi.1, hi.2⟩)
  rcases this with ⟨e, he, _⟩ | ⟨b, s2, he, hend⟩
  · rw [he] at hr; cases hr
  · rw [he] at hr
    cases hr
    cases hend with
    | aborted s i _ _ ha hlt => rw [hab i hlt] at ha; cases ha
    | drained s1 s2 h1 hi h2 hi2 hb =>
      have hr0 : Ready s2.q = [] := by unfold Ready; rw [hb]; simp
      have htd : s2.toDisable = [] := by rw [h2.eq]
      have hinf : s2.tr.inferences = [] := by rw [h2.eq]
      have hoff : ∀ p, Off s2 p ↔ IsDisabled s2.q p := by intro p; unfold Off; rw [htd]; simp
      refine ⟨hC.core s2 _ rfl rfl rfl rfl hi2.1, hr0, fun p hp => ⟨fun hd => (hi2.2 p hp).1 ((hoff p).2 hd), fun hn => ?_⟩⟩
      rcases (hi2.2 p hp).2 (fun ho => hn ((hoff p).1 ho)) with h1 | ⟨j, c, hj, _⟩ | h1
      · rw [hr0] at h1; cases h1
      · rw [hinf] at hj; simp at hj
      · exact h1

end
end Gcs
