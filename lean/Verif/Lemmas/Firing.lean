import Verif.Lemmas.Watching
import Verif.Lemmas.Fix

/-! Watches over a whole call of `propagate`. -/

namespace Gcs
open IntervalSet Queue

section
variable {σ μ : Type} {n m : Nat} {R : Err → Prop}

theorem armed_ok {np : Nat} {w : Watches} (h : WatchesOK n np w) {v : Nat} {x : RefinedWatch} (hx : x ∈ armed w v) :
    x.literal.Valid n ∧ x.literal.RangeOK ∧ x.literal.underlyingIndex = some v ∧ x.owner < np ∧ x.mask = triggerMask x.literal ∧ x.id < w.nextId := by
  unfold armed at hx
  cases hb : w.byVar[v]? with
  | none => rw [hb] at hx; simp at hx
  | some ws => rw [hb] at hx; exact h v ws x hb hx

theorem inst_mem_mask (l : Lit) : Inference.instantiated ∈ triggerMask l := by
  cases l with
  | cond c => obtain ⟨_, op, _, _⟩ := c; cases op <;> simp [triggerMask]
  | tt => simp [triggerMask]
  | ff => simp [triggerMask]

/-- `propagate` only changes the watches in ways that can be undone. -/
theorem propagate_wsteps {E : Engine σ μ} (hE : E.WF n m R) {abort : Nat → Bool} {gs : List Lit} {s : Sys σ μ} (h : CallOK n m E gs s) {b : Bool} {s' : Sys σ μ}
    (e : Sys.propagate E gs abort s = .ok (b, s')) : WSteps n E.progs.length s.w s'.w := by
  have ind := propagate_ind hE abort h (fun t => WSteps n E.progs.length s.w t.w) ?_ ?_ ?_ ?_
  rotate_left
  · intro s1 h1; exact h1.steps
  · intro t t' _ hi _ h1; exact hi.trans h1.steps
  · intro t k t' _ hi _ h1 hk
    cases h1 with
    | contradiction => exact absurd rfl hk
    | skipped => exact hi
    | fine p q' f sc ig ps sr cs hp hd hf hsc hig hrun hfr hran =>
      exact (hi.trans hfr.watches).snoc (.box sr.w (sr.w.inbox.set p []) sr.w.pending)
  · intro t k _ hi; exact hi
  rcases ind with ⟨e', he, _⟩ | ⟨b', s1, he, hend⟩
  · rw [he] at e; cases e
  · rw [he] at e; cases e
    refine WSteps.snoc ?_ (.box s1.w _ _)
    generalize (some (!b)) = ob at hend
    cases hend with
    | fuel _ hi => assumption
    | contradiction t _ _ hi _ ht =>
      cases ht with
      | contradiction p q' f sc r sr w hp hd hf hsc hrun hfr hfail hw =>
        have h2 : WSteps n E.progs.length s.w sr.w := hi.trans hfr.watches
        rcases hw with rfl | rfl
        · exact h2
        · exact h2.snoc (.box sr.w _ _)
    | drained t _ _ _ _ hi => exact hi
    | aborted => assumption

/-- Every armed watch with an entailed literal is about to be looked at. -/
def WOpen (s : Sys σ μ) : Prop := ∀ v, ∀ x ∈ armed s.w v, Entailed s.doms x.literal → Hit s.doms s.tr.inferences v x

/-- Nobody's claim of idempotence is honoured. -/
def NoClaims (n : Nat) (E : Engine σ μ) : Prop :=
  ∀ (p : Nat) f, E.progs[p]? = some f → E.claimsIgnored[p]? = some false → ∀ d, DomsOK d → d.length = n → f.Wp n (fun ps _ => ps ≠ .enableButIdempotent) d

theorem propagate_open {E : Engine σ μ} (hE : E.WF n m R) {abort : Nat → Bool} {gs : List Lit} {s : Sys σ μ} (h : CallOK n m E gs s)
    (h0 : ∀ v, ∀ x ∈ armed s.w v, Entailed s.doms x.literal → ∃ g ∈ gs, g.underlyingIndex = some v)
    (hcl : NoClaims n E) (harm : ∀ (p : Nat) f, E.progs[p]? = some f → ∀ d, DomsOK d → d.length = n → f.ArmsOpen n d) {s' : Sys σ μ}
    (e : Sys.propagate E gs abort s = .ok (true, s')) (hab : ∀ i, i < s'.clock → abort i = false) : ∀ v, ∀ x ∈ armed s'.w v, ¬ Entailed s'.doms x.literal := by
  have ind := propagate_ind hE abort h (fun t => t.claims = [] ∧ WOpen t) ?_ ?_ ?_ ?_
  rotate_left
  · intro s1 h1
    refine ⟨by rw [h1.eq], fun v x hx he => ?_⟩
    obtain ⟨f, hf, _, hno⟩ := h1.fired v
    have hxs : x ∈ armed s.w v := hf.mem_iff.1 (by simp [hx])
    rw [h1.doms] at he
    obtain ⟨g, hg, hu⟩ := h0 v x hxs he
    refine absurd ⟨⟨.instantiated, ?_, ?_⟩, he⟩ (hno x hx)
    · exact List.mem_filterMap.2 ⟨g, hg, by simp [hu]⟩
    · rw [(armed_ok h.watches hxs).2.2.2.2.1]; exact inst_mem_mask _
  · intro t t' ht hi _ h1
    refine ⟨by rw [h1.eq], fun v x hx he => ?_⟩
    obtain ⟨f, hf, _, hno⟩ := h1.fired hi.1 v
    have hd : t'.doms = t.doms := by rw [h1.eq]; rfl
    rw [hd] at he
    exact absurd (hi.2 v x (hf.mem_iff.1 (by simp [hx])) he) (hno x hx)
  · intro t k t' ht hi _ h1 hk
    cases h1 with
    | contradiction => exact absurd rfl hk
    | skipped => exact hi
    | fine p q' f sc ig ps sr cs hp hd hf hsc hig hrun hfr hran =>
      have hrs : Runnable n m (t.started p q') := ⟨ht.ok.run.1, ht.ok.run.2, ht.ok.run.3, ht.ok.run.4, ht.ok.run.5⟩
      have hok := hE.progs f (List.mem_of_getElem? hf) _ hrs.domsOK hrs.domsLen
      have hnf : ¬ Failed (.val ps) sr := by
        rintro (hx | hx)
        · cases hx
        · rw [hran.fine] at hx; cases hx
      constructor
      · show (if ps = PState.enableButIdempotent ∧ ig = false ∧ sr.tr.inferences.length ≠ 0 then sr.claims ++ [(sr.tr.inferences.length, p)] else sr.claims) = []
        rw [if_neg, hfr.claims]
        · exact hi.1
        · rintro ⟨h1, h2, _⟩
          subst h2
          obtain ⟨v, hv, hne⟩ := wp_run (np := E.progs.length) ⟨p, sc⟩ hp.lt f _ hok (hcl p f hf hig _ hrs.domsOK hrs.domsLen) hrs _ _ hrun hnf
          cases hv
          exact hne h1
      · obtain ⟨ds, hran', hnew⟩ := arms_run (np := E.progs.length) ⟨p, sc⟩ hp.lt f _ hok (harm p f hf _ hrs.domsOK hrs.domsLen) hrs _ _ hrun hnf
        have hinf : sr.tr.inferences = t.tr.inferences ++ ds := hran'.inferences
        intro v x hx he
        have hx' : x ∈ armed sr.w v := hx
        have he' : Entailed sr.doms x.literal := he
        show Hit sr.doms sr.tr.inferences v x
        rw [hinf]
        rcases hnew v x hx' with h2 | h2
        · by_cases hold : Entailed t.doms x.literal
          · obtain ⟨⟨inf, a, b⟩, _⟩ := hi.2 v x h2 hold
            exact ⟨⟨inf, by simp [a], b⟩, he'⟩
          · have hm := armed_ok ht.ok.watches (show x ∈ armed t.w v from h2)
            obtain ⟨inf, a, b⟩ := evolve_mask (show Evolve t.doms ds sr.doms from hran'.evolve) hm.2.2.1 hold he'
            exact ⟨⟨inf, by simp [a], by rw [hm.2.2.2.2.1]; exact b⟩, he'⟩
        · obtain ⟨⟨inf, a, b⟩, d⟩ := h2 he'
          exact ⟨⟨inf, by simp [a], b⟩, d⟩
  · intro t k _ hi; exact hi
  rcases ind with ⟨e', he, _⟩ | ⟨b', s1, he, hend⟩
  · rw [he] at e; cases e
  · rw [he] at e; cases e
    generalize hob : (some (!true)) = ob at hend
    cases hend with
    | fuel => cases hob
    | contradiction => cases hob
    | aborted _ i _ _ hx hlt => rw [hab i hlt] at hx; cases hx
    | drained t _ ht hit hend hi _ =>
      intro v x hx he
      have hx' : x ∈ armed s1.w v := hx
      have he' : Entailed s1.doms x.literal := he
      obtain ⟨⟨inf, a, _⟩, _⟩ := hi.2 v x hx' he'
      have : s1.tr.inferences = [] := by rw [hend.eq]
      rw [this] at a; simp at a

/-- Payloads that were sent are waiting for someone who will run, or is disabled. -/
def Delivered (E : Engine σ μ) (s : Sys σ μ) : Prop := ∀ p, box s.w p ≠ [] → p ∈ Ready s.q ∨ Off s p ∨ E.permDisabled[p]? = some true

theorem loop_delivers {E : Engine σ μ} (hE : E.WF n m R) {abort : Nat → Bool} {fuel : Nat} {s s' : Sys σ μ} (hs : LoopOK n m E.progs.length s)
    (h0 : Delivered E s) (e : Sys.loop E abort fuel s = .ok (some false, s')) (hab : ∀ i, i < s'.clock → abort i = false) :
    ∀ p, box s'.w p ≠ [] → IsDisabled s'.q p ∨ E.permDisabled[p]? = some true := by
  have ind := loop_ind hE abort (Delivered E) ?_ ?_ ?_ fuel s hs h0
  rotate_left
  · intro t t' ht hi hb h1 p hp
    have hr0 : Ready t.q = [] := by unfold Ready; rw [hb]; simp
    rcases hc : box t'.w p with _ | ⟨y, r⟩
    · exact absurd hc hp
    rcases h1.news p y (by rw [hc]; simp) with hy | ⟨hc0, v, x, hx, hh, ho, _⟩
    · rcases hi p (by intro h; rw [h] at hy; simp at hy) with h | h | h
      · rw [hr0] at h; simp at h
      · exact .inr (.inl (.inl ((h1.disabled p).2 h)))
      · exact .inr (.inr h)
    · by_cases hd : IsDisabled t.q p ∨ p ∈ t.toDisable
      · exact .inr (.inl (.inl ((h1.disabled p).2 hd)))
      · refine .inl ((h1.ready p).2 ⟨ho ▸ (armed_ok ht.ok.watches hx).2.2.2.1, fun h => hd (.inl h), fun h => hd (.inr h), .inr ⟨hc0, v, x, hx, hh, ho⟩⟩)
  · intro t k t' ht hi hne h1 hk p hp
    cases h1 with
    | contradiction => exact absurd rfl hk
    | skipped q q' hpop hpd =>
      rcases hi p hp with h | h | h
      · rw [hpop.ready] at h
        rcases List.mem_cons.1 h with rfl | h
        · exact .inr (.inr hpd)
        · exact .inl h
      · refine .inr (.inl ?_)
        rcases h with h | h
        · exact .inl ((hpop.disabled p).2 h)
        · exact .inr h
      · exact .inr (.inr h)
    | fine q q' f sc ig ps sr cs hpop hpd hf hsc hig hrun hfr hran =>
      have hb : box (sr.settled ig q ps).w p = if p = q then [] else box sr.w p := box_set sr.w q p
      rw [hb] at hp
      split at hp
      · exact absurd rfl hp
      · next hpq =>
        have hb2 : box sr.w p = box t.w p := by unfold box; rw [hfr.inbox]; rfl
        rw [hb2] at hp
        have hqq : (sr.settled ig q ps).q = q' := hfr.q
        rcases hi p hp with h | h | h
        · rw [hpop.ready] at h
          rcases List.mem_cons.1 h with rfl | h
          · exact absurd rfl hpq
          · exact .inl (by rw [hqq]; exact h)
        · refine .inr (.inl ?_)
          rcases h with h | h
          · exact .inl (by rw [hqq]; exact (hpop.disabled p).2 h)
          · refine .inr ?_
            show p ∈ (if ps = PState.disableUntilBacktrack then sr.toDisable ++ [q] else sr.toDisable)
            have : p ∈ sr.toDisable := by rw [hfr.toDisable]; exact h
            split
            · simp [this]
            · exact this
        · exact .inr (.inr h)
  · intro t k _ hi; exact hi
  rcases ind with ⟨e', he, _⟩ | ⟨r, s1, he, hend⟩
  · rw [he] at e; cases e
  · rw [he] at e; cases e
    generalize hob : (some false) = ob at hend
    cases hend with
    | fuel => cases hob
    | contradiction => cases hob
    | aborted _ i _ _ hx hlt => rw [hab i hlt] at hx; cases hx
    | drained t _ ht hit hend hi hb =>
      intro p hp
      have hr0 : Ready s'.q = [] := by unfold Ready; rw [hb]; simp
      rcases hi p hp with h | h | h
      · rw [hr0] at h; simp at h
      · rcases h with h | h
        · exact .inl h
        · have : s'.toDisable = [] := by rw [hend.eq]
          rw [this] at h; simp at h
      · exact .inr h

theorem PrepSpec.delivered {E : Engine σ μ} {gs : List Lit} {s s' : Sys σ μ} (hs : CallOK n m E gs s) (h : PrepSpec n m E gs s s') : Delivered E s' := by
  intro p hp
  rcases hc : box s'.w p with _ | ⟨y, r⟩
  · exact absurd hc hp
  obtain ⟨v, x, hx, hh, ho, _⟩ := h.news p y (by rw [hc]; simp)
  have hlt := (armed_ok hs.watches hx).2.2.2.1
  rw [ho] at hlt
  by_cases hg : gs = []
  · subst hg
    obtain ⟨⟨_, a, _⟩, _⟩ := hh
    simp [seeds] at a
  · by_cases hd : IsDisabled s.q p
    · exact .inr (.inl (.inl (((h.child hg).2.2.1 p).2 hd)))
    · exact .inl (((h.child hg).2.2.2 p).2 ⟨hlt, hd, .inr ⟨v, x, hx, hh, ho⟩⟩)

end
end Gcs
