import Verif.Lemmas.Stateful
import Verif.Lemmas.Relative

/-! Two engines that differ only in their propagation functions, which do the same wherever the search gets to. -/

namespace Gcs
open IntervalSet Queue

section
variable {σ μ : Type} {n m : Nat} {R : Err → Prop}

/-- The same engine with other propagation functions. -/
structure Twin (E E' : Engine σ μ) : Prop where
  eq : E' = { E with progs := E'.progs }
  len : E'.progs.length = E.progs.length

/-- The functions do the same where `K` holds, and those of `E'` keep it. -/
structure Agree (n m : Nat) (K : Doms → List σ → Prop) (E E' : Engine σ μ) : Prop extends Twin E E' where
  same : ∀ (p : Nat) f f', E.progs[p]? = some f → E'.progs[p]? = some f' → ∀ c s, Held K s → runProg c f' s = runProg c f s
  keeps : ∀ f' ∈ E'.progs, ∀ c s r s', Runnable n m s → Held K s → runProg c f' s = .ok (r, s') → ¬ Failed r s' → Held K s'

variable {E E' : Engine σ μ} {K : Doms → List σ → Prop}

theorem Twin.triggers (h : Twin E E') : Sys.triggersOf E' = Sys.triggersOf E := by rw [h.eq]; rfl
theorem Twin.requeue (h : Twin E E') : Sys.requeue E' = Sys.requeue E := by rw [h.eq]; rfl

theorem Twin.replay (h : Twin E E') : ∀ (cs : List (Nat × Inference)) (s : Sys σ μ), Sys.replay E' cs s = Sys.replay E cs s
  | [], _ => rfl
  | c :: cs, s => by
    simp only [Sys.replay, h.requeue]
    cases Sys.requeue E c.1 c.2 s with
    | error e => rfl
    | ok s1 => exact h.replay cs s1

theorem Twin.seed (h : Twin E E') : ∀ (ls : List Lit) (s : Sys σ μ), Sys.seed E' ls s = Sys.seed E ls s
  | [], _ => rfl
  | l :: ls, s => by
    unfold Sys.seed
    cases l.underlyingIndex with
    | none => exact h.seed ls s
    | some v =>
      simp only [h.requeue]
      cases Sys.requeue E v .instantiated s with
      | error e => rfl
      | ok s1 => exact h.seed ls s1

theorem Twin.replayClaims (h : Twin E E') : ∀ (cs : List (Nat × Inference)) (idx : Nat) (cl : List (Nat × Nat)) (prot : Nat → Bool) (s : Sys σ μ),
    Sys.replayClaims E' idx cl prot cs s = Sys.replayClaims E idx cl prot cs s
  | [], _, _, _, _ => rfl
  | c :: cs, idx, cl, prot, s => by
    simp only [Sys.replayClaims, Sys.requeueUnlessSeen, h.triggers]
    cases (do let q ← Sys.wake c.2 (Sys.advance idx cl prot).2 (Sys.triggersOf E c.1) s.q; return { s with q := q } : Chk (Sys σ μ)) with
    | error e => rfl
    | ok s1 => exact h.replayClaims cs (idx + 1) _ _ s1

theorem Twin.endRound (h : Twin E E') (s : Sys σ μ) : Sys.endRound E' s = Sys.endRound E s := by
  unfold Sys.endRound
  simp only [h.replay, h.replayClaims]

theorem Twin.prepare (h : Twin E E') (gs : List Lit) (s : Sys σ μ) : Sys.prepare E' gs s = Sys.prepare E gs s := by
  have hp : E'.permDisabled = E.permDisabled := by rw [h.eq]
  unfold Sys.prepare
  simp only [h.seed, h.len, hp]

theorem Twin.turns (h : Twin E E') (s : Sys σ μ) : Sys.turns E' s = Sys.turns E s := by unfold Sys.turns; rw [h.len]

theorem Twin.settle (h : Twin E E') (p : Nat) (ps : PState) (s : Sys σ μ) : Sys.settle E' p ps s = Sys.settle E p ps s := by
  have hp : E'.claimsIgnored = E.claimsIgnored := by rw [h.eq]
  unfold Sys.settle; rw [hp]

theorem Agree.runOne (h : Agree n m K E E') {s : Sys σ μ} (hs : Held K s) : Sys.runOne E' s = Sys.runOne E s := by
  have h1 : E'.permDisabled = E.permDisabled := by rw [h.eq]
  have h2 : E'.scope = E.scope := by rw [h.eq]
  unfold Sys.runOne
  rw [h1, h2]
  refine bind_congr fun x => bind_congr fun b => ?_
  cases b with
  | true => rfl
  | false =>
    dsimp only
    cases e : E.progs[x.1]? with
    | none =>
      have e' : E'.progs[x.1]? = none := by rw [List.getElem?_eq_none_iff] at e ⊢; rw [h.len]; exact e
      unfold vecAt; rw [e, e']; rfl
    | some f =>
      obtain ⟨f', e'⟩ : ∃ f', E'.progs[x.1]? = some f' := ⟨_, List.getElem?_eq_getElem (by rw [h.len]; exact (List.getElem?_eq_some_iff.1 e).1)⟩
      rw [vecAt_ok.2 e, vecAt_ok.2 e']
      show bind (vecAt E.scope x.1) _ = bind (vecAt E.scope x.1) _
      refine bind_congr fun sc => ?_
      rw [h.same x.1 f f' e e' _ _ (by exact hs)]
      simp only [h.settle]

theorem ok_of {ps : PState} {s sr : Sys σ μ} {cs : List (Nat × Inference)} (h : Ran s cs sr) : ¬ Failed (.val ps) sr := by
  rintro (x | x)
  · cases x
  · rw [h.fine] at x; cases x

/-- The loop does the same. -/
theorem Agree.loop (h : Agree n m K E E') (hE : E'.WF n m R) (abort : Nat → Bool) : ∀ (fuel : Nat) (s : Sys σ μ), LoopOK n m E'.progs.length s → Held K s → Sys.loop E' abort fuel s = Sys.loop E abort fuel s
  | 0, _, _, _ => rfl
  | fuel + 1, s, hok, hs => by
    have turn : ∀ s1 : Sys σ μ, LoopOK n m E'.progs.length s1 → Held K s1 → s1.q.begin_ ≠ s1.q.end_ →
        ((Sys.runOne E' s1).bind (fun x => match x.1 with
          | .skipped => Sys.loop E' abort fuel x.2
          | .contradiction => return (some true, x.2)
          | .fine =>
            let s2 := { x.2 with clock := x.2.clock + 1 }
            if abort x.2.clock then return (some false, s2) else Sys.loop E' abort fuel s2)) =
        ((Sys.runOne E s1).bind (fun x => match x.1 with
          | .skipped => Sys.loop E abort fuel x.2
          | .contradiction => return (some true, x.2)
          | .fine =>
            let s2 := { x.2 with clock := x.2.clock + 1 }
            if abort x.2.clock then return (some false, s2) else Sys.loop E abort fuel s2)) := by
      intro s1 h1 i1 hne
      rw [← h.runOne i1]
      rcases runOne_ok hE h1 hne with ⟨e, he, hr⟩ | ⟨t, s', he, ht⟩
      · rw [he]; rfl
      · rw [he]
        have hk : t ≠ .contradiction → Held K s' := by
          intro hc
          cases ht with
          | contradiction => exact absurd rfl hc
          | skipped => exact i1
          | fine p q' f sc ig ps sr cs hp hd hf hsc hig hrun hfr hran =>
            have hrs : Runnable n m (s1.started p q') := ⟨h1.ok.run.1, h1.ok.run.2, h1.ok.run.3, h1.ok.run.4, h1.ok.run.5⟩
            have := h.keeps f (List.mem_of_getElem? hf) _ _ (.val ps) sr hrs i1 hrun (ok_of hran); exact this
        cases t with
        | contradiction => rfl
        | skipped => exact h.loop hE abort fuel s' (ht.loopOK h1 (by simp)) (hk (by simp))
        | fine =>
          have := h.loop hE abort fuel { s' with clock := s'.clock + 1 } ((ht.loopOK h1 (by simp)).clock _) (hk (by simp))
          simp only [Except.bind]
          rw [this]
    unfold Sys.loop
    by_cases hb : s.q.begin_ = s.q.end_
    · rw [if_pos hb, if_pos hb, h.endRound]
      rcases endRound_ok hE hok with he | ⟨s1, he, h1⟩
      · rw [h.endRound] at he; rw [he]; rfl
      · rw [h.endRound] at he; rw [he]
        show (if s1.q.begin_ = s1.q.end_ then _ else _) = (if s1.q.begin_ = s1.q.end_ then _ else _)
        by_cases hb1 : s1.q.begin_ = s1.q.end_
        · rw [if_pos hb1, if_pos hb1]
        · rw [if_neg hb1, if_neg hb1]
          refine turn s1 h1.loopOK ?_ hb1
          have : s1.st = s.st := by rw [h1.eq]
          unfold Held Sys.doms Sys.top; rw [this]; exact hs
    · rw [if_neg hb, if_neg hb]
      show (if s.q.begin_ = s.q.end_ then _ else _) = (if s.q.begin_ = s.q.end_ then _ else _)
      rw [if_neg hb, if_neg hb]
      exact turn s hok hs hb

/-- A whole call does the same, and keeps `K`. -/
theorem Agree.propagate (h : Agree n m K E E') (hE : E'.WF n m R) (abort : Nat → Bool) {gs : List Lit} {s : Sys σ μ} (hc : CallOK n m E' gs s) (hs : Held K s) :
    Sys.propagate E' gs abort s = Sys.propagate E gs abort s ∧ ∀ s', Sys.propagate E' gs abort s = .ok (true, s') → Held K s' := by
  have held : ∀ s1, PrepSpec n m E' gs s s1 → Held K s1 := by
    intro s1 h1
    obtain ⟨e, r, _, h2⟩ := h1.st
    unfold Held Sys.doms Sys.top; rw [h2]; exact hs
  constructor
  · unfold Sys.propagate
    rw [h.prepare]
    rcases prepare_ok hE hc with e | ⟨s1, e, h1⟩
    · rw [h.prepare] at e; rw [e]; rfl
    · rw [h.prepare] at e; rw [e]
      show Except.bind (Sys.loop E' abort (Sys.turns E' s1) s1) _ = Except.bind (Sys.loop E abort (Sys.turns E s1) s1) _
      rw [h.turns, h.loop hE abort _ s1 h1.ok (held s1 h1)]
  · intro s' e
    have ind := propagate_ind hE abort hc (Held K) held (fun s s' _ hi _ h1 => by
        have : s'.st = s.st := by rw [h1.eq]
        unfold Held Sys.doms Sys.top; rw [this]; exact hi)
      (fun s1 t s' h1 i1 hne ht hc => by
        cases ht with
        | contradiction => exact absurd rfl hc
        | skipped => exact i1
        | fine p q' f sc ig ps sr cs hp hd hf hsc hig hrun hfr hran =>
          have hrs : Runnable n m (s1.started p q') := ⟨h1.ok.run.1, h1.ok.run.2, h1.ok.run.3, h1.ok.run.4, h1.ok.run.5⟩
          have := h.keeps f (List.mem_of_getElem? hf) _ _ (.val ps) sr hrs i1 hrun (ok_of hran)
          exact this) (fun _ _ _ h => h)
    rcases ind with ⟨x, e', _⟩ | ⟨b, s2, e', hl⟩
    · rw [e'] at e; cases e
    · rw [e'] at e
      cases e
      have : Held K s2 := by
        cases hl with
        | drained _ _ _ _ _ h => exact h
        | aborted _ _ _ h => exact h
      exact this

/-! ## The search -/

theorem CallOK.twin {gs : List Lit} {s : Sys σ μ} (hl : E'.progs.length = E.progs.length) (h : CallOK n m E gs s) : CallOK n m E' gs s :=
  ⟨h.1, h.2, h.3, h.4, h.5, by rw [hl]; exact h.6, h.7, by rw [hl]; exact h.8⟩
theorem NodeOK.twin {s : Sys σ μ} (hl : E'.progs.length = E.progs.length) (h : NodeOK n m E s) : NodeOK n m E' s := ⟨h.call.twin hl, by rw [hl]; exact h.inv, h.ids, h.aligned⟩
theorem RootOK.twin {s : Sys σ μ} (hl : E'.progs.length = E.progs.length) (h : RootOK n m E s) : RootOK n m E' s := ⟨h.call.twin hl, h.ids, h.aligned⟩
theorem CallSpec.twin {gs : List Lit} {b : Bool} {s s' : Sys σ μ} (hl : E'.progs.length = E.progs.length) (h : CallSpec n E gs s b s') : CallSpec n E' gs s b s' :=
  { h with inv := by rw [hl]; exact h.inv, steps := by rw [hl]; exact h.steps }

theorem Inferred.top {p s : Sys σ μ} {l : Lit} (h : Inferred p l s) : s.top = p.top := by
  obtain ⟨d, e⟩ := h.eq; rw [e]

theorem Child.top {p s : Sys σ μ} {l : Lit} (h : Child p l s) : s.top = p.top := by
  obtain ⟨d, c, hc, e⟩ := h.eq
  rw [e]
  show c = p.st.cstates.headD []
  cases hcs : p.st.cstates with
  | nil => rw [hcs] at hc; cases hc
  | cons x y => rw [hcs] at hc; exact (Option.some.inj hc).symm

/-- Removing values does not lose `K`. -/
def Shrinks (n : Nat) (K : Doms → List σ → Prop) : Prop := ∀ d d' z, DomsOK d' → d'.length = n → (∀ a, Within d' a → Within d a) → K d z → K d' z

variable {Sol Fin : Asg → Prop} {Leaf : Doms → Prop} {store : μ → List (List Cond)} {Le : μ → μ → Prop} {J : Sys σ μ → Prop} {I : Nat → Sys σ μ → Prop}

theorem Entry.held (hK : Shrinks n K) {k : Nat} {gs : List Lit} {s : Sys σ μ} (hl : E'.progs.length = E.progs.length)
    (h : Entry n m E store (fun s => J s ∧ Held K s) (fun k s => I k s ∧ Held K s) k gs s) : Entry n m E' store J I k gs s ∧ Held K s := by
  have narrow : ∀ {p s : Sys σ μ} {l : Lit}, NodeOK n m E p → Narrow l p.doms s.doms → s.top = p.top → Held K p → Held K s := by
    intro p s l h1 h2 h3 h4
    obtain ⟨cs, he, _⟩ := h2.evolve
    unfold Held; rw [h3]
    exact hK _ _ _ h2.ok (by rw [he.length]; exact h1.call.domsLen) (fun a ha => he.within ha) h4
  cases h with
  | root _ h1 h2 h3 => exact ⟨.root _ (h1.twin hl) h2.1 h3, h2.2⟩
  | again p _ l h1 h2 h3 h4 => exact ⟨.again p _ l (h1.twin hl) h2.1 h3 h4, narrow h1 h4.narrow h4.top h2.2⟩
  | child p _ l h1 h2 h3 h4 => exact ⟨.child p _ l (h1.twin hl) h2.1 h3 h4, narrow h1 h4.narrow h4.top h2.2⟩
  | childBound p c _ l b h1 h2 h3 h4 h5 h6 =>
    exact ⟨.childBound p c _ l b (h1.twin hl) h2.1 h3 h4 h5 h6, narrow (h4.nodeOK h1) h6.narrow h6.top (narrow h1 h4.narrow h4.top h2.2)⟩

/-- A contract for the engine `E'` is one for `E`, where `K` holds. -/
theorem SearchPre.twin {V : SearchEnv σ μ} (h : SearchPre n m R { V with engine := E' } Sol Fin Leaf store Le J I) (ha : Agree n m K V.engine E') (hE : E'.WF n m R) (hK : Shrinks n K) :
    SearchPre n m R V Sol Fin Leaf store Le (fun s => J s ∧ Held K s) (fun k s => I k s ∧ Held K s) where
  runs := by
    intro k gs s he
    obtain ⟨he', hi⟩ := he.held hK ha.len
    have hp := (ha.propagate hE V.abort he'.origin.1 hi).1
    rcases h.runs k gs s he' with e | ⟨b, s', e, hc⟩
    · exact .inl (hp ▸ e)
    · exact .inr ⟨b, s', hp ▸ e, hc.twin ha.len.symm⟩
  objective := h.objective
  branch := fun i s hs => h.branch i s (hs.twin ha.len)
  monotone := h.monotone
  le_refl := h.le_refl
  le_trans := h.le_trans
  learned := h.learned
  call := by
    intro k gs s b s' he e
    obtain ⟨he', hi⟩ := he.held hK ha.len
    obtain ⟨hp, hk⟩ := ha.propagate hE V.abort he'.origin.1 hi
    rw [← hp] at e
    obtain ⟨h1, h2, h3, h4⟩ := h.call k gs s b s' he' e
    exact ⟨h1, h2, h3, fun hb hab => ⟨h4 hb hab, hk s' (hb ▸ e)⟩⟩
  back := by
    intro k p p' hp hi hs hle
    refine ⟨h.back k p p' (hp.twin ha.len) hi.1 (by show Same E'.progs.length _ _; rw [ha.len]; exact hs) hle, ?_⟩
    unfold Held Sys.top; rw [hs.doms, hs.st]; exact hi.2
  again := fun k p hi => ⟨h.again k p hi.1, hi.2⟩
  leaf := fun k s hs hi => h.leaf k s (hs.twin ha.len) hi.1

end
end Gcs
