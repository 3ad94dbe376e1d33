import Verif.Spec.Checks
import Verif.Lemmas.Passes
import Verif.Props.Propagate

/-! Engines made of propagators that check their constraints meet the contract of the search. -/

namespace Gcs
open IntervalSet Queue

theorem Step.fixed {v u : Nat} {inf : Inference} {d d' : Doms} (h : Step v inf d d') (hf : Fixed d' u) : Fixed d u ∨ (v = u ∧ inf = .instantiated) := by
  obtain ⟨s, hs, hv⟩ := hf
  by_cases hu : u = v
  · subst hu
    obtain ⟨t, t', h1, h2, _, h4⟩ := h.own
    rw [h2] at hs; cases hs
    cases inf with
    | instantiated => exact .inr ⟨rfl, rfl⟩
    | noChange => exact absurd rfl h.effective.1
    | contradiction => exact absurd rfl h.effective.2
    | boundsChanged => exact absurd hv h4.2.1
    | interiorValuesChanged => exact absurd hv h4.2.1
  · rw [h.others u hu] at hs
    exact .inl ⟨s, hs, hv⟩

theorem Evolve.fixed {d d' : Doms} {cs : List (Nat × Inference)} (h : Evolve d cs d') {u : Nat} (hf : Fixed d' u) : Fixed d u ∨ (u, Inference.instantiated) ∈ cs := by
  induction h with
  | refl => exact .inl hf
  | snoc _ h2 ih =>
    rcases h2.fixed hf with h | ⟨rfl, rfl⟩
    · exact (ih h).imp id fun h => by simp [h]
    · exact .inr (by simp)

/-- Conditions on fixed variables are decided. -/
theorem decided_of {B : List Nat} {c : Cond} (h : ∀ v, c.var.underlyingIndex = some v → v ∈ B) : Decided (fun d => ∀ v ∈ B, Fixed d v) c := by
  intro d a b hd ha hb hc
  have : c.var.eval a = c.var.eval b := by
    have key : ∀ v, c.var.underlyingIndex = some v → a v = b v := by
      intro v hv
      obtain ⟨s, hs, w, hw⟩ := hd v (h v hv)
      rw [(hw _).1 (ha v s hs), (hw _).1 (hb v s hs)]
    cases e : c.var with
    | const k => rfl
    | simple v => exact key v (by rw [e]; rfl)
    | view v ng k => simp only [VarId.eval]; rw [key v (by rw [e]; rfl)]
  unfold Cond.holds at *
  rw [← this]; exact hc

section
variable {σ μ : Type} {n m : Nat} {R : Err → Prop}

/-- Nothing is left to be checked. -/
def Checked (E : Engine σ μ) (C : Nat → Asg → Prop) (vs : Nat → List Nat) (s : Sys σ μ) : Prop :=
  ∀ p, E.permDisabled[p]? = some false → (IsDisabled s.q p → ∀ a, Within s.doms a → C p a) ∧
    (¬ IsDisabled s.q p → (∀ v ∈ vs p, Fixed s.doms v) → ∀ a, Within s.doms a → C p a)

/-- The propagators of an engine check `C`, as `Checks` says, as long as `K` holds, and they keep `K`. -/
structure Checking (n m : Nat) (E : Engine σ μ) (l : List (Prog σ μ PState × Triggers)) (K : Sys σ μ → Prop) (C : Nat → Asg → Prop) (vs : Nat → List Nat) : Prop where
  core : CoreStable K
  keeps : ∀ p f sc s ps s' cs, E.progs[p]? = some f → E.scope[p]? = some sc → E.permDisabled[p]? = some false → Runnable n m s → K s →
    runProg ⟨p, sc⟩ f s = .ok (.val ps, s') → Ran s cs s' → K s'
  wakes : ∀ p f t, l[p]? = some (f, t) → E.permDisabled[p]? = some false → ∀ v ∈ vs p, ∃ x, (x ∈ t.onChange ∨ x ∈ t.onBounds ∨ x ∈ t.onInstantiated) ∧ x.underlyingIndex = some v
  checks : ∀ p f sc s ps s' cs, E.progs[p]? = some f → E.scope[p]? = some sc → E.permDisabled[p]? = some false → Runnable n m s → K s →
    runProg ⟨p, sc⟩ f s = .ok (.val ps, s') → Ran s cs s' →
    ((∀ v ∈ vs p, Fixed s.doms v) → ∀ a, Within s'.doms a → C p a) ∧
    (E.claimsIgnored[p]? = some false → ps = .enableButIdempotent → (∀ v ∈ vs p, Fixed s'.doms v) → ∀ a, Within s'.doms a → C p a) ∧
    (ps = .disableUntilBacktrack → ∀ a, Within s'.doms a → C p a)

theorem wakes_sub {E : Engine σ μ} {l : List (Prog σ μ PState × Triggers)} (hb : Built n m R E l) {p : Nat} {f : Prog σ μ PState} {t : Triggers} (hp : l[p]? = some (f, t))
    {v : Nat} (h : ∃ x, (x ∈ t.onChange ∨ x ∈ t.onBounds ∨ x ∈ t.onInstantiated) ∧ x.underlyingIndex = some v) : Sub E p v .instantiated := by
  obtain ⟨x, hx, hu⟩ := h
  rw [hb.sub hp]
  rcases hx with hx | hx | hx
  · exact .inl ⟨by simp, x, hx, hu⟩
  · exact .inr (.inl ⟨by simp, x, hx, hu⟩)
  · exact .inr (.inr ⟨by simp, x, hx, hu⟩)

theorem Built.posted {E : Engine σ μ} {l : List (Prog σ μ PState × Triggers)} (hb : Built n m R E l) {p : Nat} {f : Prog σ μ PState} (hf : E.progs[p]? = some f) : ∃ t, l[p]? = some (f, t) := by
  rw [hb.progs, List.getElem?_map] at hf
  cases h : l[p]? with
  | none => rw [h] at hf; cases hf
  | some x => rw [h] at hf; cases hf; exact ⟨x.2, rfl⟩

/-- Claims are believed only of propagators with distinct triggers. -/
theorem Built.claims {E : Engine σ μ} {l : List (Prog σ μ PState × Triggers)} (hb : Built n m R E l) {p : Nat} {f : Prog σ μ PState} {t : Triggers} (hp : l[p]? = some (f, t))
    (hi : E.claimsIgnored[p]? = some false) : t.Distinct := by
  have : E.claimsIgnored = l.map fun x => decide (¬ ((x.2.onChange ++ x.2.onBounds ++ x.2.onInstantiated ++ x.2.scopeOnly).filterMap VarId.underlyingIndex).Nodup) := by
    clear hp hi
    induction hb with
    | empty => rfl
    | install c f t _ hf _ ih => rw [(install_fields _ c f t).2.2.2, ih]; simp
    | disable ids _ ih => exact ih
  rw [this, List.getElem?_map, hp] at hi
  simp only [Option.map_some, Option.some.injEq, decide_eq_false_iff_not, Decidable.not_not] at hi
  exact hi

theorem Built.enabled_posted {E : Engine σ μ} {l : List (Prog σ μ PState × Triggers)} (hb : Built n m R E l) {p : Nat} (hpd : E.permDisabled[p]? = some false) : ∃ f t, l[p]? = some (f, t) := by
  have hp : p < l.length := by
    have := (List.getElem?_eq_some_iff.1 hpd).1
    rw [hb.wf.permLen, hb.progs] at this; simpa using this
  exact ⟨_, _, List.getElem?_eq_getElem hp⟩

theorem checking_fix {E : Engine σ μ} {l : List (Prog σ μ PState × Triggers)} (hb : Built n m R E l) {K : Sys σ μ → Prop} {C : Nat → Asg → Prop} {vs : Nat → List Nat} (hc : Checking n m E l K C vs) :
    FixContract n m E K (fun p d _ => E.permDisabled[p]? = some false → (∀ v ∈ vs p, Fixed d v) → ∀ a, Within d a → C p a)
      (fun p d => ∀ a, Within d a → C p a) where
  core := hc.core
  keepsK := hc.keeps
  other := by
    intro p t q ps d cs d' _ hev hns hg hpd hf a ha
    obtain ⟨f, t, he⟩ := hb.enabled_posted hpd
    refine hg hpd (fun v hv => ?_) a (hev.within ha)
    rcases hev.fixed (hf v hv) with h | h
    · exact h
    · exact absurd (wakes_sub hb he (hc.wakes p f t he hpd v hv)) (hns _ h)
  own := by
    intro p f sc s t ps s' cs hf hsc hpd hs hK _ hrun hran _ hor _ hfix
    obtain ⟨t', he⟩ := hb.posted hf
    obtain ⟨h1, h2, _⟩ := hc.checks p f sc s ps s' cs hf hsc hpd hs hK hrun hran
    rcases hor with hns | ⟨rfl, hci⟩
    · refine h1 fun u hu => ?_
      rcases hran.evolve.fixed (hfix u hu) with h | h
      · exact h
      · exact absurd (wakes_sub hb he (hc.wakes p f t' he hpd u hu)) (hns _ h)
    · exact h2 hci rfl hfix
  disable := fun p f sc s s' cs hf hsc hpd hs hK hrun hran => (hc.checks p f sc s _ s' cs hf hsc hpd hs hK hrun hran).2.2 rfl
  stable := fun p d cs d' hev h a ha => h a (hev.within ha)

/-- Propagators for which `Checks` holds need no invariant. -/
theorem checks_run {E : Engine σ μ} (hE : E.WF n m R) {p : Nat} {f : Prog σ μ PState} {t : Triggers} {C : Asg → Prop} {vs : List Nat} (hck : Checks n f t C vs) {sc : List Nat} {s s' : Sys σ μ} {ps : PState}
    {cs : List (Nat × Inference)} (hf : E.progs[p]? = some f) (hs : Runnable n m s) (hrun : runProg ⟨p, sc⟩ f s = .ok (.val ps, s')) (hran : Ran s cs s') :
    ((∀ v ∈ vs, Fixed s.doms v) → ∀ a, Within s'.doms a → C a) ∧
    (t.Distinct → ps = .enableButIdempotent → (∀ v ∈ vs, Fixed s'.doms v) → ∀ a, Within s'.doms a → C a) ∧
    (ps = .disableUntilBacktrack → ∀ a, Within s'.doms a → C a) := by
  have hlt : p < E.progs.length := (List.getElem?_eq_some_iff.1 hf).1
  obtain ⟨v, hv, h⟩ := wp_run ⟨p, sc⟩ hlt f s (hE.progs f (List.mem_of_getElem? hf) _ hs.domsOK hs.domsLen) (hck.checks s.doms hs.domsOK hs.domsLen) hs _ _ hrun (by
    rintro (h | h)
    · cases h
    · rw [hran.fine] at h; cases h)
  cases hv
  exact h

theorem checking_of {E : Engine σ μ} {l : List (Prog σ μ PState × Triggers)} (hb : Built n m R E l) {C : Nat → Asg → Prop} {vs : Nat → List Nat}
    (hc : ∀ p f t, l[p]? = some (f, t) → E.permDisabled[p]? = some false → Checks n f t (C p) (vs p)) : Checking n m E l (fun _ => True) C vs where
  core := fun _ _ _ _ _ _ _ => trivial
  keeps := fun _ _ _ _ _ _ _ _ _ _ _ _ _ _ => trivial
  wakes := fun p f t he hpd => (hc p f t he hpd).wakes
  checks := by
    intro p f sc s ps s' cs hf _ hpd hs _ hrun hran
    obtain ⟨t, he⟩ := hb.posted hf
    obtain ⟨h1, h2, h3⟩ := checks_run hb.wf (hc p f t he hpd) hf hs hrun hran
    exact ⟨h1, fun hi => h2 (hb.claims he hi), h3⟩

/-- Where a call starts from: nothing, or a settled node from which the domains differ only in the variables of the guesses. -/
theorem Entry.origin {E : Engine σ μ} {store : μ → List (List Cond)} {J : Sys σ μ → Prop} {I : Nat → Sys σ μ → Prop} {k : Nat} {gs : List Lit} {s : Sys σ μ}
    (h : Entry n m E store J I k gs s) : CallOK n m E gs s ∧ (gs = [] ∧ J s ∧ RootOK n m E s ∨ gs ≠ [] ∧ ∃ p cs, NodeOK n m E p ∧ I k p ∧ NodeOK n m E s ∧ Evolve p.doms cs s.doms ∧ s.q = p.q ∧ s.w = p.w ∧ s.mem = p.mem ∧
      s.st.cstates.headD [] = p.st.cstates.headD [] ∧ ∀ c ∈ cs, (c.1, Inference.instantiated) ∈ seeds gs) := by
  have seed : ∀ {l : Lit} {gs : List Lit} {v : Nat}, l ∈ gs → l.underlyingIndex = some v → (v, Inference.instantiated) ∈ seeds gs := by
    intro l gs v hl hv
    exact List.mem_filterMap.2 ⟨l, hl, by rw [hv]; rfl⟩
  cases h with
  | root _ h1 h2 h3 => exact ⟨h1.call, .inl ⟨rfl, h2, h1⟩⟩
  | again p _ l h1 h2 h3 h4 =>
    have hn := h4.nodeOK h1
    obtain ⟨cs, he, hcs⟩ := h4.narrow.evolve
    obtain ⟨d, hd⟩ := h4.eq
    refine ⟨hn.calls _, .inr ⟨by simp, p, cs, h1, h2, hn, he, ?_, ?_, ?_, ?_, fun c hc => seed (List.mem_singleton.2 rfl) (hcs c hc)⟩⟩ <;> rw [hd]
  | child p _ l h1 h2 h3 h4 =>
    have hn := h4.nodeOK h1
    obtain ⟨cs, he, hcs⟩ := h4.narrow.evolve
    obtain ⟨d, c, hc, hd⟩ := h4.eq
    refine ⟨hn.calls _, .inr ⟨by simp, p, cs, h1, h2, hn, he, ?_, ?_, ?_, ?_, fun c hc => seed (List.mem_singleton.2 rfl) (hcs c hc)⟩⟩
    · rw [hd]
    · rw [hd]
    · rw [hd]
    · rw [hd]
      cases hcs : p.st.cstates with
      | nil => rw [hcs] at hc; cases hc
      | cons x y => rw [hcs] at hc; simp at hc; simp [hc]
  | childBound p c _ l b h1 h2 h3 h4 h5 h6 =>
    have hn := h4.nodeOK h1
    have hn' := h6.nodeOK hn
    obtain ⟨cs, he, hcs⟩ := h4.narrow.evolve
    obtain ⟨cs', he', hcs'⟩ := h6.narrow.evolve
    obtain ⟨d, x, hc, hd⟩ := h4.eq
    obtain ⟨d', hd'⟩ := h6.eq
    refine ⟨hn'.calls _, .inr ⟨by simp, p, cs ++ cs', h1, h2, hn', he.trans he', ?_, ?_, ?_, ?_, ?_⟩⟩
    · rw [hd', hd]
    · rw [hd', hd]
    · rw [hd', hd]
    · rw [hd', hd]
      cases hcs : p.st.cstates with
      | nil => rw [hcs] at hc; cases hc
      | cons x y => rw [hcs] at hc; simp at hc; simp [hc]
    · intro c hc
      rcases List.mem_append.1 hc with hc | hc
      · exact seed (by simp) (hcs c hc)
      · exact seed (l := b) (by simp) (hcs' c hc)

/-- A call from such a situation leaves nothing to be checked. -/
theorem checked_call {E : Engine σ μ} {l : List (Prog σ μ PState × Triggers)} (hb : Built n m R E l) {K : Sys σ μ → Prop} {C : Nat → Asg → Prop} {vs : Nat → List Nat}
    (hc : Checking n m E l K C vs) {abort : Nat → Bool} {gs : List Lit} {s s' : Sys σ μ} (hk : CallOK n m E gs s) (hK : K s)
    (h : gs = [] ∨ ∃ p cs, Checked E C vs p ∧ Evolve p.doms cs s.doms ∧ s.q = p.q ∧ ∀ c ∈ cs, (c.1, Inference.instantiated) ∈ seeds gs)
    (hr : Sys.propagate E gs abort s = .ok (true, s')) (hab : ∀ i, i < s'.clock → abort i = false) : Checked E C vs s' := by
  have h0 : FixStart E K (fun p d _ => E.permDisabled[p]? = some false → (∀ v ∈ vs p, Fixed d v) → ∀ a, Within d a → C p a)
      (fun p d => ∀ a, Within d a → C p a) gs s := by
    rcases h with rfl | ⟨p, cs, h1, h2, h3, h4⟩
    · exact ⟨hK, fun h => absurd rfl h, fun h => absurd rfl h⟩
    · refine ⟨hK, fun _ q hq hd a ha => (h1 q hq).1 (by rw [← h3]; exact hd) a (h2.within ha), fun _ q hq hd hns hpd hf a ha => ?_⟩
      obtain ⟨f, t, he⟩ := hb.enabled_posted hpd
      refine (h1 q hq).2 (by rw [← h3]; exact hd) (fun v hv => ?_) a (h2.within ha)
      rcases h2.fixed (hf v hv) with h | h
      · exact h
      · exact absurd (wakes_sub hb he (hc.wakes q f t he hpd v hv)) (hns _ (h4 _ h))
  obtain ⟨_, _, h2⟩ := propagate_fix hb.wf hk (checking_fix hb hc) h0 hr hab
  exact fun p hp => ⟨(h2 p hp).1, fun hn => (h2 p hp).2 hn hp⟩

/-- An engine of propagators that are sound for the solutions, and that together check them, can be searched with any heuristic that partitions and that leaves no variable that matters open. -/
theorem checks_contract {V : SearchEnv σ μ} {l : List (Prog σ μ PState × Triggers)} (hb : Built n m R V.engine l) {Sol Fin : Asg → Prop} {C : Nat → Asg → Prop} {vs : Nat → List Nat} {B : List Nat}
    (hsound : ∀ (p : Nat) f, V.engine.progs[p]? = some f → V.engine.permDisabled[p]? = some false → ∀ a, Sol a → f.Truthful n a)
    (hc : ∀ p f t, l[p]? = some (f, t) → V.engine.permDisabled[p]? = some false → Checks n f t (C p) (vs p))
    (hsol : ∀ a, (∀ p, V.engine.permDisabled[p]? = some false → C p a) → Fin a)
    (hB : ∀ p, V.engine.permDisabled[p]? = some false → ∀ v ∈ vs p, v ∈ B)
    (hobj : ∀ o, V.minimise = some o → o.Valid n ∧ ∀ v, o.underlyingIndex = some v → v ∈ B)
    (hbr : ∀ i s, NodeOK n m V.engine s → Thrown R (V.branch i s) ∨ ∃ bs, V.branch i s = .ok bs ∧ if bs = [] then ∀ v ∈ B, Fixed s.doms v else BranchOK n s.doms bs ∧ ∀ b ∈ bs, ∀ v, b.var.underlyingIndex = some v → v ∈ B)
    (hmono : ∀ i j, i ≤ j → V.abort i = true → V.abort j = true) (hlearn : V.learn = none) :
    SearchPre n m R V Sol Fin (fun d => ∀ v ∈ B, Fixed d v) (fun _ => []) (fun _ _ => True) (fun _ => True) (fun _ s => Checked V.engine C vs s) where
  runs := fun _ _ _ he => he.runs hb.wf
  objective := by
    intro o ho
    refine ⟨(hobj o ho).1, ?_⟩
    intro d a b hd ha hb'
    have key : ∀ v, v ∈ B → a v = b v := by
      intro v hv
      obtain ⟨s, hs, w, hw⟩ := hd v hv
      rw [(hw _).1 (ha v s hs), (hw _).1 (hb' v s hs)]
    cases o with
    | const c => rfl
    | simple v => exact key v ((hobj _ ho).2 v rfl)
    | view v neg off => simp only [VarId.eval]; rw [key v ((hobj _ ho).2 v rfl)]
  branch := by
    intro i s hs
    rcases hbr i s hs with h | ⟨bs, h1, h2⟩
    · exact .inl h
    · refine .inr ⟨bs, h1, ?_⟩
      split
      · rename_i hn; rw [if_pos hn] at h2; exact h2
      · rename_i hn; rw [if_neg hn] at h2; exact ⟨h2.1, fun b hb => decided_of (h2.2 b hb)⟩
  monotone := hmono
  le_refl := fun _ => trivial
  le_trans := fun _ _ _ _ _ => trivial
  learned := by intro add ha; rw [hlearn] at ha; cases ha
  call := by
    intro k gs s b s' he hr
    obtain ⟨hk, ho⟩ := he.origin
    have hl := propagate_loses_nothing hb.wf V.abort hk Sol hsound hr
    refine ⟨?_, fun _ => trivial, rfl, ?_⟩
    · intro a ha _ hw
      cases b with
      | true => exact ⟨rfl, ((if_pos rfl).mp hl a ha).2 hw⟩
      | false => exact absurd hw ((if_neg (by simp)).mp hl a ha)
    · rintro rfl hab
      refine checked_call hb (checking_of hb hc) hk trivial ?_ hr hab
      rcases ho with ⟨rfl, _⟩ | ⟨_, p, cs, _, h2, _, h3, h4, _, _, _, h5⟩
      · exact .inl rfl
      · exact .inr ⟨p, cs, h2, h3, h4, h5⟩
  back := by
    intro k p p' _ hi hs _ q hq
    obtain ⟨h1, h2⟩ := hi q hq
    rw [hs.disabled q, hs.doms]
    exact ⟨h1, h2⟩
  again := fun _ _ _ => trivial
  leaf := by
    intro k s _ hi hl a ha
    refine ⟨hsol a fun p hp => ?_, by simp⟩
    by_cases hd : IsDisabled s.q p
    · exact (hi p hp).1 hd a ha
    · exact (hi p hp).2 hd (fun v hv => hl v (hB p hp v hv)) a ha

end
end Gcs
