import Verif.Lemmas.Wp
import Verif.Lemmas.Undo

/-! Which changes can make a literal entailed, and which watches a run arms. -/

namespace Gcs
open IntervalSet Queue

section
variable {σ μ α β : Type} {n m np : Nat} {R : Err → Prop}

/-- A literal about one variable, evaluated at a value of that variable. -/
theorem holds_const {l : Lit} {v : Nat} (h : l.underlyingIndex = some v) (a : Asg) : l.holds a ↔ l.holds (fun _ => a v) := by
  cases l with
  | tt => simp [Lit.holds]
  | ff => simp [Lit.holds]
  | cond c =>
    obtain ⟨var, op, value, upper⟩ := c
    have : var.eval a = var.eval (fun _ => a v) := by
      cases var with
      | simple i => simp only [Lit.underlyingIndex, VarId.underlyingIndex, Option.some.injEq] at h; simp [VarId.eval, h]
      | view i ng ad => simp only [Lit.underlyingIndex, VarId.underlyingIndex, Option.some.injEq] at h; simp [VarId.eval, h]
      | const c => simp [VarId.eval]
    simp [Lit.holds, Cond.holds, this]

theorem entailed_iff {d : Doms} (hd : DomsOK d) {l : Lit} {v : Nat} (h : l.underlyingIndex = some v) {s : IntervalSet} (hs : d[v]? = some s) :
    Entailed d l ↔ ∀ x, Mem x s → l.holds (fun _ => x) := by
  constructor
  · intro he x hx
    obtain ⟨a, ha, rfl⟩ := exists_within_at hd hs hx
    exact (holds_const h a).1 (he a ha)
  · intro k a ha
    exact (holds_const h a).2 (k _ (ha v s hs))

/-- A literal that holds at both ends of an interval holds inside it, unless it is a disequality or a negated range. -/
theorem holds_convex {c : Cond} (h : c.op = .greaterEqual ∨ c.op = .less ∨ c.op = .inRange) {x y z : Int} (hxy : x ≤ y) (hyz : y ≤ z)
    (hx : (Lit.cond c).holds (fun _ => x)) (hz : (Lit.cond c).holds (fun _ => z)) : (Lit.cond c).holds (fun _ => y) := by
  obtain ⟨var, op, value, upper⟩ := c
  cases var with
  | const k => exact hx
  | simple i =>
    rcases h with h | h | h <;> simp only at h <;> subst h <;> simp only [Lit.holds, Cond.holds, CondOp.holds, VarId.eval] at * <;> omega
  | view i ng ad =>
    cases ng <;> rcases h with h | h | h <;> simp only at h <;> subst h <;> simp [Lit.holds, Cond.holds, CondOp.holds, VarId.eval] at * <;> omega

/-- If a change makes a literal entailed that was not, watches on the literal are looked at for changes of that kind. -/
theorem step_mask {d d' : Doms} {v : Nat} {inf : Inference} (hd : DomsOK d) (h : Step v inf d d') {l : Lit} (hl : l.underlyingIndex = some v)
    (h0 : ¬ Entailed d l) (h1 : Entailed d' l) : inf ∈ triggerMask l := by
  obtain ⟨s, s', e1, e2, hsub, hk⟩ := h.own
  have hd' := h.domsOK
  rw [entailed_iff hd hl e1] at h0
  rw [entailed_iff hd' hl e2] at h1
  have hne := h.effective
  cases l with
  | tt => cases inf <;> simp [triggerMask] at *
  | ff => simp [Lit.underlyingIndex] at hl
  | cond c =>
    obtain ⟨var, op, value, upper⟩ := c
    have hbd : ∀ {P : Prop}, (op = .greaterEqual ∨ op = .less ∨ op = .inRange) → inf = .interiorValuesChanged → P := by
      intro P hop hi
      subst hi
      exfalso
      apply h0
      intro x hx
      have hok := hd s (List.mem_of_getElem? e1)
      obtain ⟨lo, hi, hlo, hhi, hb⟩ := exists_bounds hok
      refine holds_convex hop (hb x hx).1 (hb x hx).2 (h1 lo (hk.2.2 lo ⟨hlo, .inl fun y hy => (hb y hy).1⟩)) (h1 hi (hk.2.2 hi ⟨hhi, .inr fun y hy => (hb y hy).2⟩))
    cases op with
    | notEqual => cases inf <;> simp [triggerMask] at *
    | notInRange => cases inf <;> simp [triggerMask] at *
    | greaterEqual => cases inf with
      | interiorValuesChanged => exact hbd (.inl rfl) rfl
      | _ => simp [triggerMask] at *
    | less => cases inf with
      | interiorValuesChanged => exact hbd (.inr (.inl rfl)) rfl
      | _ => simp [triggerMask] at *
    | inRange => cases inf with
      | interiorValuesChanged => exact hbd (.inr (.inr rfl)) rfl
      | _ => simp [triggerMask] at *
    | equal =>
      -- the new domain is single-valued
      have hsv : SingleValued s' := by
        obtain ⟨w, hw⟩ := (hd' s' (List.mem_of_getElem? e2)).nonempty
        refine ⟨w, fun x => ⟨fun hx => ?_, fun e => e ▸ hw⟩⟩
        have a := h1 x hx
        have b := h1 w hw
        cases var with
        | const k => simp [Lit.underlyingIndex, VarId.underlyingIndex] at hl
        | simple i => simp only [Lit.holds, Cond.holds, CondOp.holds, VarId.eval] at a b; omega
        | view i ng ad => cases ng <;> simp [Lit.holds, Cond.holds, CondOp.holds, VarId.eval] at a b <;> omega
      cases inf with
      | instantiated => simp [triggerMask]
      | noChange => exact absurd rfl hne.1
      | contradiction => exact absurd rfl hne.2
      | boundsChanged => exact absurd hsv hk.2.1
      | interiorValuesChanged => exact absurd hsv hk.2.1

/-- The same for any sequence of changes. -/
theorem evolve_mask {d d' : Doms} {cs : List (Nat × Inference)} (h : Evolve d cs d') {l : Lit} {v : Nat} (hl : l.underlyingIndex = some v)
    (h0 : ¬ Entailed d l) (h1 : Entailed d' l) : ∃ inf, (v, inf) ∈ cs ∧ inf ∈ triggerMask l := by
  induction h with
  | refl => exact absurd h1 h0
  | @snoc d1 d2 cs u inf he hs ih =>
    by_cases hm : Entailed d1 l
    · obtain ⟨i, h2, h3⟩ := ih hm
      exact ⟨i, by simp [h2], h3⟩
    · by_cases hu : u = v
      · subst hu
        exact ⟨inf, by simp, step_mask he.ok hs hl hm h1⟩
      · -- another variable's domain changed
        exfalso
        apply hm
        cases hg : d1[v]? with
        | none =>
          intro a ha
          obtain ⟨b, hb⟩ := exists_within hs.domsOK
          have hw : Within d2 (fun j => if j = v then a v else b j) := by
            intro j t ht
            simp only
            split
            · next hj => subst hj; rw [hs.others _ (fun e => hu e.symm), hg] at ht; cases ht
            · exact hb j t ht
          have := h1 _ hw
          rw [holds_const hl] at this ⊢
          simpa using this
        | some t =>
          rw [entailed_iff he.ok hl hg]
          exact (entailed_iff hs.domsOK hl (by rw [hs.others v (fun e => hu e.symm), hg])).1 h1

theorem Entailed.evolve {d d' : Doms} {cs : List (Nat × Inference)} (h : Evolve d cs d') {l : Lit} (h0 : Entailed d l) : Entailed d' l :=
  fun a ha => h0 a (h.within ha)

/-- The first step of a run that goes on after an inference. -/
theorem run_infer (c : Ctx) (hc : c.owner < np) {l : Lit} {o : Bool} {k : Bool → Prog σ μ α} {s : Sys σ μ} (hl : l.Valid n) (hs : o = true → (k false).Stops n m R)
    (h : Runnable n m s) {r : Res α} {s' : Sys σ μ} (e : runProg c (.infer l o k) s = .ok (r, s')) (hf : ¬ Failed r s') :
    ∃ s1 cs, runProg c (k true) s1 = .ok (r, s') ∧ Runnable n m s1 ∧ Ran s cs s1 ∧ (∀ b, Within s1.doms b ↔ Within s.doms b ∧ l.holds b) ∧
      s1.w = s.w ∧ s1.mem = s.mem ∧ s1.st.cstates = s.st.cstates ∧ Frame n np s s1 ∧ s1.tr.madeProgress = (s.tr.madeProgress || !cs.isEmpty) := by
  unfold runProg at e
  rw [if_neg (by simp [h.fine])] at e
  obtain ⟨d, rest, hv⟩ : ∃ d rest, s.st.vars = d :: rest := by
    cases hv : s.st.vars with
    | nil => exact absurd hv h.varsNe
    | cons d r => exact ⟨d, r, rfl⟩
  have hd := doms_eq hv
  have hdOK := h.domsOK; have hdl := h.domsLen; rw [hd] at hdOK hdl
  rcases infer_spec d l hdOK (hdl.symm ▸ hl) with he | ⟨x, he, hspec⟩
  · simp [State.infer, hv, he, bind, Except.bind] at e
  have hinf : s.st.infer l = .ok (x.1, { s.st with vars := x.2 :: rest }) := by
    simp [State.infer, hv, he, bind, Except.bind, pure, Except.pure]
  rw [hinf] at e
  have hm := inferMeaning_of_spec hdOK hspec
  have hfr : ∀ (t : Tracker) (y : List Ev), Frame n np s { s with st := { s.st with vars := x.2 :: rest }, tr := t, trace := y } := by
    intro t y
    refine { Frame.refl (n := n) (np := np) s with varsTail := by simp [hv], varsNe := by simp, domsLen := ?_ }
    show x.2.length = _
    rw [hspec.length, hd]
  by_cases hcon : x.1 = .contradiction
  · have htr : s.track x.1 l { s.st with vars := x.2 :: rest } =
        ({ s with st := { s.st with vars := x.2 :: rest }, tr := { s.tr with didAnything := true, madeProgress := true, contradicted := true } }, false) := by rw [hcon]; rfl
    simp only [htr, Bool.false_eq_true, if_false] at e
    cases o with
    | false => simp at e; exact absurd (.inl e.1.symm) hf
    | true =>
      simp only [if_true] at e
      rcases runProg_stops (m := m) c hc (k false) { s with st := { s.st with vars := x.2 :: rest }, tr := { s.tr with didAnything := true, madeProgress := true, contradicted := true } } (hs rfl) rfl h.cstatesLen with
        ⟨e', he', _⟩ | ⟨r2, s2, he', _, h2⟩
      · rw [he'] at e; cases e
      · rw [he'] at e; cases e; exact absurd (.inr h2) hf
  by_cases hno : x.1 = .noChange
  · have htr : s.track x.1 l { s.st with vars := x.2 :: rest } = ({ s with st := { s.st with vars := x.2 :: rest } }, true) := by rw [hno]; rfl
    simp only [htr, if_true] at e
    have hsame : x.2 = d := hm.noChange hno
    have hran : Ran s [] { s with st := { s.st with vars := x.2 :: rest } } := by
      refine ⟨?_, by simp, by simp, by simp, h.fine⟩
      show Evolve s.doms [] x.2
      rw [hsame, hd]; exact .refl _ hdOK
    exact ⟨_, [], e, h.frame (hfr s.tr s.trace) hran, hran, by rw [hd]; exact fun b => hm.within hcon b, rfl, rfl, rfl, hfr _ _, by simp⟩
  · obtain ⟨v, hlv⟩ := infer_var_of_effective hspec hno hcon
    have htr : s.track x.1 l { s.st with vars := x.2 :: rest } =
        ({ s with
            st := { s.st with vars := x.2 :: rest }
            tr := { s.tr with inferences := s.tr.inferences ++ [(v, x.1)], didAnything := true, madeProgress := true }
            trace := s.trace ++ [.change v x.1] }, true) := by
      cases hr : x.1 <;> simp [hr] at hno hcon <;> simp [Sys.track, Tracker.record, hlv]
    simp only [htr, if_true] at e
    have hran : Ran s [(v, x.1)] { s with
            st := { s.st with vars := x.2 :: rest }
            tr := { s.tr with inferences := s.tr.inferences ++ [(v, x.1)], didAnything := true, madeProgress := true }
            trace := s.trace ++ [.change v x.1] } := by
      refine ⟨?_, rfl, rfl, by simp, h.fine⟩
      show Evolve s.doms [(v, x.1)] x.2
      rw [hd]
      exact .snoc (.refl _ hdOK) (step_of_spec hdOK hspec hno hcon hlv)
    exact ⟨_, _, e, h.frame (hfr _ _) hran, hran, by rw [hd]; exact fun b => hm.within hcon b, rfl, rfl, rfl, hfr _ _, by simp⟩

theorem clear_armed : ∀ (scope : List Nat) {w w' : Watches} {owner : Nat}, w.clear owner scope = .ok w' → ∀ v, ∀ x ∈ armed w' v, x ∈ armed w v
  | [], w, w', owner, e, v, x, hx => by cases e; exact hx
  | u :: vs, w, w', owner, e, v, x, hx => by
    unfold Watches.clear at e
    cases hc : w.clearVar owner u with
    | error e' => rw [hc] at e; cases e
    | ok w1 =>
      rw [hc] at e
      have h1 := clear_armed vs (show Watches.clear w1 owner vs = _ from e) v x hx
      unfold Watches.clearVar at hc
      cases hb : w.byVar[u]? with
      | none => simp [hb, pure, Except.pure] at hc; subst hc; exact h1
      | some ws =>
        cases hr : Watches.removeLoop (fun x => .ok (x.owner = owner)) 0 ws with
        | error e' => simp [hb, hr, bind, Except.bind] at hc
        | ok r =>
          simp [hb, hr, bind, Except.bind, pure, Except.pure] at hc
          subst hc
          have hlt : u < w.byVar.length := (List.getElem?_eq_some_iff.1 hb).1
          have := armed_set (w := { w with trail := (r.2.map (fun x => ⟨false, u, x⟩)).reverse ++ w.trail }) (v := u) hlt r.1 v
          have h1' : x ∈ armed { w with byVar := w.byVar.set u r.1, trail := (r.2.map (fun x => ⟨false, u, x⟩)).reverse ++ w.trail } v := h1
          rw [this] at h1'
          split at h1'
          · next hv =>
            subst hv
            have := (Watches.removeLoop_ok _ _ _ hr).1.mem_iff.1 (show x ∈ r.1 ++ r.2 by simp [h1'])
            unfold armed; rw [hb]; exact this
          · exact h1'

/-- The watches a run arms are on literals that are not entailed then; so if one is at the end, an inference of the run looked at. -/
theorem arms_run (c : Ctx) (hc : c.owner < np) : ∀ (p : Prog σ μ α) (s : Sys σ μ), p.OKAt n m R s.doms → p.ArmsOpen n s.doms → Runnable n m s →
    ∀ r s', runProg c p s = .ok (r, s') → ¬ Failed r s' → ∃ cs, Ran s cs s' ∧
      ∀ v, ∀ x ∈ armed s'.w v, x ∈ armed s.w v ∨ (Entailed s'.doms x.literal → Hit s'.doms cs v x)
  | .ret x, s, _, _, h, r, s', e, _ => by cases e; exact ⟨[], .refl h.domsOK h.fine, fun v x hx => .inl hx⟩
  | .raise e, s, _, _, _, _, _, e', _ => nomatch e'
  | .fail, s, _, _, _, _, _, e, hf => by cases e; exact absurd (.inl rfl) hf
  | .read k, s, hp, hq, h, r, s', e, hf => arms_run c hc (k s) s (hp s rfl) (hq s rfl) h r s' e hf
  | .infer l o k, s, hp, hq, h, r, s', e, hf => by
    obtain ⟨s1, cs, e1, h1, hran, hw, hwat, _, _, _⟩ := run_infer c hc hp.1 hp.2.2 h e hf
    obtain ⟨ds, hran2, h2⟩ := arms_run c hc (k true) s1 (hp.2.1 _ h1.domsOK h1.domsLen hw) (hq _ h1.domsOK h1.domsLen hw) h1 r s' e1 hf
    refine ⟨cs ++ ds, hran.trans hran2, fun v x hx => ?_⟩
    rcases h2 v x hx with h3 | h3
    · exact .inl (hwat ▸ h3)
    · refine .inr fun he => ?_
      obtain ⟨⟨inf, a, b⟩, d⟩ := h3 he
      exact ⟨⟨inf, by simp [a], b⟩, d⟩
  | .progress k, s, hp, hq, h, r, s', e, hf => by
    obtain ⟨cs, h1, h2⟩ := arms_run c hc (k s.tr.madeProgress) { s with tr := { s.tr with madeProgress := false } } (hp _) (hq _) ⟨h.1, h.2, h.3, h.4, h.5⟩ r s' e hf
    exact ⟨cs, ⟨h1.1, h1.2, h1.3, h1.4, h1.5⟩, h2⟩
  | .watch l x k, s, hp, hq, h, r, s', e, hf => by
    obtain ⟨cs, h1, h2⟩ := arms_run c hc k { s with w := s.w.register c.owner l x true } hp.2.2 hq.2 ⟨h.1, h.2, h.3, h.4, h.5⟩ r s' e hf
    refine ⟨cs, ⟨h1.1, h1.2, h1.3, h1.4, h1.5⟩, fun v y hy => ?_⟩
    rcases h2 v y hy with h3 | h3
    · have h3' : y ∈ armed (s.w.register c.owner l x true) v := h3
      cases hu : l.underlyingIndex with
      | none =>
        have : s.w.register c.owner l x true = s.w := by unfold Watches.register; rw [hu]
        rw [this] at h3'; exact .inl h3'
      | some u =>
        rw [armed_register s.w c.owner l x true hu] at h3'
        rcases List.mem_append.1 h3' with h4 | h4
        · exact .inl h4
        · split at h4
          · next hv =>
            subst hv
            simp only [List.mem_singleton] at h4
            subst h4
            refine .inr fun he => ⟨?_, he⟩
            exact evolve_mask (show Evolve s.doms cs s'.doms from h1.evolve) hu hq.1 he
          · simp at h4
    · exact .inr h3
  | .clearWatches k, s, hp, hq, h, r, s', e, hf => by
    obtain ⟨w, e', _⟩ := clear_spec (n := n) (np := np) c.scope s.w c.owner
    unfold runProg at e
    rw [e'] at e
    obtain ⟨cs, h1, h2⟩ := arms_run c hc k { s with w := w } hp hq ⟨h.1, h.2, h.3, h.4, h.5⟩ r s' e hf
    refine ⟨cs, ⟨h1.1, h1.2, h1.3, h1.4, h1.5⟩, fun v y hy => ?_⟩
    rcases h2 v y hy with h3 | h3
    · exact .inl (clear_armed _ e' v y h3)
    · exact .inr h3
  | .setWatchState x y k, s, hp, hq, h, r, s', e, hf => by
    obtain ⟨cs, h1, h2⟩ := arms_run c hc k { s with w := s.w.stateSet c.owner x y } hp hq ⟨h.1, h.2, h.3, h.4, h.5⟩ r s' e hf
    exact ⟨cs, ⟨h1.1, h1.2, h1.3, h1.4, h1.5⟩, h2⟩
  | .setState i v k, s, hp, hq, h, r, s', e, hf => by
    obtain ⟨st, e', h1, h2⟩ := setState_spec (n := n) (np := np) (s := s) v (by rw [h.cstatesLen]; exact hp.1)
    unfold runProg at e
    rw [e'] at e
    have hd : (⟨st, s.tr, s.w, s.q, s.claims, s.toDisable, s.total, s.effectful, s.contradicting, s.conflicts, s.mem, s.clock, s.trace⟩ : Sys σ μ).doms = s.doms := by
      unfold Sys.doms; rw [h2]
    obtain ⟨cs, k1, k2⟩ := arms_run c hc k { s with st := st } (by rw [hd]; exact hp.2) (by rw [hd]; exact hq) ⟨by rw [hd]; exact h.domsOK, by rw [hd]; exact h.domsLen,
      by show st.vars ≠ []; rw [h2]; exact h.varsNe, h1.cstatesLen.trans h.cstatesLen, h.fine⟩ r s' e hf
    refine ⟨cs, ⟨?_, k1.2, k1.3, k1.4, k1.5⟩, k2⟩
    have := k1.evolve
    rw [hd] at this; exact this
  | .setMem x k, s, hp, hq, h, r, s', e, hf => by
    obtain ⟨cs, h1, h2⟩ := arms_run c hc k { s with mem := x } hp hq ⟨h.1, h.2, h.3, h.4, h.5⟩ r s' e hf
    exact ⟨cs, ⟨h1.1, h1.2, h1.3, h1.4, h1.5⟩, h2⟩

end
end Gcs
