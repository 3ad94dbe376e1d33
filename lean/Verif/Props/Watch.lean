import Verif.Lemmas.Firing
import Verif.Props.EngineDemo

/-!
# C23: watches on literals

* `watch_mask_complete`: a change that makes a literal entailed is always of a kind for which watches on the literal are looked at.
* `endRound_fires`: at the end of a round in which nobody's claim of idempotence was honoured, exactly the watches whose literal is entailed and was not when the
  round began are used up, their payload is delivered and their owner is ready to run, and the others stay armed.
* `watch_payloads_delivered`: no payload is thrown away, except those for propagators that are disabled.
* `propagate_fires_watches_partial`: over a whole call, no watch whose literal is entailed is left armed.
  Partial: it is assumed that no claim of idempotence is honoured. With claims it is false: `claims_lose_watches` shows a call after which an armed
  watch is on an entailed literal, and its owner has not run since it became entailed; `claims_accept_nonsolution` shows that a search that goes on from there fixes all variables in a way that the
  propagators do not accept.
* `watches_restored`: after backtracking, the watches armed on every variable and the scratch state are the same as before, up to the order in which a variable's watches are
  stored.
-/

namespace Gcs
open IntervalSet Queue

section
variable {σ μ : Type} {n m : Nat} {R : Err → Prop}

theorem watch_mask_complete {d d' : Doms} {v : Nat} {inf : Inference} (hd : DomsOK d) (h : Step v inf d d') {l : Lit} (hl : l.underlyingIndex = some v)
    (h0 : ∃ a, Within d a ∧ ¬ l.holds a) (h1 : ∀ a, Within d' a → l.holds a) : inf ∈ triggerMask l :=
  step_mask hd h hl (fun he => by obtain ⟨a, ha, hn⟩ := h0; exact hn (he a ha)) h1

theorem endRound_fires {E : Engine σ μ} (hE : E.WF n m R) {s : Sys σ μ} (hs : LoopOK n m E.progs.length s) (hc : s.claims = [])
    {d : Doms} (hev : Evolve d s.tr.inferences s.doms) :
    RightOrOverflow (Sys.endRound E s) (fun s' => ∀ v, ∀ x ∈ armed s.w v,
      ((∃ a, Within d a ∧ ¬ x.literal.holds a) → (∀ a, Within s.doms a → x.literal.holds a) →
        x ∉ armed s'.w v ∧ x.payload ∈ box s'.w x.owner ∧ (¬ IsDisabled s.q x.owner → x.owner ∉ s.toDisable → x.owner ∈ Ready s'.q)) ∧
      ((∃ a, Within s.doms a ∧ ¬ x.literal.holds a) → x ∈ armed s'.w v)) := by
  refine (endRound_ok hE hs).mono fun s' h' v x hx => ?_
  have hok := armed_ok hs.ok.watches hx
  obtain ⟨f, hp, hf, hno⟩ := h'.fired hc v
  constructor
  · rintro ⟨a, ha, hn⟩ h1
    obtain ⟨inf, i1, i2⟩ := evolve_mask hev hok.2.2.1 (fun he => hn (he a ha)) h1
    have hit : Hit s.doms s.tr.inferences v x := ⟨⟨inf, i1, by rw [hok.2.2.2.2.1]; exact i2⟩, h1⟩
    have hnot : x ∉ armed s'.w v := fun hx' => hno x hx' hit
    refine ⟨hnot, ?_, fun hd ht => (h'.ready _).2 ⟨hok.2.2.2.1, hd, ht, .inr ⟨hc, v, x, hx, hit, rfl⟩⟩⟩
    rcases List.mem_append.1 (hp.mem_iff.2 hx) with hx' | hx'
    · exact absurd hx' hnot
    · exact (hf x hx').2
  · rintro ⟨a, ha, hn⟩
    rcases List.mem_append.1 (hp.mem_iff.2 hx) with hx' | hx'
    · exact hx'
    · exact absurd ((hf x hx').1.2 a ha) hn

theorem watch_payloads_delivered {E : Engine σ μ} (hE : E.WF n m R) {abort : Nat → Bool} {gs : List Lit} {s s1 s2 : Sys σ μ} {fuel : Nat}
    (h : CallOK n m E gs s) (e1 : Sys.prepare E gs s = .ok s1) (e2 : Sys.loop E abort fuel s1 = .ok (some false, s2))
    (hab : ∀ i, i < s2.clock → abort i = false) :
    ∀ p, box s2.w p ≠ [] → IsDisabled s2.q p ∨ E.permDisabled[p]? = some true := by
  rcases prepare_ok hE h with e | ⟨s1', e, h1⟩
  · rw [e] at e1; cases e1
  · rw [e] at e1; cases e1
    exact loop_delivers hE h1.ok (h1.delivered h) e2 hab

theorem propagate_fires_watches_partial {E : Engine σ μ} (hE : E.WF n m R) {abort : Nat → Bool} {gs : List Lit} {s : Sys σ μ} (h : CallOK n m E gs s)
    (hstart : ∀ v, ∀ x ∈ armed s.w v, (∀ a, Within s.doms a → x.literal.holds a) → ∃ g ∈ gs, g.underlyingIndex = some v)
    (hclaims : NoClaims n E) (harm : ∀ (p : Nat) f, E.progs[p]? = some f → ∀ d, DomsOK d → d.length = n → f.ArmsOpen n d) {s' : Sys σ μ}
    (e : Sys.propagate E gs abort s = .ok (true, s')) (hab : ∀ i, i < s'.clock → abort i = false) :
    ∀ v, ∀ x ∈ armed s'.w v, ∃ a, Within s'.doms a ∧ ¬ x.literal.holds a := by
  intro v x hx
  have := propagate_open hE h hstart hclaims harm e hab v x hx
  unfold Entailed at this
  exact Classical.byContradiction fun hc => this fun a ha => Classical.byContradiction fun hn => hc ⟨a, ha, hn⟩

theorem watches_restored {E : Engine σ μ} (hE : E.WF n m R) {abort : Nat → Bool} {gs : List Lit} {s : Sys σ μ} (h : CallOK n m E gs s) (hid : IdsOK s.w) {b : Bool} {s' : Sys σ μ}
    (e : Sys.propagate E gs abort s = .ok (b, s')) :
    ∃ u, Watches.undo s.w.trail.length s.w.wsTrail.length s'.w = .ok u ∧ (∀ v, (armed u v).Perm (armed s.w v)) ∧ (∀ o k, u.stateGet o k = s.w.stateGet o k) ∧
      u.trail = s.w.trail ∧ u.wsTrail = s.w.wsTrail := by
  obtain ⟨u, h1, h2, _, _⟩ := undo_restores (propagate_wsteps hE h e) hid (.refl _)
  exact ⟨u, h1, h2.like.armed, h2.slike.get, h2.trail, h2.wsTrail⟩

end

/-! ## A concrete engine with a watch -/

namespace WatchDemo
open Demo (dom_ok)

def x : VarId := .simple 0
def y : VarId := .simple 1

/-- Makes `x = 2`. -/
def setX (ps : PState) : Prog Unit Unit PState := .infer (.cond (Cond.eq x 2)) false fun _ => .ret ps
/-- If `x = 2` then `y ≥ 1`. -/
def implies : Prog Unit Unit PState :=
  (Prog.ask (fun d => testLiteral d (.cond (Cond.eq x 2)))).bind fun t =>
  if t = .definitelyTrue then .infer (.cond (Cond.ge y 1)) false fun _ => .ret .enable else .ret .enable

/-- `implies` is woken by a watch on `x = 2` only; `setX` by nothing. -/
def E (ps : PState) : Engine Unit Unit := (Engine.empty.install 0 implies { refined := [(.cond (Cond.eq x 2), 7)] }).install 1 (setX ps) { onBounds := [x] }

def w0 : Watches := Engine.installWatches .empty 0 { refined := [(.cond (Cond.eq x 2), 7)] }

def s0 : Sys Unit Unit :=
  ⟨⟨[[[(0, 3)], [(0, 3)]]], [[]], [[]], [], [], none, none⟩, .fresh, w0, ⟨[], [], 0, 0, 0⟩, [], [], 0, 0, 0, [], (), 0, []⟩

theorem range : (Lit.cond (Cond.eq x 2)).RangeOK := by rintro (h | h) <;> cases h

theorem implies_ok : implies.OK 2 0 (· = .overflow) := by
  refine roo_ask (fun _ => True) rfl (fun d hd hl => (testLiteral_spec d (.cond (Cond.eq x 2)) hd ⟨show 0 < d.length by omega, by decide, by decide⟩ range).mono fun _ _ => trivial) ?_
  intro t _
  by_cases h : t = .definitelyTrue
  · rw [if_pos h]; exact ⟨⟨show 1 < 2 by decide, by decide, by decide⟩, trivial, nofun⟩
  · rw [if_neg h]; trivial

theorem setX_ok (ps : PState) : (setX ps).OK 2 0 (· = .overflow) := ⟨⟨show 0 < 2 by decide, by decide, by decide⟩, trivial, nofun⟩

theorem built (ps : PState) : Built 2 0 (· = .overflow) (E ps) [(implies, { refined := [(.cond (Cond.eq x 2), 7)] }), (setX ps, { onBounds := [x] })] :=
  Built.install 1 (setX ps) { onBounds := [x] }
    (Built.install 0 implies { refined := [(.cond (Cond.eq x 2), 7)] } .empty implies_ok.safe
      (by intro l hl; have : l = (.cond (Cond.eq x 2), 7) := by simpa using hl
          subst this; exact ⟨⟨show 0 < 2 by decide, by decide, by decide⟩, range⟩))
    (setX_ok ps).safe (by simp)

theorem armed_w0 (v : Nat) : armed w0 v = if v = 0 then [⟨.cond (Cond.eq x 2), 7, 0, 0, [.instantiated]⟩] else [] := by
  match v with
  | 0 => rfl
  | 1 => rfl
  | v + 2 => rfl

theorem call (ps : PState) : CallOK 2 0 (E ps) [] s0 where
  domsOK := by
    intro s hs
    have : s = [(0, 3)] := by simpa [Sys.doms, s0] using hs
    subst this; exact dom_ok 0 3 (by decide) (by decide) (by decide)
  domsLen := rfl
  varsNe := by simp [s0]
  cstatesLen := rfl
  epochs := by simp [s0]
  watches := by
    refine installWatches_ok (np := 2) (w := .empty) (by intro v ws x hv; simp [Watches.empty] at hv) (show 0 < 2 by decide) _ ?_
    intro l hl
    have : l = (.cond (Cond.eq x 2), 7) := by simpa using hl
    subst this; exact ⟨⟨show 0 < 2 by decide, by decide, by decide⟩, range⟩
  boxes := by intro p; rfl
  inv := fun h => absurd rfl h

/-- Without a claim, the watch fires and `y ≥ 1` is inferred. -/
theorem runs : ∃ s', Sys.propagate (E .enable) [] (fun _ => false) s0 = .ok (true, s') ∧ s'.doms = [[(2, 2)], [(1, 3)]] ∧ s'.w.byVar = [[]] := by
  have h : (match Sys.propagate (E .enable) [] (fun _ => false) s0 with
    | .ok (true, s') => decide (s'.doms = [[(2, 2)], [(1, 3)]] ∧ s'.w.byVar = [[]])
    | _ => false) = true := by decide +kernel
  split at h
  · exact ⟨_, by assumption, of_decide_eq_true h⟩
  · cases h

theorem noClaims : NoClaims 2 (E .enable) := by
  intro p f hf _ d _ _
  have : f = implies ∨ f = setX .enable := by
    rw [(built .enable).progs] at hf
    match p, hf with
    | 0, hf => left; simpa using hf.symm
    | 1, hf => right; simpa using hf.symm
    | p + 2, hf => simp at hf
  rcases this with rfl | rfl
  · refine wp_ask fun t _ => ?_
    by_cases h : t = .definitelyTrue
    · rw [if_pos h]; intro d' _ _ _; exact nofun
    · rw [if_neg h]; exact nofun
  · intro d' _ _ _; exact nofun

theorem arms : ∀ (p : Nat) f, (E .enable).progs[p]? = some f → ∀ d, DomsOK d → d.length = 2 → f.ArmsOpen 2 d := by
  intro p f hf d _ _
  have : f = implies ∨ f = setX .enable := by
    rw [(built .enable).progs] at hf
    match p, hf with
    | 0, hf => left; simpa using hf.symm
    | 1, hf => right; simpa using hf.symm
    | p + 2, hf => simp at hf
  rcases this with rfl | rfl
  · rintro s rfl
    cases ht : testLiteral s.doms (.cond (Cond.eq x 2)) with
    | error e => simp only [ht, Prog.bind]; trivial
    | ok t =>
      simp only [ht, Prog.bind]
      by_cases h : t = .definitelyTrue
      · rw [if_pos h]; intro d' _ _ _; trivial
      · rw [if_neg h]; trivial
  · intro d' _ _ _; trivial

/-- The hypotheses of `propagate_fires_watches_partial` are met. -/
example : ∀ v, ∀ z ∈ armed s0.w v, (∀ a, Within s0.doms a → z.literal.holds a) → ∃ g ∈ ([] : List Lit), g.underlyingIndex = some v := by
  intro v z hz
  have h1 : armed s0.w v = _ := armed_w0 v
  rw [h1] at hz
  split at hz
  · simp only [List.mem_singleton] at hz
    subst hz
    intro h
    have := h (fun _ => 0) (by intro i s hs; match i, hs with
      | 0, hs => cases hs; exact ⟨(0, 3), by simp, by decide, by decide⟩
      | 1, hs => cases hs; exact ⟨(0, 3), by simp, by decide, by decide⟩)
    exact absurd (show (0 : Int) = 2 from this) (by decide)
  · simp at hz

example : ∃ s', Sys.propagate (E .enable) [] (fun _ => false) s0 = .ok (true, s') ∧ ∀ v, armed s'.w v = [] := by
  obtain ⟨s', h1, _, h3⟩ := runs
  refine ⟨s', h1, fun v => ?_⟩
  unfold armed
  rw [h3]
  match v with
  | 0 => rfl
  | v + 1 => rfl

/-- The watches this call uses up are there again after backtracking. -/
example : ∃ s' u, Sys.propagate (E .enable) [] (fun _ => false) s0 = .ok (true, s') ∧ armed s'.w 0 = [] ∧ Watches.undo 0 0 s'.w = .ok u ∧ (armed u 0).Perm (armed s0.w 0) := by
  obtain ⟨s', h1, _, h3⟩ := runs
  obtain ⟨u, h4, h5, _⟩ := watches_restored (built .enable).wf (call .enable) (by
    intro v
    have : armed s0.w v = _ := armed_w0 v
    rw [this]
    split <;> simp [s0, w0, Engine.installWatches, Watches.register, Lit.underlyingIndex, VarId.underlyingIndex, x, Cond.eq, Watches.empty]) h1
  exact ⟨s', u, h1, by unfold armed; rw [h3]; rfl, h4, h5 0⟩

/-- C23 does not hold when claims of idempotence are honoured. The claim of `setX` is truthful: run again it changes nothing. Afterwards the literal `x = 2` is entailed, the
watch on it is still armed, and `implies` last ran before `x` was changed. -/
theorem claims_lose_watches : ∃ s', Sys.propagate (E .enableButIdempotent) [] (fun _ => false) s0 = .ok (true, s') ∧
    s'.doms = [[(2, 2)], [(0, 3)]] ∧ s'.w.byVar = [[⟨.cond (Cond.eq x 2), 7, 0, 0, [.instantiated]⟩]] ∧
    s'.trace = [.start 0, .finish 0 .enable, .start 1, .change 0 .instantiated, .finish 1 .enableButIdempotent] := by
  have h : (match Sys.propagate (E .enableButIdempotent) [] (fun _ => false) s0 with
    | .ok (true, s') => decide (s'.doms = [[(2, 2)], [(0, 3)]] ∧ s'.w.byVar = [[⟨.cond (Cond.eq x 2), 7, 0, 0, [.instantiated]⟩]] ∧
        s'.trace = [.start 0, .finish 0 .enable, .start 1, .change 0 .instantiated, .finish 1 .enableButIdempotent])
    | _ => false) = true := by decide +kernel
  split at h
  · exact ⟨_, by assumption, of_decide_eq_true h⟩
  · cases h

/-- Searching on: with `y = 0` guessed, `propagate` accepts, and all variables are fixed, `x` to 2 and `y` to 0. But `implies`, run on these domains, fails. -/
theorem claims_accept_nonsolution : ∃ s1 ep st s2 r, Sys.propagate (E .enableButIdempotent) [] (fun _ => false) s0 = .ok (true, s1) ∧
    s1.st.newEpoch false = .ok ep ∧ ep.2.guess (.cond (Cond.eq y 0)) = .ok st ∧
    Sys.propagate (E .enableButIdempotent) [.cond (Cond.eq y 0)] (fun _ => false) { s1 with st := st } = .ok (true, s2) ∧
    s2.doms = [[(2, 2)], [(0, 0)]] ∧ runProg ⟨0, []⟩ implies s2 = .ok r ∧ Failed r.1 r.2 := by
  have h : (match Sys.propagate (E .enableButIdempotent) [] (fun _ => false) s0 with
    | .ok (true, s1) => match s1.st.newEpoch false with
      | .ok ep => match ep.2.guess (.cond (Cond.eq y 0)) with
       | .ok st => match Sys.propagate (E .enableButIdempotent) [.cond (Cond.eq y 0)] (fun _ => false) { s1 with st := st } with
        | .ok (true, s2) => decide (s2.doms = [[(2, 2)], [(0, 0)]]) && match runProg ⟨0, []⟩ implies s2 with
          | .ok r => r.2.tr.contradicted
          | _ => false
        | _ => false
       | _ => false
      | _ => false
    | _ => false) = true := by decide +kernel
  split at h
  · rename_i s1 h1
    split at h
    · rename_i ep h0
      split at h
      · rename_i st h2
        split at h
        · rename_i s2 h3
          rw [Bool.and_eq_true] at h
          obtain ⟨h4, h5⟩ := h
          split at h5
          · rename_i r h6
            exact ⟨s1, ep, st, s2, r, h1, h0, h2, h3, of_decide_eq_true h4, h6, .inr h5⟩
          · cases h5
        · cases h
      · cases h
    · cases h
  · cases h

end WatchDemo
end Gcs
