import Verif.Model.Search
import Verif.Lemmas.State

/-! A search that is stopped has done part of what it would have done otherwise. -/

namespace Gcs
open IntervalSet

section
variable {σ μ : Type}

/-- The same search, with nobody to stop it. -/
def SearchEnv.free (V : SearchEnv σ μ) : SearchEnv σ μ := { V with abort := fun _ => false, solution := fun _ _ => true, trace := fun _ _ => true }

theorem loop_prefix {E : Engine σ μ} {abort : Nat → Bool} : ∀ (fuel : Nat) (s : Sys σ μ) (r : Option Bool) (s' : Sys σ μ), Sys.loop E abort fuel s = .ok (r, s') →
    Sys.loop E (fun _ => false) fuel s = .ok (r, s') ∨ (r = some false ∧ ∃ i, i < s'.clock ∧ abort i = true)
  | 0, s, r, s', h => .inl h
  | fuel + 1, s, r, s', h => by
    unfold Sys.loop at h ⊢
    obtain ⟨s1, e1, h⟩ := bind_ok h
    rw [e1]
    show (ite _ _ _ : Chk (Option Bool × Sys σ μ)) = _ ∨ _
    replace h : (ite _ _ _ : Chk (Option Bool × Sys σ μ)) = _ := h
    by_cases hq : s1.q.begin_ = s1.q.end_
    · rw [if_pos hq] at h ⊢; exact .inl h
    · rw [if_neg hq] at h ⊢
      obtain ⟨x, e2, h⟩ := bind_ok h
      rw [e2]
      obtain ⟨t, s2⟩ := x
      cases t with
      | skipped => exact loop_prefix fuel s2 r s' h
      | contradiction => exact .inl h
      | fine =>
        replace h : (if abort s2.clock then (.ok (some false, { s2 with clock := s2.clock + 1 }) : Chk (Option Bool × Sys σ μ)) else Sys.loop E abort fuel { s2 with clock := s2.clock + 1 }) = _ := h
        by_cases ha : abort s2.clock = true
        · rw [if_pos ha] at h; cases h
          exact .inr ⟨rfl, s2.clock, Nat.lt_succ_self _, ha⟩
        · rw [if_neg ha] at h
          exact loop_prefix fuel _ r s' h

theorem propagate_prefix {E : Engine σ μ} {abort : Nat → Bool} {gs : List Lit} {s s' : Sys σ μ} {b : Bool} (h : Sys.propagate E gs abort s = .ok (b, s')) :
    Sys.propagate E gs (fun _ => false) s = .ok (b, s') ∨ (b = true ∧ ∃ i, i < s'.clock ∧ abort i = true) := by
  unfold Sys.propagate at h ⊢
  obtain ⟨s1, e1, h⟩ := bind_ok h
  rw [e1]
  obtain ⟨⟨r, s2⟩, e2, h⟩ := bind_ok h
  rcases loop_prefix _ _ _ _ e2 with h1 | ⟨rfl, h1⟩
  · left
    show (Sys.loop E (fun _ => false) (Sys.turns E s1) s1 >>= _) = _
    rw [h1]; exact h
  · right
    cases h
    exact ⟨rfl, h1⟩

theorem siblings_extends {V : SearchEnv σ μ} {rec : Cond → List Cond → Sys σ μ → Tally → Chk (Explored σ μ)}
    (hrec : ∀ g p s t res has s' t', rec g p s t = .ok (res, has, s', t') → t.found <+: t'.found) {pfx : List Cond} {first : Option Cond} :
    ∀ (gs : List Cond) (idx : Nat) (ref : List Cond) (has : Bool) (s : Sys σ μ) (t : Tally) ref' res' has' s' t',
      siblings V rec pfx first idx gs ref has s t = .ok (ref', res', has', s', t') → t.found <+: t'.found
  | [], idx, ref, has, s, t, ref', res', has', s', t', h => by cases h; exact List.prefix_refl _
  | g :: gs, idx, ref, has, s, t, ref', res', has', s', t', h => by
    unfold siblings at h
    by_cases ha : V.abort s.clock = true
    · rw [if_pos ha] at h; cases h; exact List.prefix_refl _
    · rw [if_neg ha] at h
      obtain ⟨e, e1, h⟩ := bind_ok h
      obtain ⟨st, e2, h⟩ := bind_ok h
      obtain ⟨⟨res, has2, s2, t2⟩, e3, h⟩ := bind_ok h
      obtain ⟨s1, e4, h⟩ := bind_ok h
      have h1 : t.found <+: t2.found := hrec _ _ _ (t.told true) _ _ _ _ e3
      have h2 : (if has2 then t2 else { t2 with failures := t2.failures + 1 }).found = t2.found := by cases has2 <;> rfl
      cases res with
      | stop => cases h; rw [h2]; exact h1
      | cutoff => cases h; rw [h2]; exact h1
      | complete =>
        have := siblings_extends hrec gs _ _ _ _ _ _ _ _ _ _ h
        rw [h2] at this
        exact h1.trans this

theorem leaf_found {V : SearchEnv σ μ} {s : Sys σ μ} {t : Tally} {res has s' t'} (h : leaf V s t = .ok (res, has, s', t')) : t'.found = t.found ++ [s.doms] := by
  unfold leaf at h
  obtain ⟨v, _, h⟩ := bind_ok h
  cases h; rfl

theorem node_extends {V : SearchEnv σ μ} {cut : Option Nat} : ∀ (fuel depth : Nat) (guess : Option Cond) (pfx : List Cond) (s : Sys σ μ) (t : Tally) res has s' t',
    node V cut fuel depth guess pfx s t = .ok (res, has, s', t') → t.found <+: t'.found
  | 0, _, _, _, _, _, _, _, _, _, h => nomatch h
  | fuel + 1, depth, guess, pfx, s, t, res, has, s', t', h => by
    unfold node at h
    generalize ht : ({ t with maxDepth := max t.maxDepth depth, recursions := t.recursions + 1, visited := t.visited ++ [s.st.guesses] } : Tally) = t1 at h
    have hf : t.found = t1.found := by rw [← ht]
    rw [hf]
    by_cases hc : cut.any (· ≤ t1.conflicts) = true
    · rw [if_pos hc] at h; cases h; exact List.prefix_refl _
    rw [if_neg hc] at h
    obtain ⟨x, e1, h⟩ := bind_ok h
    by_cases hx : x.1 = true
    · rw [if_pos hx] at h; cases h; exact List.prefix_refl _
    rw [if_neg hx] at h
    obtain ⟨y, e2, h⟩ := bind_ok h
    by_cases hy : y.1 = false
    · rw [if_pos hy] at h; cases h; exact List.prefix_refl _
    rw [if_neg hy] at h
    by_cases ha : V.abort y.2.clock = true
    · rw [if_pos ha] at h; cases h; exact List.prefix_refl _
    rw [if_neg ha] at h
    obtain ⟨bs, e3, h⟩ := bind_ok h
    by_cases hb : bs = []
    · rw [if_pos hb] at h
      rw [leaf_found h]; exact List.prefix_append _ _
    rw [if_neg hb] at h
    by_cases hv : V.trace y.2.tick.tick.clock y.2.tick.tick.doms = false
    · rw [if_pos hv] at h; cases h; exact List.prefix_refl _
    rw [if_neg hv] at h
    by_cases ha2 : V.abort y.2.tick.tick.tick.clock = true
    · rw [if_pos ha2] at h; cases h; exact List.prefix_refl _
    rw [if_neg ha2] at h
    obtain ⟨⟨ref, res2, has2, s2, t2⟩, e4, h⟩ := bind_ok h
    have := siblings_extends (fun g p s t res has s' t' h => node_extends fuel _ _ _ _ _ _ _ _ _ h) _ _ _ _ _ _ _ _ _ _ _ e4
    by_cases hz : res2 = .cutoff
    · rw [if_pos hz] at h; cases h; exact this
    · rw [if_neg hz] at h; cases h; exact this

/-- What was done is what the free search does, or it was stopped and what was reported is a prefix of what the free search reports. -/
def Cut (x : Explored σ μ) (y : Chk (Explored σ μ)) : Prop :=
  y = .ok x ∨ (x.1 = .stop ∧ ∀ x2, y = .ok x2 → x.2.2.2.found <+: x2.2.2.2.found)

theorem siblings_prefix {V : SearchEnv σ μ} {rec rec' : Cond → List Cond → Sys σ μ → Tally → Chk (Explored σ μ)}
    (hrec : ∀ g p s t x, rec g p s t = .ok x → Cut x (rec' g p s t))
    (hext : ∀ g p s t res has s' t', rec' g p s t = .ok (res, has, s', t') → t.found <+: t'.found) {pfx : List Cond} {first : Option Cond} :
    ∀ (gs : List Cond) (idx : Nat) (ref : List Cond) (has : Bool) (s : Sys σ μ) (t : Tally) ref' x,
      siblings V rec pfx first idx gs ref has s t = .ok (ref', x) →
      siblings V.free rec' pfx first idx gs ref has s t = .ok (ref', x) ∨
        (x.1 = .stop ∧ ∀ ref2 x2, siblings V.free rec' pfx first idx gs ref has s t = .ok (ref2, x2) → x.2.2.2.found <+: x2.2.2.2.found)
  | [], idx, ref, has, s, t, ref', x, h => .inl h
  | g :: gs, idx, ref, has, s, t, ref', x, h => by
    unfold siblings at h
    by_cases ha : V.abort s.clock = true
    · rw [if_pos ha] at h; cases h
      exact .inr ⟨rfl, fun ref2 x2 h2 => siblings_extends (V := V.free) hext (g :: gs) idx ref has s t _ _ _ _ _ h2⟩
    · rw [if_neg ha] at h
      have hfree : ∀ z, siblings V.free rec' pfx first idx (g :: gs) ref has s t = z ↔ (do
          let e ← s.st.newEpoch false
          let st ← e.2.guess (.cond g)
          let x ← rec' g (childPrefix V pfx first idx g) { s.tick with st := st } (t.told true)
          let t1 := if x.2.1 then x.2.2.2 else { x.2.2.2 with failures := x.2.2.2.failures + 1 }
          let s1 ← x.2.2.1.backtrack e.1
          match x.1 with
          | .stop => return (ref, .stop, has || x.2.1, s1, t1)
          | .cutoff => return (ref, .cutoff, has || x.2.1, s1, t1)
          | .complete => siblings V.free rec' pfx first (idx + 1) gs (ref ++ [g]) (has || x.2.1) s1 t1) = z := fun z => Iff.rfl
      obtain ⟨e, e1, h⟩ := bind_ok h
      obtain ⟨st, e2, h⟩ := bind_ok h
      obtain ⟨⟨res, has2, s2, t2⟩, e3, h⟩ := bind_ok h
      obtain ⟨s1, e4, h⟩ := bind_ok h
      have hfree2 : ∀ z, siblings V.free rec' pfx first idx (g :: gs) ref has s t = z ↔ (do
          let x ← rec' g (childPrefix V pfx first idx g) { s.tick with st := st } (t.told true)
          let t1 := if x.2.1 then x.2.2.2 else { x.2.2.2 with failures := x.2.2.2.failures + 1 }
          let s1 ← x.2.2.1.backtrack e.1
          match x.1 with
          | .stop => return (ref, .stop, has || x.2.1, s1, t1)
          | .cutoff => return (ref, .cutoff, has || x.2.1, s1, t1)
          | .complete => siblings V.free rec' pfx first (idx + 1) gs (ref ++ [g]) (has || x.2.1) s1 t1) = z := by
        intro z; rw [hfree z, e1]; simp only [bind, Except.bind]; simp only [e2]
      have fnd : ∀ (b : Bool) (t : Tally), (if b then t else { t with failures := t.failures + 1 }).found = t.found := by intro b t; cases b <;> rfl
      rcases hrec _ _ _ _ _ e3 with h1 | ⟨hs, h1⟩
      · have e4' : s2.backtrack e.1 = .ok s1 := e4
        cases res with
        | stop => left; rw [hfree2, h1]; simp only [bind, Except.bind, e4']; exact h
        | cutoff => left; rw [hfree2, h1]; simp only [bind, Except.bind, e4']; exact h
        | complete =>
          rcases siblings_prefix hrec hext gs _ _ _ _ _ _ _ h with h | ⟨h2, h3⟩
          · left; rw [hfree2, h1]; simp only [bind, Except.bind, e4']; exact h
          · refine .inr ⟨h2, fun ref2 x2 h4 => h3 ref2 x2 ?_⟩
            rw [hfree2, h1] at h4
            simp only [bind, Except.bind, e4'] at h4
            exact h4
      · replace hs : res = .stop := hs
        subst hs
        cases h
        refine .inr ⟨rfl, fun ref2 x2 h4 => ?_⟩
        rw [hfree2] at h4
        obtain ⟨⟨res5, has5, s5, t5⟩, e5, h4⟩ := bind_ok h4
        obtain ⟨s6, e6, h4⟩ := bind_ok h4
        have h6 : t2.found <+: t5.found := h1 _ e5
        show List.IsPrefix (Tally.found (if has2 then t2 else _)) _
        rw [fnd]
        cases res5 with
        | stop => cases h4; show _ <+: Tally.found (if has5 then t5 else _); rw [fnd]; exact h6
        | cutoff => cases h4; show _ <+: Tally.found (if has5 then t5 else _); rw [fnd]; exact h6
        | complete =>
          have := siblings_extends (V := V.free) hext gs _ _ _ _ _ _ _ _ _ _ h4
          rw [fnd] at this
          exact h6.trans this

theorem leaf_prefix {V : SearchEnv σ μ} {s : Sys σ μ} {t : Tally} {x : Explored σ μ} (h : leaf V s t = .ok x) : Cut x (leaf V.free s t) := by
  by_cases hv : V.solution s.clock s.doms = true
  · left
    unfold leaf at h ⊢
    rw [hv] at h
    exact h
  · obtain ⟨res, has, s', t'⟩ := x
    refine .inr ⟨?_, fun x2 h2 => ?_⟩
    · unfold leaf at h
      obtain ⟨v, _, h⟩ := bind_ok h
      rw [if_neg hv] at h
      cases h; rfl
    · obtain ⟨res2, has2, s2, t2⟩ := x2
      show t'.found <+: t2.found
      rw [leaf_found h, leaf_found h2]
      exact List.prefix_refl _

theorem node_prefix {V : SearchEnv σ μ} (hmono : ∀ i j, i ≤ j → V.abort i = true → V.abort j = true) {cut : Option Nat} :
    ∀ (fuel depth : Nat) (guess : Option Cond) (pfx : List Cond) (s : Sys σ μ) (t : Tally) (x : Explored σ μ),
    node V cut fuel depth guess pfx s t = .ok x → Cut x (node V.free cut fuel depth guess pfx s t)
  | 0, _, _, _, _, _, _, h => nomatch h
  | fuel + 1, depth, guess, pfx, s, t, x, h => by
    have hext : ∀ x2, node V.free cut (fuel + 1) depth guess pfx s t = .ok x2 → t.found <+: x2.2.2.2.found :=
      fun x2 h2 => node_extends (fuel + 1) depth guess pfx s t _ _ _ _ h2
    unfold node at h
    have hN : node V.free cut (fuel + 1) depth guess pfx s t = node V.free cut (fuel + 1) depth guess pfx s t := rfl
    conv at hN => rhs; unfold node
    generalize ht : ({ t with maxDepth := max t.maxDepth depth, recursions := t.recursions + 1, visited := t.visited ++ [s.st.guesses] } : Tally) = t1 at h hN
    have hf : t.found = t1.found := by rw [← ht]
    rw [hf] at hext
    generalize hX : node V.free cut (fuel + 1) depth guess pfx s t = X at hext hN ⊢
    by_cases hc : cut.any (· ≤ t1.conflicts) = true
    · rw [if_pos hc] at h hN; rw [hN]; exact .inl h
    rw [if_neg hc] at h hN
    obtain ⟨y0, e1, h⟩ := bind_ok h
    have e1' : boundObjective V.free (guess.toList.map .cond) s t1 = .ok y0 := e1
    rw [e1'] at hN
    by_cases hx : y0.1 = true
    · rw [if_pos hx] at h
      simp only [bind, Except.bind] at hN
      rw [if_pos hx] at hN; rw [hN]; exact .inl h
    rw [if_neg hx] at h
    simp only [bind, Except.bind] at hN
    rw [if_neg hx] at hN
    obtain ⟨y, e2, h⟩ := bind_ok h
    rcases propagate_prefix (b := y.1) (s' := y.2) e2 with e2' | ⟨hy, i, hi, hia⟩
    · have e2'' : Sys.propagate V.free.engine y0.2.1 V.free.abort y0.2.2 = .ok y := e2'
      rw [e2''] at hN
      simp only at hN
      by_cases hy : y.1 = false
      · rw [if_pos hy] at h hN; rw [hN]; exact .inl h
      rw [if_neg hy] at h hN
      rw [if_neg (show ¬ V.free.abort y.2.clock = true from nofun)] at hN
      by_cases ha : V.abort y.2.clock = true
      · rw [if_pos ha] at h; cases h
        exact .inr ⟨rfl, fun x2 h2 => hext x2 h2⟩
      rw [if_neg ha] at h
      obtain ⟨bs, e3, h⟩ := bind_ok h
      have e3' : V.free.branch y.2.tick.clock y.2.tick = .ok bs := e3
      simp only [e3'] at hN
      by_cases hb : bs = []
      · rw [if_pos hb] at h hN
        rw [hN]
        exact leaf_prefix h
      rw [if_neg hb] at h hN
      rw [if_neg (show ¬ V.free.trace y.2.tick.tick.clock y.2.tick.tick.doms = false from nofun), if_neg (show ¬ V.free.abort y.2.tick.tick.tick.clock = true from nofun)] at hN
      by_cases hv : V.trace y.2.tick.tick.clock y.2.tick.tick.doms = false
      · rw [if_pos hv] at h; cases h
        exact .inr ⟨rfl, fun x2 h2 => hext x2 h2⟩
      rw [if_neg hv] at h
      by_cases ha2 : V.abort y.2.tick.tick.tick.clock = true
      · rw [if_pos ha2] at h; cases h
        exact .inr ⟨rfl, fun x2 h2 => hext x2 h2⟩
      rw [if_neg ha2] at h
      obtain ⟨⟨ref, z⟩, e4, h⟩ := bind_ok h
      have key := siblings_prefix (fun g p s t x h => node_prefix hmono fuel _ _ _ _ _ _ h)
        (fun g p s t res has s' t' h => node_extends fuel _ _ _ _ _ _ _ _ _ h) _ _ _ _ _ _ _ _ e4
      generalize hS : siblings V.free (fun g p s t => node V.free cut fuel (depth + 1) (some g) p s t) pfx bs.head? 0 bs [] false y.2.tick.tick.tick.tick ((t1.told true |>.told true).told true) = S at key hN
      rcases key with key | ⟨key, key2⟩
      · subst key
        simp only at hN
        rw [hN]; exact .inl h
      · replace key : z.1 = .stop := key
        rw [if_neg (show ¬ z.1 = .cutoff by rw [key]; nofun)] at h
        cases h
        refine .inr ⟨key, fun x2 h2 => ?_⟩
        rw [hN] at h2
        cases S with
        | error e => cases h2
        | ok w =>
          obtain ⟨ref2, z2⟩ := w
          have := key2 ref2 z2 rfl
          simp only at h2
          split at h2 <;> (cases h2; exact this)
    · have ha : V.abort y.2.clock = true := hmono i _ (by omega) hia
      rw [if_neg (by rw [hy]; simp), if_pos ha] at h
      cases h
      exact .inr ⟨rfl, fun x2 h2 => hext x2 h2⟩

theorem passes_prefix {V : SearchEnv σ μ} (hmono : ∀ i j, i ≤ j → V.abort i = true → V.abort j = true) {depthFuel : Nat} :
    ∀ (fuel : Nat) (sched : Option Restarts) (has : Bool) (s : Sys σ μ) (t : Tally) (x : Explored σ μ),
    passes V depthFuel fuel sched has s t = .ok x → Cut x (passes V.free depthFuel fuel sched has s t)
  | 0, _, _, _, _, _, h => nomatch h
  | fuel + 1, sched, has, s, t, x, h => by
    have ext : ∀ (fuel : Nat) (sched : Option Restarts) (has : Bool) (s : Sys σ μ) (t : Tally) (x : Explored σ μ),
        passes V.free depthFuel fuel sched has s t = .ok x → t.found <+: x.2.2.2.found := by
      intro fuel
      induction fuel with
      | zero => intro _ _ _ _ _ h; cases h
      | succ fuel ih =>
        intro sched has s t x h
        unfold passes at h
        obtain ⟨⟨res, has2, s2, t2⟩, e1, h⟩ := bind_ok h
        have h1 : t.found <+: t2.found := node_extends (V := V.free) depthFuel 0 none [] s { t with conflicts := 0 } _ _ _ _ e1
        cases res with
        | complete => cases h; exact h1
        | stop => cases h; exact h1
        | cutoff =>
          cases sched with
          | none => cases h
          | some r => exact h1.trans (ih _ _ _ { t2 with restarts := t2.restarts + 1 } _ h)
    unfold passes at h
    have hN : passes V.free depthFuel (fuel + 1) sched has s t = passes V.free depthFuel (fuel + 1) sched has s t := rfl
    conv at hN => rhs; unfold passes
    generalize passes V.free depthFuel (fuel + 1) sched has s t = X at hN ⊢
    obtain ⟨⟨res, has2, s2, t2⟩, e1, h⟩ := bind_ok h
    rcases node_prefix hmono _ _ _ _ _ _ _ e1 with e2 | ⟨hs, e2⟩
    · rw [e2] at hN
      simp only [bind, Except.bind] at hN
      cases res with
      | complete => rw [hN]; exact .inl h
      | stop => rw [hN]; exact .inl h
      | cutoff =>
        cases sched with
        | none => cases h
        | some r => rw [hN]; exact passes_prefix hmono fuel _ _ _ _ _ h
    · replace hs : res = .stop := hs
      subst hs
      cases h
      refine .inr ⟨rfl, fun x2 h2 => ?_⟩
      rw [hN] at h2
      obtain ⟨⟨res3, has3, s3, t3⟩, e3, h2⟩ := bind_ok h2
      have h3 : t2.found <+: t3.found := e2 _ e3
      cases res3 with
      | complete => cases h2; exact h3
      | stop => cases h2; exact h3
      | cutoff =>
        cases sched with
        | none => cases h2
        | some r => exact h3.trans (ext _ _ _ _ { t3 with restarts := t3.restarts + 1 } _ h2)

end
end Gcs
