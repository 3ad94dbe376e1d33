import Verif.Spec.History
import Verif.Props.TestLiteral

/-!
# C16, C17: epochs, backtracking and histories
-/

namespace Gcs
open IntervalSet State

variable {σ κ : Type}

theorem resize_eq {α : Type} (dflt : α) (p l : List α) : resize dflt l.length (p ++ l) = l := by
  unfold resize
  have h1 : l.length - (p ++ l).length = 0 := by simp
  have h2 : (p ++ l).length - l.length = p.length := by simp
  rw [h1, h2]; simp

theorem runCallbacks_eq (p l : List (List κ)) : runCallbacks l.length (p ++ l) = (l, p.flatten) := by
  induction p with
  | nil =>
    cases l with
    | nil => rfl
    | cons e r => simp [runCallbacks]
  | cons e p ih =>
    have : (e :: (p ++ l)).length > l.length := by simp; omega
    simp only [List.cons_append, runCallbacks]
    rw [if_pos this, ih]; rfl

/-- The three stacks have the same height. -/
def Aligned (s : State σ κ) : Prop := s.cstates.length = s.vars.length ∧ s.onBacktracks.length = s.vars.length

/-- `h` is a continuation of a history in which `s` was the state just before an epoch was opened. -/
structure Since (s : State σ κ) (h : Hist σ κ) (p : List Doms) (q : List (List σ)) (c : List (List κ)) : Prop where
  vars : h.st.vars = p ++ s.vars
  cst : h.st.cstates = q ++ s.cstates
  onb : h.st.onBacktracks = c ++ s.onBacktracks
  lq : q.length = p.length
  lc : c.length = p.length
  pos : 1 ≤ p.length
  guesses : s.guesses <+: h.st.guesses
  extra : s.extra <+: h.st.extra
  min : h.st.minimise = s.minimise
  inc : h.st.incumbent = s.incumbent
  cbs : h.registered.Perm (h.ran ++ c.flatten)
  opens : ∀ t ∈ h.openTs, s.vars.length < t.when_ ∧ t.when_ < h.st.vars.length ∧ s.guesses.length ≤ t.howManyGuesses ∧
    t.howManyGuesses ≤ h.st.guesses.length ∧ ∀ n, t.howManyExtra = some n → s.extra.length ≤ n ∧ n ≤ h.st.extra.length
  sorted : h.openTs.Pairwise fun newer older => older.when_ < newer.when_ ∧ older.howManyGuesses ≤ newer.howManyGuesses ∧
    ∀ m n, newer.howManyExtra = some m → older.howManyExtra = some n → n ≤ m

theorem prefix_take {α : Type} {a b : List α} {n : Nat} (h : a <+: b) (hn : a.length ≤ n) : a <+: b.take n := by
  obtain ⟨c, rfl⟩ := h
  rw [List.take_append]
  rw [List.take_of_length_le hn]
  exact List.prefix_append ..

theorem drop_split {α : Type} {l : List α} {n : Nat} (h : n ≤ l.length) : ∃ a b, l = a ++ b ∧ b.length = n ∧ a.length = l.length - n :=
  ⟨l.take (l.length - n), l.drop (l.length - n), (List.take_append_drop ..).symm, by simp; omega, by simp⟩

/-- Backtracking to any timestamp whose numbers are in range: what is left. -/
theorem backtrack_eq {s : State σ κ} {t : Timestamp} {p v q w c x} (h1 : s.vars = p ++ v) (h2 : s.cstates = q ++ w) (h3 : s.onBacktracks = c ++ x)
    (l1 : v.length = t.when_) (l2 : w.length = t.when_) (l3 : x.length = t.when_) (hg : t.howManyGuesses ≤ s.guesses.length)
    (he : ∀ n, t.howManyExtra = some n → n ≤ s.extra.length) :
    s.backtrack t = .ok ({ s with vars := v, cstates := w, onBacktracks := x, guesses := s.guesses.take t.howManyGuesses, extra := match t.howManyExtra with | none => s.extra | some n => s.extra.take n }, c.flatten) := by
  unfold State.backtrack
  rw [if_neg (by omega)]
  have r1 : resize [] t.when_ s.vars = v := by rw [h1, ← l1, resize_eq]
  have r2 : resize [] t.when_ s.cstates = w := by rw [h2, ← l2, resize_eq]
  have r3 : runCallbacks t.when_ s.onBacktracks = (x, c.flatten) := by rw [h3, ← l3, runCallbacks_eq]
  cases ht : t.howManyExtra with
  | none => simp only [r1, r2, r3]
  | some n =>
    have := he n ht
    simp only [r1, r2, r3, show ¬ n > s.extra.length by omega, if_false]

theorem step_since {s : State σ κ} (hs : Aligned s) {h h' : Hist σ κ} {o : Op σ κ} (hh : ∃ p q c, Since s h p q c) (hst : h.step o = .ok h') :
    ∃ p q c, Since s h' p q c := by
  obtain ⟨p, q, c, H⟩ := hh
  obtain ⟨d, p', rfl⟩ : ∃ d p', p = d :: p' := by
    cases p with
    | nil => have := H.pos; simp at this
    | cons d p' => exact ⟨d, p', rfl⟩
  obtain ⟨e, q', rfl⟩ : ∃ e q', q = e :: q' := by
    cases q with
    | nil => have := H.lq; simp at this
    | cons d p' => exact ⟨d, p', rfl⟩
  obtain ⟨f, c', rfl⟩ : ∃ f c', c = f :: c' := by
    cases c with
    | nil => have := H.lc; simp at this
    | cons d p' => exact ⟨d, p', rfl⟩
  have lq : q'.length = p'.length := by have := H.lq; simpa using this
  have lc : c'.length = p'.length := by have := H.lc; simpa using this
  have hv := H.vars
  have hc := H.cst
  have ho := H.onb
  simp only [List.cons_append] at hv hc ho
  cases o with
  | infer l =>
    simp only [Hist.step, State.infer, hv, bind, Except.bind] at hst
    cases hi : Gcs.infer d l with
    | error e => rw [hi] at hst; cases hst
    | ok r =>
      rw [hi] at hst; cases hst
      refine ⟨r.2 :: p', e :: q', f :: c', ?_⟩
      exact { H with vars := rfl, lq := by simp [lq], lc := by simp [lc], pos := by simp, opens := fun t ht => by have := H.opens t ht; rw [hv] at this; simpa using this }
  | guess l =>
    simp only [Hist.step, State.guess, State.infer, hv, bind, Except.bind] at hst
    cases hi : Gcs.infer d l with
    | error e => rw [hi] at hst; cases hst
    | ok r =>
      rw [hi] at hst
      simp only [pure, Except.pure] at hst
      have key : ∀ st, st = { h.st with vars := r.2 :: (p' ++ s.vars), guesses := h.st.guesses ++ [l] } →
          Since s { h with st := st } (r.2 :: p') (e :: q') (f :: c') := by
        rintro st rfl
        refine { H with vars := rfl, lq := by simp [lq], lc := by simp [lc], pos := by simp, guesses := H.guesses.trans (List.prefix_append ..), opens := ?_ }
        intro t ht
        have := H.opens t ht; rw [hv] at this; simp only [List.length_append, List.length_cons, List.length_nil] at this ⊢
        exact ⟨this.1, this.2.1, this.2.2.1, by omega, this.2.2.2.2⟩
      cases hr : r.1 <;> rw [hr] at hst <;> simp only [throw, throwThe, MonadExceptOf.throw] at hst <;> cases hst <;> exact ⟨_, _, _, key _ rfl⟩
  | allocate lo hi =>
    simp only [Hist.step, State.allocate, hv, bind, Except.bind] at hst
    by_cases hlo : lo > hi
    · rw [if_pos hlo] at hst; cases hst
    · rw [if_neg hlo] at hst; cases hst
      refine ⟨(d ++ [single lo hi]) :: p', e :: q', f :: c', ?_⟩
      exact { H with vars := rfl, lq := by simp [lq], lc := by simp [lc], pos := by simp, opens := fun t ht => by have := H.opens t ht; rw [hv] at this; simpa using this }
  | addExtra l =>
    simp only [Hist.step, State.addExtra] at hst
    cases hst
    refine ⟨d :: p', e :: q', f :: c', ?_⟩
    refine { H with extra := H.extra.trans (List.prefix_append ..), opens := ?_ }
    intro t ht
    have := H.opens t ht
    refine ⟨this.1, this.2.1, this.2.2.1, this.2.2.2.1, fun n hn => ⟨(this.2.2.2.2 n hn).1, ?_⟩⟩
    have := (this.2.2.2.2 n hn).2
    simp only [List.length_append, List.length_singleton]; omega
  | onBacktrack k =>
    simp only [Hist.step, State.onBacktrack, ho, bind, Except.bind] at hst
    cases hst
    refine ⟨d :: p', e :: q', (f ++ [k]) :: c', ?_⟩
    refine { H with onb := rfl, lc := by simp [lc], cbs := ?_ }
    have := H.cbs
    simp only [List.flatten_cons] at this ⊢
    have h2 := this.append_right [k]
    refine h2.trans ?_
    simp only [List.append_assoc]
    exact (List.Perm.append_left _ ((List.perm_append_comm).append_left _))
  | addConstraintState x =>
    simp only [Hist.step, State.addConstraintState, hc, bind, Except.bind] at hst
    cases hst
    exact ⟨d :: p', (e ++ [x]) :: q', f :: c', { H with cst := rfl, lq := by simp [lq] }⟩
  | setConstraintState i x =>
    simp only [Hist.step, State.setConstraintState, hc, bind, Except.bind] at hst
    by_cases hi : i < e.length
    · rw [if_pos hi] at hst; cases hst
      exact ⟨d :: p', (e.set i x) :: q', f :: c', { H with cst := rfl, lq := by simp [lq] }⟩
    · rw [if_neg hi] at hst; cases hst
  | newEpoch sub =>
    simp only [Hist.step, State.newEpoch, hv, hc, bind, Except.bind] at hst
    cases hst
    refine ⟨d :: d :: p', e :: e :: q', [] :: f :: c', ?_⟩
    refine { H with vars := rfl, cst := rfl, onb := by simp [ho], lq := by simp [lq], lc := by simp [lc], pos := by simp, cbs := by simpa using H.cbs, opens := ?_, sorted := ?_ }
    · intro t ht
      simp only [List.mem_cons] at ht
      rcases ht with rfl | ht
      · simp only [List.length_cons, List.length_append]
        refine ⟨by omega, by omega, H.guesses.length_le, by omega, fun n hn => ?_⟩
        cases sub
        · simp at hn
        · simp at hn; subst hn; exact ⟨H.extra.length_le, Nat.le_refl _⟩
      · have := H.opens t ht
        rw [hv] at this
        simp only [List.length_cons, List.length_append] at this ⊢
        exact ⟨this.1, by omega, this.2.2⟩
    · rw [List.pairwise_cons]
      refine ⟨fun t ht => ?_, H.sorted⟩
      have := H.opens t ht
      rw [hv] at this
      simp only [List.length_cons, List.length_append] at this ⊢
      refine ⟨by omega, this.2.2.2.1, fun m n hm hn => ?_⟩
      have h3 := (this.2.2.2.2 n hn).2
      cases sub
      · simp at hm
      · simp at hm; omega
  | backtrack k =>
    simp only [Hist.step, bind, Except.bind] at hst
    cases hk : h.openTs.drop k with
    | nil => rw [hk] at hst; cases hst; exact ⟨_, _, _, H⟩
    | cons t rest =>
      rw [hk] at hst
      have ht : t ∈ h.openTs := List.mem_of_mem_drop (i := k) (by rw [hk]; simp)
      have hsub : (t :: rest).Sublist h.openTs := hk ▸ List.drop_sublist ..
      obtain ⟨o1, o2, o3, o4, o5⟩ := H.opens t ht
      have hpl : t.when_ - s.vars.length ≤ (d :: p').length := by
        rw [H.vars] at o2; simp only [List.length_append] at o2; omega
      obtain ⟨pa, pb, hp, hpb, hpa⟩ := drop_split hpl
      obtain ⟨qa, qb, hq, hqb, hqa⟩ := drop_split (l := e :: q') (n := t.when_ - s.vars.length) (by rw [H.lq]; exact hpl)
      obtain ⟨ca, cb, hcc, hcb, hca⟩ := drop_split (l := f :: c') (n := t.when_ - s.vars.length) (by rw [H.lc]; exact hpl)
      have hb := backtrack_eq (s := h.st) (t := t) (p := pa) (v := pb ++ s.vars) (q := qa) (w := qb ++ s.cstates) (c := ca) (x := cb ++ s.onBacktracks)
        (by rw [H.vars, hp]; simp) (by rw [H.cst, hq]; simp) (by rw [H.onb, hcc]; simp)
        (by simp only [List.length_append]; omega) (by have := hs.1; simp only [List.length_append]; omega)
        (by have := hs.2; simp only [List.length_append]; omega)
        o4 (fun n hn => (o5 n hn).2)
      simp only [hb] at hst
      cases hst
      refine ⟨pb, qb, cb, ?_⟩
      have hpw := H.sorted.sublist hsub
      rw [List.pairwise_cons] at hpw
      refine { H with vars := rfl, cst := rfl, onb := rfl, lq := by omega, lc := by omega, pos := by omega, guesses := ?_, extra := ?_, cbs := ?_, opens := ?_, sorted := hpw.2 }
      · exact prefix_take H.guesses o3
      · simp only
        cases hx : t.howManyExtra with
        | none => exact H.extra
        | some n => exact prefix_take H.extra (o5 n hx).1
      · have := H.cbs
        rw [hcc] at this
        simpa using this
      · intro t' ht'
        have h1 := H.opens t' (hsub.subset (List.mem_cons_of_mem _ ht'))
        have h2 := hpw.1 t' ht'
        simp only [List.length_append, List.length_take]
        refine ⟨h1.1, by omega, h1.2.2.1, by omega, fun n hn => ?_⟩
        have h3 := h1.2.2.2.2 n hn
        refine ⟨h3.1, ?_⟩
        cases hx : t.howManyExtra with
        | none => exact h3.2
        | some m =>
          have h4 := h2.2.2 m n hx hn
          have h5 := (o5 m hx).2
          simp only [List.length_take]; omega

theorem run_since {s : State σ κ} (hs : Aligned s) : ∀ (ops : List (Op σ κ)) {h h' : Hist σ κ}, (∃ p q c, Since s h p q c) → h.run ops = .ok h' →
    ∃ p q c, Since s h' p q c
  | [], h, h', hh, hr => by cases hr; exact hh
  | o :: os, h, h', hh, hr => by
    simp only [Hist.run, bind, Except.bind] at hr
    cases hst : h.step o with
    | error e => rw [hst] at hr; cases hr
    | ok h1 =>
      rw [hst] at hr
      exact run_since hs os (step_since hs hh hst) hr

/-- C16: open an epoch, do anything that returns normally (inferences, guesses, new variables, constraint state updates, callbacks, nested epochs and
nested backtracks), and backtrack. Then all domains, constraint states, pending callbacks and guesses are as they were, the extra proof conditions too if the
epoch was opened for a subsearch, and every callback registered in the meantime has run exactly as often as it was registered, no other has run. -/
theorem backtrack_restores (s : State σ κ) (hs : Aligned s) (sub : Bool) (t : Timestamp) (s1 : State σ κ) (h1 : s.newEpoch sub = .ok (t, s1))
    (ops : List (Op σ κ)) (h : Hist σ κ) (hrun : Hist.run ⟨s1, [], [], []⟩ ops = .ok h) :
    ∃ s2 cb, h.st.backtrack t = .ok (s2, cb) ∧ s2.vars = s.vars ∧ s2.cstates = s.cstates ∧ s2.onBacktracks = s.onBacktracks ∧ s2.guesses = s.guesses ∧
      s.extra <+: s2.extra ∧ (sub = true → s2 = s) ∧ h.registered.Perm (h.ran ++ cb) := by
  have hinit : t = ⟨s.vars.length, s.guesses.length, if sub then some s.extra.length else none⟩ ∧ ∃ p q c, Since s (Hist.mk s1 [] [] []) p q c := by
    unfold State.newEpoch at h1
    split at h1
    · rename_i d r c q hv hc
      cases h1
      refine ⟨by simp [hv], [d], [c], [[]], ?_⟩
      exact { vars := by simp [hv], cst := by simp [hc], onb := by simp, lq := rfl, lc := rfl, pos := by simp, guesses := List.prefix_rfl, extra := List.prefix_rfl, min := rfl, inc := rfl, cbs := by simp, opens := by simp, sorted := by simp }
    · cases h1
  obtain ⟨rfl, hi⟩ := hinit
  obtain ⟨p, q, c, H⟩ := run_since hs ops hi hrun
  have hb := backtrack_eq (s := h.st) (t := ⟨s.vars.length, s.guesses.length, if sub then some s.extra.length else none⟩) H.vars H.cst H.onb rfl hs.1 hs.2
    H.guesses.length_le (fun n hn => by
      cases sub
      · simp at hn
      · simp at hn; subst hn; exact H.extra.length_le)
  have hg : h.st.guesses.take s.guesses.length = s.guesses := (List.prefix_iff_eq_take.1 H.guesses).symm
  have hx : h.st.extra.take s.extra.length = s.extra := (List.prefix_iff_eq_take.1 H.extra).symm
  refine ⟨_, _, hb, rfl, rfl, rfl, hg, ?_, ?_, H.cbs⟩
  · cases sub
    · exact H.extra
    · simp [hx]
  · rintro rfl
    have e1 := H.min
    have e2 := H.inc
    obtain ⟨a, b, c, d, e, f, g⟩ := s
    simp_all

/-- `Aligned` holds at the start and is kept by every operation, so it holds in every reachable state. -/
theorem aligned_empty : Aligned (State.empty : State σ κ) := ⟨rfl, rfl⟩

/-- Histories from the empty state. -/
theorem aligned_run (ops : List (Op σ κ)) {h : Hist σ κ} (hr : Hist.run ⟨State.empty, [], [], []⟩ ops = .ok h) : Aligned h.st := by
  -- view the empty state as one epoch on top of nothing
  have hs : Aligned (⟨[], [], [], [], [], none, none⟩ : State σ κ) := ⟨rfl, rfl⟩
  obtain ⟨p, q, c, H⟩ := run_since hs ops ⟨[[]], [[]], [[]], { vars := rfl, cst := rfl, onb := rfl, lq := rfl, lc := rfl, pos := by simp, guesses := by simp, extra := by simp, min := rfl, inc := rfl, cbs := by simp, opens := by simp, sorted := by simp }⟩ hr
  refine ⟨?_, ?_⟩
  · rw [H.vars, H.cst]; simp [H.lq]
  · rw [H.vars, H.onb]; simp [H.lc]

/-! ## C17 -/

/-- Every variable of `d'` exists in `d` with at least the same values, in canonical non-empty form. -/
structure Shrunk (d d' : Doms) : Prop where
  domsOK : DomsOK d'
  length : d'.length = d.length
  sub : ∀ (i : Nat) s', d'[i]? = some s' → ∃ s, d[i]? = some s ∧ ∀ x, Mem x s' → Mem x s

/-- Make inferences one after the other, stopping at the first contradiction. -/
def inferAll (d : Doms) : List Lit → Chk (Option Doms)
  | [] => .ok (some d)
  | l :: ls => do
    let r ← infer d l
    if r.1 = .contradiction then return none else inferAll r.2 ls

/-- C17: along any sequence of inferences that is not contradictory, domains stay non-empty, canonical subsets; what remains are the assignments satisfying
every literal; the sequence is contradictory exactly if there is no such assignment. -/
theorem inferAll_spec (d : Doms) (ls : List Lit) (hd : DomsOK d) (hl : ∀ l ∈ ls, l.Valid d.length) :
    RightOrOverflow (inferAll d ls) (fun r => match r with
      | some d' => Shrunk d d' ∧ ∀ a, Within d' a ↔ Within d a ∧ ∀ l ∈ ls, l.holds a
      | none => ∀ a, Within d a → ∃ l ∈ ls, ¬ l.holds a) := by
  induction ls generalizing d with
  | nil => exact .pure ⟨⟨hd, rfl, fun i s' h => ⟨s', h, fun _ hx => hx⟩⟩, fun a => by simp⟩
  | cons l ls ih =>
    rcases infer_spec d l hd (hl l (by simp)) with h | ⟨r, h1, h2⟩
    · left; simp [inferAll, h, bind, Except.bind]
    · have hm := inferMeaning_of_spec hd h2
      simp only [inferAll, h1, bind, Except.bind]
      by_cases hc : r.1 = .contradiction
      · rw [if_pos hc]
        exact .pure fun a ha => ⟨l, by simp, hm.contra.1 hc a ha⟩
      · rw [if_neg hc]
        have hw := hm.within hc
        rcases ih r.2 (hm.domsOK hc) (fun l' hl' => by rw [h2.length]; exact hl l' (by simp [hl'])) with h | ⟨x, hx, hx2⟩
        · exact .inl h
        · refine .inr ⟨x, hx, ?_⟩
          cases x with
          | none =>
            intro a ha
            by_cases hla : l.holds a
            · obtain ⟨l', h3, h4⟩ := hx2 a ((hw a).2 ⟨ha, hla⟩)
              exact ⟨l', by simp [h3], h4⟩
            · exact ⟨l, by simp, hla⟩
          | some d' =>
            obtain ⟨sh, hall⟩ := hx2
            refine ⟨⟨sh.domsOK, sh.length.trans h2.length, fun i s' hs => ?_⟩, fun a => ?_⟩
            · obtain ⟨s, h3, h4⟩ := sh.sub i s' hs
              obtain ⟨s0, h5, h6⟩ := hm.shrinks i s h3
              exact ⟨s0, h5, fun y hy => h6 y (h4 y hy)⟩
            · rw [hall a, hw a]; simp [and_assoc]

/-- C17: `guess` either narrows the current domains to the guess and records it, or throws: `UnexpectedException` exactly if no assignment is left. -/
theorem guess_spec (s : State σ κ) (l : Lit) (d : Doms) (rest : List Doms) (hv : s.vars = d :: rest) (hd : DomsOK d) (hl : l.Valid d.length) :
    s.guess l = .error .overflow ∨
    ((∀ a, Within d a → ¬ l.holds a) ∧ s.guess l = .error .unexpected) ∨
    ((∃ a, Within d a ∧ l.holds a) ∧ ∃ d', s.guess l = .ok { s with vars := d' :: rest, guesses := s.guesses ++ [l] } ∧ DomsOK d' ∧
      ∀ a, Within d' a ↔ Within d a ∧ l.holds a) := by
  rcases infer_spec d l hd hl with h | ⟨r, h1, h2⟩
  · left; simp [State.guess, State.infer, hv, h, bind, Except.bind]
  · right
    have hm := inferMeaning_of_spec hd h2
    by_cases hc : r.1 = .contradiction
    · left
      refine ⟨hm.contra.1 hc, ?_⟩
      simp [State.guess, State.infer, hv, h1, bind, Except.bind, pure, Except.pure, hc, throw, throwThe, MonadExceptOf.throw]
    · right
      have hex : ∃ a, Within d a ∧ l.holds a := by
        have : ¬ ∀ a, Within d a → ¬ l.holds a := fun hh => hc (hm.contra.2 hh)
        simpa [Classical.not_forall] using this
      refine ⟨hex, r.2, ?_, hm.domsOK hc, hm.within hc⟩
      cases hr : r.1 <;> simp_all [State.guess, State.infer, bind, Except.bind, pure, Except.pure]

/-! Non-vacuity: a history with a nested epoch and a nested backtrack. -/
example : ∃ (s : State Nat Nat) (t : Timestamp) (s1 : State Nat Nat), Aligned s ∧ s.newEpoch false = .ok (t, s1) ∧
    ∃ h : Hist Nat Nat, Hist.run ⟨s1, [], [], []⟩ [.guess (.cond (.lt (.simple 0) 3)), .onBacktrack 7, .newEpoch true, .onBacktrack 8, .setConstraintState 0 6,
      .infer (.cond (.ne (.simple 0) 1)), .addExtra .tt, .backtrack 0, .infer (.cond (.ne (.simple 0) 2))] = .ok h ∧
      h.st.vars = [[[(0, 1)]], [[(0, 5)]]] ∧ h.ran = [8] ∧ (h.st.backtrack t).toOption.map (·.2) = some [7] :=
  ⟨⟨[[[(0, 5)]]], [[4]], [[]], [], [], none, none⟩, _, _, ⟨rfl, rfl⟩, rfl, _, rfl, by decide +kernel, by decide +kernel, by decide +kernel⟩

#print axioms backtrack_restores
#print axioms aligned_run
#print axioms inferAll_spec
#print axioms guess_spec

end Gcs
