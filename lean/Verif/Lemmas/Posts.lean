import Verif.Lemmas.Stateful

namespace Gcs
open IntervalSet Queue

section
variable {σ μ α : Type} {n m : Nat} {R : Err → Prop}

theorem Prog.Halts.novalue {c : Ctx} {v : α} {s' : Sys σ μ} : ∀ (p : Prog σ μ α) (s : Sys σ μ), p.Halts R (fun _ => False) → runProg c p s = .ok (.val v, s') → False
  | .ret _, _, h, _ => h
  | .raise _, _, _, e => by cases e
  | .fail, _, _, e => by cases e
  | .read k, s, h, e => novalue (k s) s (h s) e
  | .infer _ _ _, _, h, _ => h
  | .progress k, s, h, e => novalue (k s.tr.madeProgress) _ (h _) e
  | .watch _ _ _, _, h, _ => h
  | .clearWatches _, _, h, _ => h
  | .setWatchState _ _ _, _, h, _ => h
  | .setState _ _ _, _, h, _ => h
  | .setMem _ _, _, h, _ => h

/-- Without `infer_*_or_stop` a value is only returned if there was no contradiction; without watches these stay as they are. -/
theorem Ver.clean {J : Job} (hw : ¬ J.watch) {c : Ctx} {Q : α → Doms → Prop} {v : α} {s' : Sys σ μ} : ∀ (p : Prog σ μ α) (s : Sys σ μ), p.Ver J (fun _ => False) Q s.doms → Runnable J.n J.m s →
    runProg c p s = .ok (.val v, s') → s'.tr.contradicted = false ∧ s'.w = s.w
  | .ret _, s, _, hs, e => by cases e; exact ⟨hs.fine, rfl⟩
  | .raise _, s, _, _, e => by cases e
  | .fail, s, _, _, e => by cases e
  | .read k, s, h, hs, e => Ver.clean hw (k s) s (h s rfl) hs e
  | .infer l o k, s, h, hs, e => by
    unfold runProg at e
    rw [if_neg (by simp [hs.fine])] at e
    obtain ⟨d, rest, hv⟩ : ∃ d rest, s.st.vars = d :: rest := by
      cases hv : s.st.vars with
      | nil => exact absurd hv hs.varsNe
      | cons d r => exact ⟨d, r, rfl⟩
    have hd := doms_eq hv
    have hdOK := hs.domsOK; have hdl := hs.domsLen; rw [hd] at hdOK hdl
    rcases infer_spec d l hdOK (hdl.symm ▸ h.1) with he | ⟨x, he, hspec⟩
    · simp [State.infer, hv, he, bind, Except.bind] at e
    have hinf : s.st.infer l = .ok (x.1, { s.st with vars := x.2 :: rest }) := by
      simp [State.infer, hv, he, bind, Except.bind, pure, Except.pure]
    rw [hinf] at e
    have hm := inferMeaning_of_spec hdOK hspec
    by_cases hcon : x.1 = .contradiction
    · have htr : s.track x.1 l { s.st with vars := x.2 :: rest } =
          ({ s with st := { s.st with vars := x.2 :: rest }, tr := { s.tr with didAnything := true, madeProgress := true, contradicted := true } }, false) := by rw [hcon]; rfl
      simp only [htr, Bool.false_eq_true, if_false] at e
      cases o with
      | false => simp at e
      | true => exact (Prog.Halts.novalue _ _ (h.2.2.2 rfl) e).elim
    · have hgo : ∀ t y, t.contradicted = false → runProg c (k true) ({ s with st := { s.st with vars := x.2 :: rest }, tr := t, trace := y } : Sys σ μ) = .ok (.val v, s') →
          s'.tr.contradicted = false ∧ s'.w = s.w := by
        intro t y ht e
        have h2 : (k true).Ver J (fun _ => False) Q x.2 := h.2.2.1 x.2 (hm.domsOK hcon) (by rw [hspec.length, hdl]) (by rw [hd]; exact fun b => hm.within hcon b)
        exact Ver.clean hw (k true) ({ s with st := { s.st with vars := x.2 :: rest }, tr := t, trace := y } : Sys σ μ) h2
          ⟨hm.domsOK hcon, by show x.2.length = J.n; rw [hspec.length, hdl], by simp, hs.cstatesLen, ht⟩ e
      by_cases hno : x.1 = .noChange
      · have htr : s.track x.1 l { s.st with vars := x.2 :: rest } = ({ s with st := { s.st with vars := x.2 :: rest } }, true) := by rw [hno]; rfl
        simp only [htr, if_true] at e
        exact hgo s.tr s.trace hs.fine e
      · obtain ⟨u, hlv⟩ := infer_var_of_effective hspec hno hcon
        have htr : s.track x.1 l { s.st with vars := x.2 :: rest } =
            ({ s with
                st := { s.st with vars := x.2 :: rest }
                tr := { s.tr with inferences := s.tr.inferences ++ [(u, x.1)], didAnything := true, madeProgress := true }
                trace := s.trace ++ [.change u x.1] }, true) := by
          cases hr : x.1 <;> simp [hr] at hno hcon <;> simp [Sys.track, Tracker.record, hlv]
        simp only [htr, if_true] at e
        exact hgo { s.tr with inferences := s.tr.inferences ++ [(u, x.1)], didAnything := true, madeProgress := true } (s.trace ++ [.change u x.1]) hs.fine e
  | .progress k, s, h, hs, e => by
    have := Ver.clean hw (k s.tr.madeProgress) { s with tr := { s.tr with madeProgress := false } } (h _) ⟨hs.1, hs.2, hs.3, hs.4, hs.5⟩ e
    exact this
  | .watch l x k, s, h, hs, e => absurd h.1 hw
  | .clearWatches k, s, h, hs, e => absurd h.1 hw
  | .setWatchState x y k, s, h, hs, e => absurd h.1 hw
  | .setState i y k, s, h, hs, e => by
    obtain ⟨st, e', h1, h2⟩ := setState_spec (n := J.n) (np := c.owner + 1) (s := s) y (by rw [hs.cstatesLen]; exact h.1.1)
    unfold runProg at e
    rw [e'] at e
    have hd : (⟨st, s.tr, s.w, s.q, s.claims, s.toDisable, s.total, s.effectful, s.contradicting, s.conflicts, s.mem, s.clock, s.trace⟩ : Sys σ μ).doms = s.doms := by
      unfold Sys.doms; rw [h2]
    have := Ver.clean hw k { s with st := st } (by rw [hd]; exact h.2) ⟨by rw [hd]; exact hs.domsOK, by rw [hd]; exact hs.domsLen,
      by show st.vars ≠ []; rw [h2]; exact hs.varsNe, h1.cstatesLen.trans hs.cstatesLen, hs.fine⟩ e
    exact this
  | .setMem _ _, s, h, _, _ => h.elim

/-! ## Putting constraints together from parts -/

variable {root : Doms} {C : Asg → Prop} {xs : List VarId}

theorem Posts.nil (h : ∀ a, Within root a → C a) : Posts (σ := σ) (μ := μ) n m R root C xs [] := ⟨[], rfl, by simp, fun a ha => ⟨fun _ => by simp, fun _ => h a ha⟩⟩

theorem Posts.one {it : Item σ μ} (h : it.OK n m R root C xs C) : Posts n m R root C xs [it] :=
  ⟨[(it, C)], rfl, by simpa using h, fun a _ => by simp⟩

/-- The same, with what is enforced being the constraint only within the initial domains. -/
theorem Posts.one' {it : Item σ μ} (e : Asg → Prop) (h : it.OK n m R root C xs e) (hc : ∀ a, Within root a → (C a ↔ e a)) : Posts n m R root C xs [it] :=
  ⟨[(it, e)], rfl, by simpa using h, fun a ha => by simpa using hc a ha⟩

/-- Parts of a conjunction, or parts that are there for speed only. -/
theorem Posts.append {D1 D2 : Asg → Prop} {is js : List (Item σ μ)} (h1 : ∃ es : List (Item σ μ × (Asg → Prop)), es.map (·.1) = is ∧ (∀ p ∈ es, p.1.OK n m R root C xs p.2) ∧ ∀ a, Within root a → (D1 a ↔ ∀ p ∈ es, p.2 a))
    (h2 : ∃ es : List (Item σ μ × (Asg → Prop)), es.map (·.1) = js ∧ (∀ p ∈ es, p.1.OK n m R root C xs p.2) ∧ ∀ a, Within root a → (D2 a ↔ ∀ p ∈ es, p.2 a))
    (hc : ∀ a, Within root a → (C a ↔ D1 a ∧ D2 a)) : Posts n m R root C xs (is ++ js) := by
  obtain ⟨es, e1, e2, e3⟩ := h1
  obtain ⟨fs, f1, f2, f3⟩ := h2
  refine ⟨es ++ fs, by rw [List.map_append, e1, f1], fun p hp => ?_, fun a ha => ?_⟩
  · rcases List.mem_append.1 hp with hp | hp
    · exact e2 p hp
    · exact f2 p hp
  · rw [hc a ha, e3 a ha, f3 a ha]
    constructor
    · rintro ⟨h1, h2⟩ p hp
      rcases List.mem_append.1 hp with hp | hp
      · exact h1 p hp
      · exact h2 p hp
    · exact fun h => ⟨fun p hp => h p (List.mem_append_left _ hp), fun p hp => h p (List.mem_append_right _ hp)⟩

/-! ## Running initialisers -/

structure InitOutcome (s s' : Sys σ μ) : Prop where
  w : s'.w = s.w
  tail : s'.st.vars.tail = s.st.vars.tail
  cstatesTail : s'.st.cstates.tail = s.st.cstates.tail
  cstatesLen : (s'.st.cstates.headD []).length = (s.st.cstates.headD []).length
  cstatesNe : s.st.cstates ≠ [] → s'.st.cstates ≠ []
  varsNe : s.st.vars ≠ [] → s'.st.vars ≠ []
  onBacktracks : s'.st.onBacktracks = s.st.onBacktracks
  guesses : s'.st.guesses = s.st.guesses
  domsOK : DomsOK s'.doms
  domsLen : s'.doms.length = s.doms.length
  within : ∀ a, Within s'.doms a → Within s.doms a
  mem : s'.mem = s.mem
  evolve : ∃ cs, Evolve s.doms cs s'.doms
  top : s'.top = s.top

/-- What running initialisers does, if each is right for the assignments `K` and enforces `e`. -/
theorem initialise_spec {K : Asg → Prop} : ∀ (fs : List (Prog σ μ Unit × (Asg → Prop))) (s : Sys σ μ), DomsOK s.doms → s.doms.length = n → s.st.vars ≠ [] → (s.st.cstates.headD []).length = m →
    (∀ p ∈ fs, ∀ d, DomsOK d → d.length = n → p.1.Ver { n, m, R, C := K, watch := False } (fun _ => False) (fun _ d' => ∀ a, Within d' a → p.2 a) d) →
    ∀ b s', Sys.initialise (fs.map (·.1)) s = .ok (b, s') → if b then InitOutcome s s' ∧ (∀ a, Within s.doms a → K a → Within s'.doms a) ∧ ∀ p ∈ fs, ∀ a, Within s'.doms a → p.2 a
      else ∀ a, Within s.doms a → ¬ K a
  | [], s, h1, h2, h3, h4, _, b, s', e => by
    cases e
    exact ⟨⟨rfl, rfl, rfl, rfl, id, id, rfl, rfl, h1, rfl, fun _ h => h, rfl, ⟨[], .refl _ h1⟩, rfl⟩, fun _ h _ => h, by simp⟩
  | (f, e0) :: fs, s, h1, h2, h3, h4, hf, b, s', e => by
    have hrun : Runnable n m ({ s with tr := .fresh } : Sys σ μ) := ⟨h1, h2, h3, h4, rfl⟩
    have hv := hf (f, e0) (by simp) s.doms h1 h2
    simp only [List.map_cons, Sys.initialise] at e
    obtain ⟨⟨r, s1⟩, e1, e2⟩ := bind_ok e
    have hout := runProg_spec (np := 1) (R := R) ⟨0, []⟩ Nat.one_pos f _ hrun (Ver.okAt f s.doms hv)
    rcases hout with ⟨_, e3, _⟩ | ⟨r', s1', e3, hfr, hout⟩
    · rw [e3] at e1; cases e1
    rw [e3] at e1; cases e1
    cases r with
    | failed =>
      cases e2
      rw [if_neg (by simp)]
      intro a ha hk
      exact (sound_run ⟨0, []⟩ Nat.one_pos f { s with tr := .fresh } (Ver.okAt f s.doms hv) (Ver.soundAt (J := { n, m, R, C := K, watch := False }) hk f s.doms hv ha) hrun ha _ _ e3).1 (.inl rfl)
    | val v =>
      obtain ⟨hc, hw⟩ := Ver.clean (J := { n, m, R, C := K, watch := False }) (fun h => h) f { s with tr := .fresh } hv hrun e3
      have hnf : ¬ Failed (.val v) s1 := by rintro (h | h); cases h; rw [hc] at h; cases h
      obtain ⟨_, _, hq⟩ := wp_run ⟨0, []⟩ Nat.one_pos f { s with tr := .fresh } (Ver.okAt f s.doms hv) (Ver.wp f s.doms hv) hrun _ _ e3 hnf
      obtain ⟨_, cs, _, hran⟩ := hout.resolve_left hnf
      obtain ⟨_, _, _, htop⟩ := verS_run f { s with tr := .fresh } (Ver.toS (J := { n, m, R, C := K, watch := False }) (fun _ => id) f s.doms s.top hv) hrun e3 hnf
      have hmem := Ver.mem f { s with tr := .fresh } hv hrun e3
      have hdom := hran.evolve
      have hl : s1.doms.length = n := hfr.domsLen.trans h2
      have ih := initialise_spec fs s1 hdom.ok hl (hfr.varsNe h3) (hfr.cstatesLen.trans h4) (fun p hp => hf p (List.mem_cons_of_mem _ hp)) b s' e2
      have hkeep : ∀ a, Within s.doms a → K a → Within s1.doms a := fun a ha hk =>
        (sound_run ⟨0, []⟩ Nat.one_pos f { s with tr := .fresh } (Ver.okAt f s.doms hv) (Ver.soundAt (J := { n, m, R, C := K, watch := False }) hk f s.doms hv ha) hrun ha _ _ e3).2
      cases b with
      | false => exact fun a ha hk => ih a (hkeep a ha hk) hk
      | true =>
        obtain ⟨i1, i2, i3⟩ := ih
        refine ⟨⟨i1.w.trans hw, i1.tail.trans hfr.varsTail, i1.cstatesTail.trans hfr.cstatesTail, i1.cstatesLen.trans hfr.cstatesLen, fun h => i1.cstatesNe (hfr.cstatesNe h), fun h => i1.varsNe (hfr.varsNe h),
          i1.onBacktracks.trans hfr.onBacktracks, i1.guesses.trans hfr.guesses, i1.domsOK, i1.domsLen.trans hfr.domsLen, fun a ha => hdom.within (i1.within a ha), i1.mem.trans hmem, i1.evolve.elim fun ds h => ⟨cs ++ ds, hdom.trans h⟩, i1.top.trans htop⟩,
          fun a ha hk => i2 a (hkeep a ha hk) hk, fun p hp => ?_⟩
        rcases List.mem_cons.1 hp with rfl | hp
        · exact fun a ha => hq a (i1.within a ha)
        · exact i3 p hp

end
end Gcs
