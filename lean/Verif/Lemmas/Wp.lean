import Verif.Lemmas.Sound

/-! Reasoning about propagation functions. -/

namespace Gcs
open IntervalSet Queue

section
variable {σ μ α β : Type} {n m np : Nat} {R : Err → Prop}

/-- Reading does not depend on the rest of the system in any way that matters, so a run that does not fail ends as `Wp` says. -/
theorem wp_run {Q : α → Doms → Prop} (c : Ctx) (hc : c.owner < np) : ∀ (p : Prog σ μ α) (s : Sys σ μ), p.OKAt n m R s.doms → p.Wp n Q s.doms → Runnable n m s →
    ∀ r s', runProg c p s = .ok (r, s') → ¬ Failed r s' → ∃ v, r = .val v ∧ Q v s'.doms
  | .ret x, s, _, hq, h, r, s', e, _ => by cases e; exact ⟨x, rfl, hq⟩
  | .raise e, s, _, _, _, _, _, e', _ => nomatch e'
  | .fail, s, _, _, _, _, _, e, hf => by cases e; exact absurd (.inl rfl) hf
  | .read k, s, hp, hq, h, r, s', e, hf => wp_run c hc (k s) s (hp s rfl) (hq s rfl) h r s' e hf
  | .infer l o k, s, hp, hq, h, r, s', e, hf => by
    unfold runProg at e
    rw [if_neg (by simp [h.fine])] at e
    obtain ⟨d, rest, hv⟩ : ∃ d rest, s.st.vars = d :: rest := by
      cases hv : s.st.vars with
      | nil => exact absurd hv h.varsNe
      | cons d r => exact ⟨d, r, rfl⟩
    have hd := doms_eq hv
    have hdOK := h.domsOK; have hdl := h.domsLen; rw [hd] at hdOK hdl hq
    rcases infer_spec d l hdOK (hdl.symm ▸ hp.1) with he | ⟨x, he, hspec⟩
    · simp [State.infer, hv, he, bind, Except.bind] at e
    · have hinf : s.st.infer l = .ok (x.1, { s.st with vars := x.2 :: rest }) := by
        simp [State.infer, hv, he, bind, Except.bind, pure, Except.pure]
      rw [hinf] at e
      have hm := inferMeaning_of_spec hdOK hspec
      by_cases hcon : x.1 = .contradiction
      · have htr : s.track x.1 l { s.st with vars := x.2 :: rest } =
            ({ s with st := { s.st with vars := x.2 :: rest }, tr := { s.tr with didAnything := true, madeProgress := true, contradicted := true } }, false) := by rw [hcon]; rfl
        simp only [htr, Bool.false_eq_true, if_false] at e
        cases o with
        | false => simp at e; exact absurd (.inl e.1.symm) hf
        | true =>
          simp only [if_true] at e
          rcases runProg_stops (m := m) c hc (k false) { s with st := { s.st with vars := x.2 :: rest }, tr := { s.tr with didAnything := true, madeProgress := true, contradicted := true } } (hp.2.2 rfl) rfl h.cstatesLen with
            ⟨e', he', _⟩ | ⟨r2, s2, he', _, h2⟩
          · rw [he'] at e; cases e
          · rw [he'] at e; cases e; exact absurd (.inr h2) hf
      have hq' : (k true).Wp n Q x.2 := hq x.2 (hm.domsOK hcon) (by rw [hspec.length, hdl]) (fun b => hm.within hcon b)
      have ho2 : (k true).OKAt n m R x.2 := hp.2.1 x.2 (hm.domsOK hcon) (by rw [hspec.length, hdl]) (fun b => by rw [hd]; exact hm.within hcon b)
      have hrun : ∀ t tr', t.contradicted = false → Runnable n m ({ s with st := { s.st with vars := x.2 :: rest }, tr := t, trace := tr' } : Sys σ μ) := by
        intro t tr' ht
        exact ⟨hm.domsOK hcon, by show x.2.length = n; rw [hspec.length, hdl], by simp, h.cstatesLen, ht⟩
      by_cases hno : x.1 = .noChange
      · have htr : s.track x.1 l { s.st with vars := x.2 :: rest } = ({ s with st := { s.st with vars := x.2 :: rest } }, true) := by rw [hno]; rfl
        simp only [htr, if_true] at e
        exact wp_run c hc (k true) { s with st := { s.st with vars := x.2 :: rest } } ho2 hq' (hrun s.tr s.trace h.fine) r s' e hf
      · obtain ⟨v, hlv⟩ := infer_var_of_effective hspec hno hcon
        have htr : s.track x.1 l { s.st with vars := x.2 :: rest } =
            ({ s with
                st := { s.st with vars := x.2 :: rest }
                tr := { s.tr with inferences := s.tr.inferences ++ [(v, x.1)], didAnything := true, madeProgress := true }
                trace := s.trace ++ [.change v x.1] }, true) := by
          cases hr : x.1 <;> simp [hr] at hno hcon <;> simp [Sys.track, Tracker.record, hlv]
        simp only [htr, if_true] at e
        exact wp_run c hc (k true) { s with st := { s.st with vars := x.2 :: rest }, tr := { s.tr with inferences := s.tr.inferences ++ [(v, x.1)], didAnything := true, madeProgress := true }, trace := s.trace ++ [.change v x.1] } ho2 hq' (hrun { s.tr with inferences := s.tr.inferences ++ [(v, x.1)], didAnything := true, madeProgress := true } (s.trace ++ [.change v x.1]) h.fine) r s' e hf
  | .progress k, s, hp, hq, h, r, s', e, hf =>
    wp_run c hc (k s.tr.madeProgress) { s with tr := { s.tr with madeProgress := false } } (hp _) (hq _) ⟨h.1, h.2, h.3, h.4, h.5⟩ r s' e hf
  | .watch l x k, s, hp, hq, h, r, s', e, hf =>
    wp_run c hc k { s with w := s.w.register c.owner l x true } hp.2.2 hq ⟨h.1, h.2, h.3, h.4, h.5⟩ r s' e hf
  | .clearWatches k, s, hp, hq, h, r, s', e, hf => by
    obtain ⟨w, e', _⟩ := clear_spec (n := n) (np := np) c.scope s.w c.owner
    unfold runProg at e
    rw [e'] at e
    exact wp_run c hc k { s with w := w } hp hq ⟨h.1, h.2, h.3, h.4, h.5⟩ r s' e hf
  | .setWatchState x y k, s, hp, hq, h, r, s', e, hf =>
    wp_run c hc k { s with w := s.w.stateSet c.owner x y } hp hq ⟨h.1, h.2, h.3, h.4, h.5⟩ r s' e hf
  | .setState i v k, s, hp, hq, h, r, s', e, hf => by
    obtain ⟨st, e', h1, h2⟩ := setState_spec (n := n) (np := np) (s := s) v (by rw [h.cstatesLen]; exact hp.1)
    unfold runProg at e
    rw [e'] at e
    have hd : (⟨st, s.tr, s.w, s.q, s.claims, s.toDisable, s.total, s.effectful, s.contradicting, s.conflicts, s.mem, s.clock, s.trace⟩ : Sys σ μ).doms = s.doms := by
      unfold Sys.doms; rw [h2]
    refine wp_run c hc k { s with st := st } (by rw [hd]; exact hp.2) (by rw [hd]; exact hq) ⟨?_, ?_, ?_, ?_, h.fine⟩ r s' e hf
    · rw [hd]; exact h.domsOK
    · rw [hd]; exact h.domsLen
    · show st.vars ≠ []; rw [h2]; exact h.varsNe
    · exact h1.cstatesLen.trans h.cstatesLen
  | .setMem x k, s, hp, hq, h, r, s', e, hf =>
    wp_run c hc k { s with mem := x } hp hq ⟨h.1, h.2, h.3, h.4, h.5⟩ r s' e hf

theorem OK.at : ∀ (p : Prog σ μ α) (d : Doms), p.OK n m R → DomsOK d → d.length = n → p.OKAt n m R d
  | .ret _, _, _, _, _ => trivial
  | .raise _, _, h, _, _ => h
  | .fail, _, _, _, _ => trivial
  | .read k, d, h, hd, hl => fun s hs => OK.at (k s) d (h s (hs ▸ hd) (hs ▸ hl)) hd hl
  | .infer _ _ k, _, h, _, _ => ⟨h.1, fun d' h1 h2 _ => OK.at (k true) d' h.2.1 h1 h2, h.2.2⟩
  | .progress k, d, h, hd, hl => fun b => OK.at (k b) d (h b) hd hl
  | .watch _ _ k, d, h, hd, hl => ⟨h.1, h.2.1, OK.at k d h.2.2 hd hl⟩
  | .clearWatches k, d, h, hd, hl => OK.at k d h hd hl
  | .setWatchState _ _ k, d, h, hd, hl => OK.at k d h hd hl
  | .setState _ _ k, d, h, hd, hl => ⟨h.1, OK.at k d h.2 hd hl⟩
  | .setMem _ k, d, h, hd, hl => OK.at k d h hd hl

theorem _root_.Gcs.Prog.OK.safe {p : Prog σ μ α} (h : p.OK n m R) : p.Safe n m R := fun d => OK.at p d h

theorem Sound.at {a : Asg} : ∀ (p : Prog σ μ α) (d : Doms), p.Sound n a → DomsOK d → d.length = n → Within d a → p.SoundAt n a d
  | .ret _, _, _, _, _, _ => trivial
  | .raise _, _, _, _, _, _ => trivial
  | .fail, _, h, _, _, _ => h
  | .read k, d, h, hd, hl, hw => fun s hs => Sound.at (k s) d (h s (hs ▸ hd) (hs ▸ hl) (hs ▸ hw)) hd hl hw
  | .infer _ _ k, _, h, _, _, _ => ⟨h.1, fun d' h1 h2 h3 _ => Sound.at (k true) d' h.2 h1 h2 h3⟩
  | .progress k, d, h, hd, hl, hw => fun b => Sound.at (k b) d (h b) hd hl hw
  | .watch _ _ k, d, h, hd, hl, hw => Sound.at k d h hd hl hw
  | .clearWatches k, d, h, hd, hl, hw => Sound.at k d h hd hl hw
  | .setWatchState _ _ k, d, h, hd, hl, hw => Sound.at k d h hd hl hw
  | .setState _ _ k, d, h, hd, hl, hw => Sound.at k d h hd hl hw
  | .setMem _ k, d, h, hd, hl, hw => Sound.at k d h hd hl hw

theorem _root_.Gcs.Prog.Sound.truthful {a : Asg} {p : Prog σ μ α} (h : p.Sound n a) : p.Truthful n a := fun d => Sound.at p d h

/-! Rules for `ask`, `infer` and sequencing. -/

theorem ok_ask {f : Doms → Chk α} {k : α → Prog σ μ β} (P : α → Prop) (h : ∀ d, DomsOK d → d.length = n → (∃ e, f d = .error e ∧ R e) ∨ ∃ v, f d = .ok v ∧ P v)
    (hk : ∀ v, P v → (k v).OK n m R) : ((Prog.ask f).bind k).OK n m R := by
  intro s hd hl
  rcases h s.doms hd hl with ⟨e, he, hr⟩ | ⟨v, hv, hp⟩
  · simp only [he, Prog.bind]; exact hr
  · simp only [hv, Prog.bind]; exact hk v hp

theorem sound_ask {a : Asg} {f : Doms → Chk α} {k : α → Prog σ μ β} (h : ∀ d, DomsOK d → d.length = n → Within d a → ∀ v, f d = .ok v → (k v).Sound n a) :
    ((Prog.ask f).bind k).Sound n a := by
  intro s hd hl hw
  cases hf : f s.doms with
  | error e => simp only [hf, Prog.bind]; trivial
  | ok v => simp only [hf, Prog.bind]; exact h s.doms hd hl hw v hf

theorem wp_ask {Q : β → Doms → Prop} {f : Doms → Chk α} {k : α → Prog σ μ β} {d : Doms} (h : ∀ v, f d = .ok v → (k v).Wp n Q d) :
    ((Prog.ask f).bind k).Wp n Q d := by
  rintro s rfl
  cases hf : f s.doms with
  | error e => simp only [hf, Prog.bind]; trivial
  | ok v => simp only [hf, Prog.bind]; exact h v hf

theorem ok_bind {k : α → Prog σ μ β} : ∀ (p : Prog σ μ α), p.OK n m R → (∀ v, (k v).OK n m R) → (∀ v, (k v).Stops n m R) → (p.bind k).OK n m R := by
  have stops : ∀ (p : Prog σ μ α), p.Stops n m R → (∀ v, (k v).Stops n m R) → (p.bind k).Stops n m R := by
    intro p
    induction p with
    | ret v => intro _ h; exact h v
    | raise e => intro hp _; exact hp
    | fail => intro _ _; trivial
    | read k ih => intro hp h s; exact ih s (hp s) h
    | infer l o k ih => intro hp; exact hp.elim
    | progress k ih => intro hp h b; exact ih b (hp b) h
    | watch l x k ih => intro hp h; exact ⟨hp.1, hp.2.1, ih hp.2.2 h⟩
    | clearWatches k ih => intro hp h; exact ih hp h
    | setWatchState a b k ih => intro hp h; exact ih hp h
    | setState i v k ih => intro hp h; exact ⟨hp.1, ih hp.2 h⟩
    | setMem x k ih => intro hp h; exact ih hp h
  intro p
  induction p with
  | ret v => intro _ h _; exact h v
  | raise e => intro hp _ _; exact hp
  | fail => intro _ _ _; trivial
  | read k ih => intro hp h h' s h1 h2; exact ih s (hp s h1 h2) h h'
  | infer l o k ih => intro hp h h'; exact ⟨hp.1, ih true hp.2.1 h h', fun ho => stops _ (hp.2.2 ho) h'⟩
  | progress k ih => intro hp h h' b; exact ih b (hp b) h h'
  | watch l x k ih => intro hp h h'; exact ⟨hp.1, hp.2.1, ih hp.2.2 h h'⟩
  | clearWatches k ih => intro hp h h'; exact ih hp h h'
  | setWatchState a b k ih => intro hp h h'; exact ih hp h h'
  | setState i v k ih => intro hp h h'; exact ⟨hp.1, ih hp.2 h h'⟩
  | setMem x k ih => intro hp h h'; exact ih hp h h'

theorem sound_bind {a : Asg} {k : α → Prog σ μ β} (h : ∀ v, (k v).Sound n a) : ∀ (p : Prog σ μ α), p.Sound n a → (p.bind k).Sound n a := by
  intro p
  induction p with
  | ret v => intro _; exact h v
  | raise e => intro _; trivial
  | fail => intro hp; exact hp
  | read k ih => intro hp s h1 h2 h3; exact ih s (hp s h1 h2 h3)
  | infer l o k ih => intro hp; exact ⟨hp.1, ih true hp.2⟩
  | progress k ih => intro hp b; exact ih b (hp b)
  | watch l x k ih => intro hp; exact ih hp
  | clearWatches k ih => intro hp; exact ih hp
  | setWatchState a b k ih => intro hp; exact ih hp
  | setState i v k ih => intro hp; exact ih hp
  | setMem x k ih => intro hp; exact ih hp

theorem wp_bind {Q : β → Doms → Prop} {k : α → Prog σ μ β} : ∀ (p : Prog σ μ α) (d : Doms), p.Wp n (fun v d' => (k v).Wp n Q d') d → (p.bind k).Wp n Q d := by
  intro p
  induction p with
  | ret v => intro d h; exact h
  | raise e => intro _ _; trivial
  | fail => intro _ _; trivial
  | read k ih => intro d hp s h1; exact ih s d (hp s h1)
  | infer l o k ih => intro d hp d' h1 h2 h3; exact ih true d' (hp d' h1 h2 h3)
  | progress k ih => intro d hp b; exact ih b d (hp b)
  | watch l x k ih => intro d hp; exact ih d hp
  | clearWatches k ih => intro d hp; exact ih d hp
  | setWatchState a b k ih => intro d hp; exact ih d hp
  | setState i v k ih => intro d hp; exact ih d hp
  | setMem x k ih => intro d hp; exact ih d hp

theorem wp_mono {Q Q' : α → Doms → Prop} (hq : ∀ v d, Q v d → Q' v d) : ∀ (p : Prog σ μ α) (d : Doms), p.Wp n Q d → p.Wp n Q' d := by
  intro p
  induction p with
  | ret v => intro d h; exact hq v d h
  | raise e => intro _ _; trivial
  | fail => intro _ _; trivial
  | read k ih => intro d hp s h1; exact ih s d (hp s h1)
  | infer l o k ih => intro d hp d' h1 h2 h3; exact ih true d' (hp d' h1 h2 h3)
  | progress k ih => intro d hp b; exact ih b d (hp b)
  | watch l x k ih => intro d hp; exact ih d hp
  | clearWatches k ih => intro d hp; exact ih d hp
  | setWatchState a b k ih => intro d hp; exact ih d hp
  | setState i v k ih => intro d hp; exact ih d hp
  | setMem x k ih => intro d hp; exact ih d hp

end
end Gcs
