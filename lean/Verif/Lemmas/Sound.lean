import Verif.Spec.Sound
import Verif.Lemmas.Propagate

namespace Gcs
open IntervalSet Queue

section
variable {σ μ α : Type} {n m np : Nat} {R : Err → Prop}

/-- A propagation function that follows the rule keeps the assignment. -/
theorem sound_run {a : Asg} (c : Ctx) (hc : c.owner < np) : ∀ (p : Prog σ μ α) (s : Sys σ μ), p.OKAt n m R s.doms → p.SoundAt n a s.doms → Runnable n m s → Within s.doms a →
    ∀ r s', runProg c p s = .ok (r, s') → ¬ Failed r s' ∧ Within s'.doms a
  | .ret x, s, _, _, h, hw, r, s', e => by
    cases e
    exact ⟨by simp [Failed, h.fine], hw⟩
  | .raise e, s, _, _, _, _, _, _, e' => nomatch e'
  | .fail, s, _, hs, _, _, _, _, _ => nomatch hs
  | .read k, s, hp, hs, h, hw, r, s', e => sound_run c hc (k s) s (hp s rfl) (hs s rfl) h hw r s' e
  | .infer l o k, s, hp, hs, h, hw, r, s', e => by
    unfold runProg at e
    rw [if_neg (by simp [h.fine])] at e
    obtain ⟨d, rest, hv⟩ : ∃ d rest, s.st.vars = d :: rest := by
      cases hv : s.st.vars with
      | nil => exact absurd hv h.varsNe
      | cons d r => exact ⟨d, r, rfl⟩
    have hd := doms_eq hv
    have hdOK := h.domsOK; have hdl := h.domsLen; rw [hd] at hdOK hdl hw
    rcases infer_spec d l hdOK (hdl.symm ▸ hp.1) with he | ⟨x, he, hspec⟩
    · simp [State.infer, hv, he, bind, Except.bind] at e
    · have hinf : s.st.infer l = .ok (x.1, { s.st with vars := x.2 :: rest }) := by
        simp [State.infer, hv, he, bind, Except.bind, pure, Except.pure]
      rw [hinf] at e
      have hm := inferMeaning_of_spec hdOK hspec
      have hcon : x.1 ≠ .contradiction := fun hc => hm.contra.1 hc a hw hs.1
      have hw' : Within x.2 a := (hm.within hcon a).2 ⟨hw, hs.1⟩
      have hb : ∀ b, Within x.2 b ↔ Within s.doms b ∧ l.holds b := fun b => by rw [hd]; exact hm.within hcon b
      have hl2 : x.2.length = n := by rw [hspec.length, hdl]
      have ho2 := hp.2.1 x.2 (hm.domsOK hcon) hl2 hb
      have hs2 := hs.2 x.2 (hm.domsOK hcon) hl2 hw' hb
      have hrun : ∀ t tr', t.contradicted = false → Runnable n m ({ s with st := { s.st with vars := x.2 :: rest }, tr := t, trace := tr' } : Sys σ μ) := by
        intro t tr' ht
        exact ⟨hm.domsOK hcon, by show x.2.length = n; rw [hspec.length, hdl], by simp, h.cstatesLen, ht⟩
      by_cases hno : x.1 = .noChange
      · have htr : s.track x.1 l { s.st with vars := x.2 :: rest } = ({ s with st := { s.st with vars := x.2 :: rest } }, true) := by rw [hno]; rfl
        simp only [htr, if_true] at e
        exact sound_run c hc (k true) { s with st := { s.st with vars := x.2 :: rest } } ho2 hs2 (hrun s.tr s.trace h.fine) hw' r s' e
      · obtain ⟨v, hlv⟩ := infer_var_of_effective hspec hno hcon
        have htr : s.track x.1 l { s.st with vars := x.2 :: rest } =
            ({ s with
                st := { s.st with vars := x.2 :: rest }
                tr := { s.tr with inferences := s.tr.inferences ++ [(v, x.1)], didAnything := true, madeProgress := true }
                trace := s.trace ++ [.change v x.1] }, true) := by
          cases hr : x.1 <;> simp [hr] at hno hcon <;> simp [Sys.track, Tracker.record, hlv]
        simp only [htr, if_true] at e
        exact sound_run c hc (k true) { s with st := { s.st with vars := x.2 :: rest }, tr := { s.tr with inferences := s.tr.inferences ++ [(v, x.1)], didAnything := true, madeProgress := true }, trace := s.trace ++ [.change v x.1] } ho2 hs2 (hrun { s.tr with inferences := s.tr.inferences ++ [(v, x.1)], didAnything := true, madeProgress := true } (s.trace ++ [.change v x.1]) h.fine) hw' r s' e
  | .progress k, s, hp, hs, h, hw, r, s', e =>
    sound_run c hc (k s.tr.madeProgress) { s with tr := { s.tr with madeProgress := false } } (hp _) (hs _) ⟨h.1, h.2, h.3, h.4, h.5⟩ hw r s' e
  | .watch l x k, s, hp, hs, h, hw, r, s', e =>
    sound_run c hc k { s with w := s.w.register c.owner l x true } hp.2.2 hs ⟨h.1, h.2, h.3, h.4, h.5⟩ hw r s' e
  | .clearWatches k, s, hp, hs, h, hw, r, s', e => by
    obtain ⟨w, e', _⟩ := clear_spec (n := n) (np := np) c.scope s.w c.owner
    unfold runProg at e
    rw [e'] at e
    exact sound_run c hc k { s with w := w } hp hs ⟨h.1, h.2, h.3, h.4, h.5⟩ hw r s' e
  | .setWatchState x y k, s, hp, hs, h, hw, r, s', e =>
    sound_run c hc k { s with w := s.w.stateSet c.owner x y } hp hs ⟨h.1, h.2, h.3, h.4, h.5⟩ hw r s' e
  | .setState i v k, s, hp, hs, h, hw, r, s', e => by
    obtain ⟨st, e', h1, h2⟩ := setState_spec (n := n) (np := np) (s := s) v (by rw [h.cstatesLen]; exact hp.1)
    unfold runProg at e
    rw [e'] at e
    have hd : (⟨st, s.tr, s.w, s.q, s.claims, s.toDisable, s.total, s.effectful, s.contradicting, s.conflicts, s.mem, s.clock, s.trace⟩ : Sys σ μ).doms = s.doms := by
      unfold Sys.doms; rw [h2]
    refine sound_run c hc k { s with st := st } (by rw [hd]; exact hp.2) (by rw [hd]; exact hs) ⟨?_, ?_, ?_, ?_, h.fine⟩ ?_ r s' e
    · rw [hd]; exact h.domsOK
    · rw [hd]; exact h.domsLen
    · show st.vars ≠ []; rw [h2]; exact h.varsNe
    · exact h1.cstatesLen.trans h.cstatesLen
    · rw [hd]; exact hw
  | .setMem x k, s, hp, hs, h, hw, r, s', e =>
    sound_run c hc k { s with mem := x } hp hs ⟨h.1, h.2, h.3, h.4, h.5⟩ hw r s' e

theorem sound_keeps {a : Asg} {c : Ctx} (hc : c.owner < np) {f : Prog σ μ α} (ho : f.Safe n m R) (hs : f.Truthful n a) : Keeps n m (fun _ => True) a c f := by
  intro s r s' h _ hw e
  obtain ⟨h1, h2⟩ := sound_run c hc f s (ho _ h.domsOK h.domsLen) (hs _ h.domsOK h.domsLen hw) h hw r s' e
  exact ⟨h1, h2, trivial⟩

theorem exists_bounds {s : IntervalSet} (h : DomOK s) : ∃ lo hi, Mem lo s ∧ Mem hi s ∧ ∀ y, Mem y s → lo ≤ y ∧ y ≤ hi := by
  obtain ⟨l, u, b⟩ := exists_bnd h.wf h.nonempty
  exact ⟨l, u, b.meml, b.memu, fun y hy => b.le y hy⟩

theorem Step.within {v inf} {d d' : Doms} (h : Step v inf d d') {a : Asg} (hw : Within d' a) : Within d a := by
  intro i s hs
  by_cases hi : i = v
  · obtain ⟨x, x', h1, h2, h3, _⟩ := h.own
    subst hi
    rw [hs] at h1; cases h1
    exact h3 _ (hw i x' h2)
  · exact hw i s (by rw [h.others i hi]; exact hs)

theorem Evolve.within {d d' : Doms} {cs} (h : Evolve d cs d') {a : Asg} (hw : Within d' a) : Within d a := by
  induction h with
  | refl => exact hw
  | snoc _ s ih => exact ih (s.within hw)

end
end Gcs
