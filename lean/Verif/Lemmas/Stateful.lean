import Verif.Spec.Stateful
import Verif.Lemmas.Ver
import Verif.Lemmas.Undo
import Verif.Lemmas.Install

/-! Following constraint states, and cutting a propagation function off from what it does outside its invariant. -/

namespace Gcs
open IntervalSet Queue

section
variable {σ μ α β : Type} {J : Job} {S : α → Prop}

/-- The constraint states and domains are as expected. -/
def Held (K : Doms → List σ → Prop) (s : Sys σ μ) : Prop := K s.doms s.top

open Classical in
/-- The function, with all reads with constraint states other than `c` cut off. -/
noncomputable def Prog.pin : Prog σ μ α → List σ → Prog σ μ α
  | .ret v, _ => .ret v
  | .raise e, _ => .raise e
  | .fail, _ => .fail
  | .read k, c => .read fun s => if s.top = c then (k s).pin c else .raise .overflow
  | .infer l o k, c => .infer l o fun b => (k b).pin c
  | .progress k, c => .progress fun b => (k b).pin c
  | .watch l p k, c => .watch l p (k.pin c)
  | .clearWatches k, c => .clearWatches (k.pin c)
  | .setWatchState a b k, c => .setWatchState a b (k.pin c)
  | .setState h v k, c => .setState h v (k.pin (c.set h v))
  | .setMem x k, c => .setMem x (k.pin c)

open Classical in
/-- The function, with everything it does outside `K` cut off. -/
noncomputable def Prog.guard (K : Doms → List σ → Prop) (p : Prog σ μ α) : Prog σ μ α :=
  .read fun s => if K s.doms s.top then p.pin s.top else .raise .overflow

theorem Prog.Halts.pin {R : Err → Prop} (ho : R .overflow) {S : α → Prop} : ∀ {p : Prog σ μ α} (c : List σ), p.Halts R S → (p.pin c).Halts R S
  | .ret _, _, h => h
  | .raise _, _, h => h
  | .fail, _, _ => trivial
  | .read k, c, h => fun s => by
    dsimp only
    by_cases e : s.top = c
    · rw [if_pos e]; exact Prog.Halts.pin ho c (h s)
    · rw [if_neg e]; exact ho
  | .infer _ _ _, _, h => h.elim
  | .progress _, c, h => fun b => Prog.Halts.pin ho c (h b)
  | .watch _ _ _, _, h => h.elim
  | .clearWatches _, _, h => h.elim
  | .setWatchState _ _ _, _, h => h.elim
  | .setState _ _ _, _, h => h.elim
  | .setMem _ _, _, h => h.elim

theorem VerS.pin (ho : J.R .overflow) {Q : α → Doms → List σ → Prop} : ∀ (p : Prog σ μ α) (d : Doms) (c : List σ), p.VerS J S Q d c → (p.pin c).Ver J S (fun v d' => ∃ c', Q v d' c') d
  | .ret _, _, c, h => ⟨c, h⟩
  | .raise _, _, _, h => h
  | .fail, _, _, h => h
  | .read k, d, c, h => fun s hs => by
    dsimp only
    by_cases e : s.top = c
    · rw [if_pos e]; exact VerS.pin ho (k s) d c (h s hs e)
    · rw [if_neg e]; exact ho
  | .infer _ _ k, _, c, h => ⟨h.1, h.2.1, fun d' h1 h2 h3 => VerS.pin ho (k true) d' c (h.2.2.1 d' h1 h2 h3), fun e => (h.2.2.2 e).pin ho c⟩
  | .progress k, d, c, h => fun b => VerS.pin ho (k b) d c (h b)
  | .watch _ _ k, d, c, h => ⟨h.1, h.2.1, h.2.2.1, h.2.2.2.1, VerS.pin ho k d c h.2.2.2.2⟩
  | .clearWatches k, d, c, h => ⟨h.1, VerS.pin ho k d c h.2⟩
  | .setWatchState _ _ k, d, c, h => ⟨h.1, VerS.pin ho k d c h.2⟩
  | .setState i v k, d, c, h => ⟨h.1, VerS.pin ho k d (c.set i v) h.2⟩
  | .setMem _ _, _, _, h => h.elim

theorem verS_mono {Q Q' : α → Doms → List σ → Prop} (hq : ∀ v d c, Q v d c → Q' v d c) : ∀ (p : Prog σ μ α) (d : Doms) (c : List σ), p.VerS J S Q d c → p.VerS J S Q' d c
  | .ret _, _, _, h => hq _ _ _ h
  | .raise _, _, _, h => h
  | .fail, _, _, h => h
  | .read k, d, c, h => fun s hs e => verS_mono hq (k s) d c (h s hs e)
  | .infer _ _ k, _, c, h => ⟨h.1, h.2.1, fun d' h1 h2 h3 => verS_mono hq (k true) d' c (h.2.2.1 d' h1 h2 h3), h.2.2.2⟩
  | .progress k, d, c, h => fun b => verS_mono hq (k b) d c (h b)
  | .watch _ _ k, d, c, h => ⟨h.1, h.2.1, h.2.2.1, h.2.2.2.1, verS_mono hq k d c h.2.2.2.2⟩
  | .clearWatches k, d, c, h => ⟨h.1, verS_mono hq k d c h.2⟩
  | .setWatchState _ _ k, d, c, h => ⟨h.1, verS_mono hq k d c h.2⟩
  | .setState i v k, d, c, h => ⟨h.1, verS_mono hq k d (c.set i v) h.2⟩
  | .setMem _ _, _, _, h => h.elim

/-- At the end the domains are proper and have only shrunk, and other constraint states are as they were. -/
theorem verS_frame {Q : α → Doms → List σ → Prop} : ∀ (p : Prog σ μ α) (d : Doms) (c : List σ), DomsOK d → d.length = J.n → p.VerS J S Q d c →
    p.VerS J S (fun v d' c' => Q v d' c' ∧ DomsOK d' ∧ d'.length = J.n ∧ (∀ a, Within d' a → Within d a) ∧ c'.length = c.length ∧ ∀ h, ¬ J.own h → c'[h]? = c[h]?) d c
  | .ret _, _, _, h1, h2, h => ⟨h, h1, h2, fun _ h => h, rfl, fun _ _ => rfl⟩
  | .raise _, _, _, _, _, h => h
  | .fail, _, _, _, _, h => h
  | .read k, d, c, h1, h2, h => fun s hs e => verS_frame (k s) d c h1 h2 (h s hs e)
  | .infer _ _ k, d, c, _, _, h => ⟨h.1, h.2.1, fun d' h1 h2 h3 => verS_mono (fun _ _ _ ⟨k0, k1, k2, k3, k4, k5⟩ => ⟨k0, k1, k2, fun a ha => ((h3 a).1 (k3 a ha)).1, k4, k5⟩) _ _ _
      (verS_frame (k true) d' c h1 h2 (h.2.2.1 d' h1 h2 h3)), h.2.2.2⟩
  | .progress k, d, c, h1, h2, h => fun b => verS_frame (k b) d c h1 h2 (h b)
  | .watch _ _ k, d, c, h1, h2, h => ⟨h.1, h.2.1, h.2.2.1, h.2.2.2.1, verS_frame k d c h1 h2 h.2.2.2.2⟩
  | .clearWatches k, d, c, h1, h2, h => ⟨h.1, verS_frame k d c h1 h2 h.2⟩
  | .setWatchState _ _ k, d, c, h1, h2, h => ⟨h.1, verS_frame k d c h1 h2 h.2⟩
  | .setState i v k, d, c, h1, h2, h => ⟨h.1, verS_mono (fun _ _ _ ⟨k0, k1, k2, k3, k4, k5⟩ => ⟨k0, k1, k2, k3, by simpa using k4, fun j hj => by
      rw [k5 j hj, List.getElem?_set_ne]; rintro rfl; exact hj h.1.2⟩) _ _ _ (verS_frame k d (c.set i v) h1 h2 h.2)⟩
  | .setMem _ _, _, _, _, _, h => h.elim

/-- A function that writes no constraint states. -/
theorem Ver.toS {Q : α → Doms → Prop} (hown : ∀ h, ¬ J.own h) : ∀ (p : Prog σ μ α) (d : Doms) (c : List σ), p.Ver J S Q d → p.VerS J S (fun v d' c' => Q v d' ∧ c' = c) d c
  | .ret _, _, _, h => ⟨h, rfl⟩
  | .raise _, _, _, h => h
  | .fail, _, _, h => h
  | .read k, d, c, h => fun s hs _ => Ver.toS hown (k s) d c (h s hs)
  | .infer _ _ k, _, c, h => ⟨h.1, h.2.1, fun d' h1 h2 h3 => Ver.toS hown (k true) d' c (h.2.2.1 d' h1 h2 h3), h.2.2.2⟩
  | .progress k, d, c, h => fun b => Ver.toS hown (k b) d c (h b)
  | .watch _ _ k, d, c, h => ⟨h.1, h.2.1, h.2.2.1, h.2.2.2.1, Ver.toS hown k d c h.2.2.2.2⟩
  | .clearWatches k, d, c, h => ⟨h.1, Ver.toS hown k d c h.2⟩
  | .setWatchState _ _ k, d, c, h => ⟨h.1, Ver.toS hown k d c h.2⟩
  | .setState _ _ _, _, _, h => absurd h.1.2 (hown _)
  | .setMem _ _, _, _, h => h.elim

/-- More may be owned. -/
theorem verS_own {own : Nat → Prop} (hown : ∀ h, J.own h → own h) {Q : α → Doms → List σ → Prop} : ∀ (p : Prog σ μ α) (d : Doms) (c : List σ), p.VerS J S Q d c → p.VerS { J with own } S Q d c
  | .ret _, _, _, h => h
  | .raise _, _, _, h => h
  | .fail, _, _, h => h
  | .read k, d, c, h => fun s hs e => verS_own hown (k s) d c (h s hs e)
  | .infer _ _ k, _, c, h => ⟨h.1, h.2.1, fun d' h1 h2 h3 => verS_own hown (k true) d' c (h.2.2.1 d' h1 h2 h3), h.2.2.2⟩
  | .progress k, d, c, h => fun b => verS_own hown (k b) d c (h b)
  | .watch _ _ k, d, c, h => ⟨h.1, h.2.1, h.2.2.1, h.2.2.2.1, verS_own hown k d c h.2.2.2.2⟩
  | .clearWatches k, d, c, h => ⟨h.1, verS_own hown k d c h.2⟩
  | .setWatchState _ _ k, d, c, h => ⟨h.1, verS_own hown k d c h.2⟩
  | .setState i v k, d, c, h => ⟨⟨h.1.1, hown _ h.1.2⟩, verS_own hown k d (c.set i v) h.2⟩
  | .setMem _ _, _, _, h => h.elim

/-- Sequencing. -/
theorem verS_bind {T : β → Prop} {P : β → Doms → List σ → Prop} {f : α → Prog σ μ β} (hs : ∀ v, S v → (f v).Halts J.R T) : ∀ (p : Prog σ μ α) (d : Doms) (c : List σ), DomsOK d → d.length = J.n →
    p.VerS J S (fun v d' c' => DomsOK d' → d'.length = J.n → (∀ a, Within d' a → Within d a) → (f v).VerS J T P d' c') d c → (p.bind f).VerS J T P d c
  | .ret _, _, _, h1, h2, h => h h1 h2 fun _ h => h
  | .raise _, _, _, _, _, h => h
  | .fail, _, _, _, _, h => h
  | .read k, d, c, h1, h2, h => fun s e e' => verS_bind hs (k s) d c h1 h2 (h s e e')
  | .infer _ _ k, d, c, _, _, h => ⟨h.1, h.2.1, fun d' h1 h2 h3 => verS_bind hs (k true) d' c h1 h2 (verS_mono (fun _ _ _ hq k1 k2 k3 => hq k1 k2 fun a ha => ((h3 a).1 (k3 a ha)).1) _ _ _
      (h.2.2.1 d' h1 h2 h3)), fun ho => (h.2.2.2 ho).bind hs⟩
  | .progress k, d, c, h1, h2, h => fun b => verS_bind hs (k b) d c h1 h2 (h b)
  | .watch _ _ k, d, c, h1, h2, h => ⟨h.1, h.2.1, h.2.2.1, h.2.2.2.1, verS_bind hs k d c h1 h2 h.2.2.2.2⟩
  | .clearWatches k, d, c, h1, h2, h => ⟨h.1, verS_bind hs k d c h1 h2 h.2⟩
  | .setWatchState _ _ k, d, c, h1, h2, h => ⟨h.1, verS_bind hs k d c h1 h2 h.2⟩
  | .setState i v k, d, c, h1, h2, h => ⟨h.1, verS_bind hs k d (c.set i v) h1 h2 h.2⟩
  | .setMem _ _, _, _, _, _, h => h.elim

/-! ## Running -/

theorem setState_top {s : Sys σ μ} {h : Nat} {v : σ} {st : State σ Callback} (e : s.st.setConstraintState h v = .ok st) : st.vars = s.st.vars ∧ st.cstates.headD [] = s.top.set h v := by
  unfold State.setConstraintState at e
  unfold Sys.top
  cases hc : s.st.cstates with
  | nil => rw [hc] at e; cases e
  | cons x r =>
    rw [hc] at e
    dsimp only at e
    split at e
    · cases e; exact ⟨rfl, rfl⟩
    · cases e

theorem infer_cstates {st st' : State σ Callback} {l : Lit} {i : Inference} (e : st.infer l = .ok (i, st')) : st'.cstates = st.cstates := by
  unfold State.infer at e
  cases hv : st.vars with
  | nil => rw [hv] at e; cases e
  | cons d r =>
    rw [hv] at e
    obtain ⟨x, _, e⟩ := bind_ok e
    cases e; rfl

theorem track_cstates (s : Sys σ μ) (i : Inference) (l : Lit) (st : State σ Callback) : (s.track i l st).1.st = st := by
  unfold Sys.track; cases i <;> rfl

/-- In the state it is meant for, a function that is pinned down does the same. -/
theorem run_pin (ctx : Ctx) : ∀ (p : Prog σ μ α) (c : List σ) (s : Sys σ μ), s.top = c → runProg ctx (p.pin c) s = runProg ctx p s
  | .ret _, _, _, _ => rfl
  | .raise _, _, _, _ => rfl
  | .fail, _, _, _ => rfl
  | .read k, c, s, h => by
    simp only [Prog.pin, runProg]
    rw [if_pos h]
    exact run_pin ctx (k s) c s h
  | .infer l o k, c, s, h => by
    simp only [Prog.pin, runProg]
    split
    · exact run_pin ctx (k false) c s h
    · cases e : s.st.infer l with
      | error x => rfl
      | ok x =>
        dsimp only
        have ht : (s.track x.1 l x.2).1.top = c := by
          unfold Sys.top; rw [track_cstates, infer_cstates (e.trans rfl)]; exact h
        split
        · exact run_pin ctx (k true) c _ ht
        · split
          · exact run_pin ctx (k false) c _ ht
          · rfl
  | .progress k, c, s, h => by simp only [Prog.pin, runProg]; exact run_pin ctx _ c _ h
  | .watch l p k, c, s, h => by simp only [Prog.pin, runProg]; exact run_pin ctx k c _ h
  | .clearWatches k, c, s, h => by
    simp only [Prog.pin, runProg]
    cases s.w.clear ctx.owner ctx.scope with
    | error x => rfl
    | ok w => exact run_pin ctx k c _ h
  | .setWatchState a b k, c, s, h => by simp only [Prog.pin, runProg]; exact run_pin ctx k c _ h
  | .setState i v k, c, s, h => by
    simp only [Prog.pin, runProg]
    cases e : s.st.setConstraintState i v with
    | error x => rfl
    | ok st => exact run_pin ctx k _ _ (by show st.cstates.headD [] = _; rw [(setState_top e).2, h])
  | .setMem x k, c, s, h => by simp only [Prog.pin, runProg]; exact run_pin ctx k c _ h

theorem run_guard {K : Doms → List σ → Prop} (ctx : Ctx) (p : Prog σ μ α) {s : Sys σ μ} (h : Held K s) : runProg ctx (p.guard K) s = runProg ctx p s := by
  simp only [Prog.guard, runProg]
  rw [if_pos (show K s.doms s.top from h)]
  exact run_pin ctx p _ s rfl

/-- What `VerS` says about the end of a run. -/
theorem verS_run {Q : α → Doms → List σ → Prop} {c : Ctx} {r : Res α} {s' : Sys σ μ} : ∀ (p : Prog σ μ α) (s : Sys σ μ), p.VerS J S Q s.doms s.top → Runnable J.n J.m s →
    runProg c p s = .ok (r, s') → ¬ Failed r s' → ∃ v, r = .val v ∧ Q v s'.doms s'.top
  | .ret v, s, h, _, e, _ => by cases e; exact ⟨v, rfl, h⟩
  | .raise _, s, _, _, e, _ => by cases e
  | .fail, s, _, _, e, hf => by cases e; exact absurd (.inl rfl) hf
  | .read k, s, h, hs, e, hf => verS_run (k s) s (h s rfl rfl) hs e hf
  | .infer l o k, s, h, hs, e, hf => by
    obtain ⟨s1, cs, e1, h1, _, hw, _, _, hc, _⟩ := run_infer (np := c.owner + 1) (R := J.R) c (Nat.lt_succ_self _) h.1 (fun ho => (h.2.2.2 ho).stops) hs e hf
    refine verS_run (k true) s1 ?_ h1 e1 hf
    have : s1.top = s.top := by unfold Sys.top; rw [hc]
    rw [this]; exact h.2.2.1 _ h1.domsOK h1.domsLen hw
  | .progress k, s, h, hs, e, hf => verS_run (k s.tr.madeProgress) { s with tr := { s.tr with madeProgress := false } } (h _) ⟨hs.1, hs.2, hs.3, hs.4, hs.5⟩ e hf
  | .watch l x k, s, h, hs, e, hf => verS_run k { s with w := s.w.register c.owner l x true } h.2.2.2.2 ⟨hs.1, hs.2, hs.3, hs.4, hs.5⟩ e hf
  | .clearWatches k, s, h, hs, e, hf => by
    obtain ⟨w, e', _⟩ := clear_spec (n := J.n) (np := c.owner + 1) c.scope s.w c.owner
    unfold runProg at e
    rw [e'] at e
    exact verS_run k { s with w := w } h.2 ⟨hs.1, hs.2, hs.3, hs.4, hs.5⟩ e hf
  | .setWatchState x y k, s, h, hs, e, hf => verS_run k { s with w := s.w.stateSet c.owner x y } h.2 ⟨hs.1, hs.2, hs.3, hs.4, hs.5⟩ e hf
  | .setState i v k, s, h, hs, e, hf => by
    obtain ⟨st, e', h1, _⟩ := setState_spec (n := J.n) (np := c.owner + 1) (s := s) v (by rw [hs.cstatesLen]; exact h.1.1)
    obtain ⟨h2, h3⟩ := setState_top e'
    unfold runProg at e
    rw [e'] at e
    have hd : (⟨st, s.tr, s.w, s.q, s.claims, s.toDisable, s.total, s.effectful, s.contradicting, s.conflicts, s.mem, s.clock, s.trace⟩ : Sys σ μ).doms = s.doms := by
      unfold Sys.doms; rw [h2]
    have ht : (⟨st, s.tr, s.w, s.q, s.claims, s.toDisable, s.total, s.effectful, s.contradicting, s.conflicts, s.mem, s.clock, s.trace⟩ : Sys σ μ).top = s.top.set i v := h3
    exact verS_run k { s with st := st } (by rw [hd, ht]; exact h.2) ⟨by rw [hd]; exact hs.domsOK, by rw [hd]; exact hs.domsLen,
      by show st.vars ≠ []; rw [h2]; exact hs.varsNe, h1.cstatesLen.trans hs.cstatesLen, hs.fine⟩ e hf
  | .setMem _ _, s, h, _, _, _ => h.elim

end
end Gcs
