import Verif.Lemmas.Watched

/-! What holds of the nogoods with refined watches at every node of a search, whatever happened before. -/

namespace Gcs
open IntervalSet Queue
namespace Nogoods

section
variable {σ μ : Type} {n m : Nat} {R : Err → Prop} {E : Engine σ μ} {l : List (Prog σ μ PState × Triggers)} {cell : Cell μ NogoodMem} {me : Nat}

/-- The nodes a search can be at, when `propagate` has just finished there, or it has come back there: after the first call; after a call at a child of such a node; having come back to such a node, the
only difference being that nogoods may have been added; after a call at the root of another pass. `S`: the nogoods there were when the pass began. -/
inductive Visited (n m : Nat) (E : Engine σ μ) (cell : Cell μ NogoodMem) (abort : Nat → Bool) : List (List Cond) → Sys σ μ → Prop where
  | root (s s' : Sys σ μ) : RootOK n m E s → (cell.get s.mem).setUp = 0 → (∀ v, ∀ x ∈ armed s.w v, ¬ Entailed s.doms x.literal) →
    Sys.propagate E [] abort s = .ok (true, s') → (∀ i, i < s'.clock → abort i = false) → Visited n m E cell abort (cell.get s.mem).store s'
  | child (S : List (List Cond)) (p c s' : Sys σ μ) (g : Lit) : Visited n m E cell abort S p → g.Valid n → Child p g c →
    Sys.propagate E [g] abort c = .ok (true, s') → (∀ i, i < s'.clock → abort i = false) → Visited n m E cell abort S s'
  | back (S : List (List Cond)) (p p' : Sys σ μ) : Visited n m E cell abort S p → Same E.progs.length p p' → (cell.get p.mem).store <+: (cell.get p'.mem).store →
    (cell.get p'.mem).setUp = (cell.get p.mem).setUp → Visited n m E cell abort S p'
  | restart (S : List (List Cond)) (p s' : Sys σ μ) : Visited n m E cell abort S p →
    Sys.propagate E [] abort p = .ok (true, s') → (∀ i, i < s'.clock → abort i = false) → Visited n m E cell abort (cell.get p.mem).store s'

theorem visited_kept (h : Hosted n m R E l cell me) (hw : Watcher n E l cell me) {abort : Nat → Bool} {S : List (List Cond)} {s : Sys σ μ} (hv : Visited n m E cell abort S s) :
    NodeOK n m E s ∧ ¬ IsDisabled s.q me ∧ Kept cell me s ∧ S <+: (cell.get s.mem).store ∧ (cell.get s.mem).setUp = S.length := by
  induction hv with
  | root s s' hr h0 ho e ha =>
    obtain ⟨h1, _, h2⟩ := refined_call h hw hr.call (by omega) (fun ni g hni => absurd hni (by omega)) (fun hn => absurd rfl hn) e
    obtain ⟨h3, h4, h5, h6⟩ := h2 rfl ha
    refine ⟨(propagate_call h.built.wf hr.call e).nodeOK hr.call hr.ids hr.aligned, h5, ⟨by rw [h1]; exact h3, by rw [h1]; exact h6, ?_⟩, by rw [h1]; exact List.prefix_refl _, h4 rfl⟩
    exact propagate_open h.built.wf hr.call (fun v x hx he => absurd he (ho v x hx)) (hw.quiet h) (hw.open h) e ha
  | child S p c s' g hp hg hc e ha ih =>
    obtain ⟨i1, i2, i3, i4, i5⟩ := ih
    have hn := hc.nodeOK i1
    obtain ⟨d, cc, hcc, heq⟩ := hc.eq
    have hq : c.q = p.q := by rw [heq]
    have hww : c.w = p.w := by rw [heq]
    have hm : c.mem = p.mem := by rw [heq]
    obtain ⟨cs, hev, hcs⟩ := hc.narrow.evolve
    have hk := hn.calls [g]
    obtain ⟨h1, h2, h3⟩ := refined_call h hw hk (by rw [hm]; exact i3.1) (by
      intro ni x hni hx
      rw [hm] at hni hx
      rcases i3.2.1 ni x hni hx with ⟨y, hy, hr⟩ | ⟨a, b, y, z, q1, q2, q3, q4, q5, q6⟩
      · exact .inl ⟨y, hy, hr.evolve hev⟩
      · exact .inr ⟨a, b, y, z, q1, q2, q3, by rw [hww]; exact q4, by rw [hww]; exact q5, by rw [hww]; exact q6⟩) (by rw [hq]; exact fun _ => i2) e
    obtain ⟨h4, _, h5, h6⟩ := h3 rfl ha
    have h2 := h2 (by simp)
    refine ⟨(propagate_call h.built.wf hk e).nodeOK hk hn.ids hn.aligned, h5, ⟨by rw [h1]; exact h4, by rw [h1]; exact h6, ?_⟩, by rw [h1, hm]; exact i4, by rw [h2, hm]; exact i5⟩
    refine propagate_open h.built.wf hk (fun v x hx he => ?_) (hw.quiet h) (hw.open h) e ha
    rw [hww] at hx
    have hu := (armed_ok (hww ▸ hk.watches) hx).2.2.1
    obtain ⟨inf, hin, _⟩ := evolve_mask hev hu (i3.2.2 v x hx) he
    exact ⟨g, by simp, hcs _ hin⟩
  | back S p p' hp hs hst hup ih =>
    obtain ⟨i1, i2, i3, i4, i5⟩ := ih
    refine ⟨i1.same hs, by rw [hs.disabled]; exact i2, ⟨by rw [hup]; exact Nat.le_trans i3.1 hst.length_le, ?_, ?_⟩, i4.trans hst, by rw [hup]; exact i5⟩
    · intro ni g hni hg
      rw [hup] at hni
      have hg' : (cell.get p.mem).store[ni]? = some g := by
        obtain ⟨z, hz⟩ := hst
        rw [← hz, List.getElem?_append_left (by have := i3.1; omega)] at hg
        exact hg
      exact (i3.2.1 ni g hni hg').congr hs.doms (fun v x hx => ((hs.w.like.armed v).mem_iff).2 hx) fun i => hs.w.slike.get me i
    · intro v x hx
      rw [hs.doms]
      exact i3.2.2 v x (((hs.w.like.armed v).mem_iff).1 hx)
  | restart S p s' hp e ha ih =>
    obtain ⟨i1, i2, i3, i4, i5⟩ := ih
    obtain ⟨h1, _, h2⟩ := refined_call h hw i1.call i3.1 i3.2.1 (fun hn => absurd rfl hn) e
    obtain ⟨h3, h4, h5, h6⟩ := h2 rfl ha
    refine ⟨(propagate_call h.built.wf i1.call e).nodeOK i1.call i1.ids i1.aligned, h5, ⟨by rw [h1]; exact h3, by rw [h1]; exact h6, ?_⟩, by rw [h1]; exact List.prefix_refl _, h4 rfl⟩
    exact propagate_open h.built.wf i1.call (fun v x hx he => absurd he (i3.2.2 v x hx)) (hw.quiet h) (hw.open h) e ha

/-! ## Programs that do not touch captured memory -/

/-- The program never writes to captured memory. -/
def _root_.Gcs.Prog.NoMem {α : Type} : Prog σ μ α → Prop
  | .ret _ => True
  | .raise _ => True
  | .fail => True
  | .read k => ∀ s, (k s).NoMem
  | .infer _ _ k => ∀ i, (k i).NoMem
  | .progress k => ∀ b, (k b).NoMem
  | .watch _ _ k => k.NoMem
  | .clearWatches k => k.NoMem
  | .setWatchState _ _ k => k.NoMem
  | .setState _ _ k => k.NoMem
  | .setMem _ _ => False

theorem _root_.Gcs.Prog.NoMem.run {α : Type} {c : Ctx} {r : Res α} {s' : Sys σ μ} : ∀ {f : Prog σ μ α} {s : Sys σ μ}, f.NoMem → runProg c f s = .ok (r, s') → s'.mem = s.mem := by
  intro f
  induction f with
  | ret a => intro s _ e; cases e; rfl
  | raise x => intro s _ e; cases e
  | fail => intro s _ e; cases e; rfl
  | read k ih => intro s h e; exact ih s (h s) e
  | infer l o k ih =>
    intro s h e
    simp only [runProg] at e
    split at e
    · exact ih _ (h _) e
    · split at e
      · cases e
      · rename_i x _
        have hm : (s.track x.1 l x.2).1.mem = s.mem := by unfold Sys.track; split <;> rfl
        split at e
        · exact (ih _ (h _) e).trans hm
        · split at e
          · exact (ih _ (h _) e).trans hm
          · cases e; exact hm
  | progress k ih => intro s h e; have := ih _ (h _) e; exact this
  | watch l p k ih => intro s h e; have := ih h e; exact this
  | clearWatches k ih =>
    intro s h e
    simp only [runProg] at e
    split at e
    · cases e
    · have := ih h e; exact this
  | setWatchState a b k ih => intro s h e; have := ih h e; exact this
  | setState a b k ih =>
    intro s h e
    simp only [runProg] at e
    split at e
    · cases e
    · have := ih h e; exact this
  | setMem x k ih => intro s h e; exact h.elim

theorem spares_of_noMem {f : Prog σ μ PState} (h : f.NoMem) : Spares n m cell f := fun _ _ _ _ _ e => congrArg cell.get (h.run e)

theorem noMem_ask {α β : Type} {f : Doms → Chk α} {k : α → Prog σ μ β} (h : ∀ v, (k v).NoMem) : ((Prog.ask f).bind k).NoMem := by
  intro s
  show (Prog.bind (match f s.doms with | .ok a => .ret a | .error e => .raise e) k).NoMem
  cases f s.doms with
  | ok v => exact h v
  | error e => trivial

end
end Nogoods
end Gcs
