import Verif.Spec.Ver
import Verif.Lemmas.Ask

namespace Gcs
open IntervalSet Queue

section
variable {σ μ α β : Type} {J : Job} {S : α → Prop} {Q : α → Doms → Prop}

theorem _root_.Gcs.Prog.Halts.stops {n m : Nat} {R : Err → Prop} : ∀ {p : Prog σ μ α}, p.Halts R S → p.Stops n m R
  | .ret _, _ => trivial
  | .raise _, h => h
  | .fail, _ => trivial
  | .read _, h => fun s => Prog.Halts.stops (h s)
  | .infer _ _ _, h => h
  | .progress _, h => fun b => Prog.Halts.stops (h b)
  | .watch _ _ _, h => h.elim
  | .clearWatches _, h => h.elim
  | .setWatchState _ _ _, h => h.elim
  | .setState _ _ _, h => h.elim
  | .setMem _ _, h => h.elim

theorem _root_.Gcs.Prog.Halts.noMem {R : Err → Prop} : ∀ {p : Prog σ μ α}, p.Halts R S → p.NoMem
  | .ret _, _ => trivial
  | .raise _, _ => trivial
  | .fail, _ => trivial
  | .read _, h => fun s => Prog.Halts.noMem (h s)
  | .infer _ _ _, h => h.elim
  | .progress _, h => fun b => Prog.Halts.noMem (h b)
  | .watch _ _ _, h => h.elim
  | .clearWatches _, h => h.elim
  | .setWatchState _ _ _, h => h.elim
  | .setState _ _ _, h => h.elim
  | .setMem _ _, h => h.elim

theorem _root_.Gcs.Prog.Halts.bind {R : Err → Prop} {T : β → Prop} {f : α → Prog σ μ β} (hf : ∀ v, S v → (f v).Halts R T) : ∀ {p : Prog σ μ α}, p.Halts R S → (p.bind f).Halts R T
  | .ret v, h => hf v h
  | .raise _, h => h
  | .fail, _ => trivial
  | .read _, h => fun s => Prog.Halts.bind hf (h s)
  | .infer _ _ _, h => h.elim
  | .progress _, h => fun b => Prog.Halts.bind hf (h b)
  | .watch _ _ _, h => h.elim
  | .clearWatches _, h => h.elim
  | .setWatchState _ _ _, h => h.elim
  | .setState _ _ _, h => h.elim
  | .setMem _ _, h => h.elim

/-! ## What follows from `Ver` -/

theorem Ver.okAt : ∀ (p : Prog σ μ α) (d : Doms), p.Ver J S Q d → p.OKAt J.n J.m J.R d
  | .ret _, _, _ => trivial
  | .raise _, _, h => h
  | .fail, _, _ => trivial
  | .read k, d, h => fun s hs => Ver.okAt (k s) d (h s hs)
  | .infer _ _ k, _, h => ⟨h.1, fun d' h1 h2 h3 => Ver.okAt (k true) d' (h.2.2.1 d' h1 h2 h3), fun ho => (h.2.2.2 ho).stops⟩
  | .progress k, d, h => fun b => Ver.okAt (k b) d (h b)
  | .watch _ _ k, d, h => ⟨h.2.1, h.2.2.1, Ver.okAt k d h.2.2.2.2⟩
  | .clearWatches k, d, h => Ver.okAt k d h.2
  | .setWatchState _ _ k, d, h => Ver.okAt k d h.2
  | .setState _ _ k, d, h => ⟨h.1.1, Ver.okAt k d h.2⟩
  | .setMem _ _, _, h => h.elim

theorem Ver.soundAt {a : Asg} (ha : J.C a) : ∀ (p : Prog σ μ α) (d : Doms), p.Ver J S Q d → Within d a → p.SoundAt J.n a d
  | .ret _, _, _, _ => trivial
  | .raise _, _, _, _ => trivial
  | .fail, _, h, hw => h a hw ha
  | .read k, d, h, hw => fun s hs => Ver.soundAt ha (k s) d (h s hs) hw
  | .infer _ _ k, _, h, hw => ⟨h.2.1 a hw ha, fun d' h1 h2 h3 h4 => Ver.soundAt ha (k true) d' (h.2.2.1 d' h1 h2 h4) h3⟩
  | .progress k, d, h, hw => fun b => Ver.soundAt ha (k b) d (h b) hw
  | .watch _ _ k, d, h, hw => Ver.soundAt ha k d h.2.2.2.2 hw
  | .clearWatches k, d, h, hw => Ver.soundAt ha k d h.2 hw
  | .setWatchState _ _ k, d, h, hw => Ver.soundAt ha k d h.2 hw
  | .setState _ _ k, d, h, hw => Ver.soundAt ha k d h.2 hw
  | .setMem _ _, _, h, _ => h.elim

theorem Ver.wp : ∀ (p : Prog σ μ α) (d : Doms), p.Ver J S Q d → p.Wp J.n Q d
  | .ret _, _, h => h
  | .raise _, _, _ => trivial
  | .fail, _, _ => trivial
  | .read k, d, h => fun s hs => Ver.wp (k s) d (h s hs)
  | .infer _ _ k, _, h => fun d' h1 h2 h3 => Ver.wp (k true) d' (h.2.2.1 d' h1 h2 h3)
  | .progress k, d, h => fun b => Ver.wp (k b) d (h b)
  | .watch _ _ k, d, h => Ver.wp k d h.2.2.2.2
  | .clearWatches k, d, h => Ver.wp k d h.2
  | .setWatchState _ _ k, d, h => Ver.wp k d h.2
  | .setState _ _ k, d, h => Ver.wp k d h.2
  | .setMem _ _, _, h => h.elim

theorem Ver.arms : ∀ (p : Prog σ μ α) (d : Doms), p.Ver J S Q d → p.ArmsOpen J.n d
  | .ret _, _, _ => trivial
  | .raise _, _, _ => trivial
  | .fail, _, _ => trivial
  | .read k, d, h => fun s hs => Ver.arms (k s) d (h s hs)
  | .infer _ _ k, _, h => fun d' h1 h2 h3 => Ver.arms (k true) d' (h.2.2.1 d' h1 h2 h3)
  | .progress k, d, h => fun b => Ver.arms (k b) d (h b)
  | .watch _ _ k, d, h => ⟨h.2.2.2.1, Ver.arms k d h.2.2.2.2⟩
  | .clearWatches k, d, h => Ver.arms k d h.2
  | .setWatchState _ _ k, d, h => Ver.arms k d h.2
  | .setState _ _ k, d, h => Ver.arms k d h.2
  | .setMem _ _, _, h => h.elim

/-- Captured memory is left alone. -/
theorem Ver.mem {c : Ctx} {r : Res α} {s' : Sys σ μ} : ∀ (p : Prog σ μ α) (s : Sys σ μ), p.Ver J S Q s.doms → Runnable J.n J.m s → runProg c p s = .ok (r, s') → s'.mem = s.mem
  | .ret _, s, _, _, e => by cases e; rfl
  | .raise _, s, _, _, e => by cases e
  | .fail, s, _, _, e => by cases e; rfl
  | .read k, s, h, hs, e => Ver.mem (k s) s (h s rfl) hs e
  | .infer l o k, s, h, hs, e => by
    by_cases hf : Failed r s'
    · unfold runProg at e
      rw [if_neg (by simp [hs.fine])] at e
      obtain ⟨d, rest, hv⟩ : ∃ d rest, s.st.vars = d :: rest := by
        cases hv : s.st.vars with
        | nil => exact absurd hv hs.varsNe
        | cons d r => exact ⟨d, r, rfl⟩
      have hd := doms_eq hv
      have hdOK := hs.domsOK; have hdl := hs.domsLen; rw [hd] at hdOK hdl
      rcases infer_spec d l hdOK (hdl.symm ▸ h.1) with he | ⟨x, he, hspec⟩
      · simp [State.infer, hv, he, bind, Except.bind] at e
      have hinf : s.st.infer l = .ok (x.1, { s.st with vars := x.2 :: rest }) := by
        simp [State.infer, hv, he, bind, Except.bind, pure, Except.pure]
      rw [hinf] at e
      have hm := inferMeaning_of_spec hdOK hspec
      by_cases hcon : x.1 = .contradiction
      · have htr : s.track x.1 l { s.st with vars := x.2 :: rest } =
            ({ s with st := { s.st with vars := x.2 :: rest }, tr := { s.tr with didAnything := true, madeProgress := true, contradicted := true } }, false) := by rw [hcon]; rfl
        simp only [htr, Bool.false_eq_true, if_false] at e
        cases o with
        | false => simp at e; rw [← e.2]
        | true =>
          simp only [if_true] at e
          have := (h.2.2.2 rfl).noMem.run e
          exact this
      · have hgo : ∀ t y, t.contradicted = false → runProg c (k true) ({ s with st := { s.st with vars := x.2 :: rest }, tr := t, trace := y } : Sys σ μ) = .ok (r, s') → s'.mem = s.mem := by
          intro t y ht e
          have h2 : (k true).Ver J S Q x.2 := h.2.2.1 x.2 (hm.domsOK hcon) (by rw [hspec.length, hdl]) (by rw [hd]; exact fun b => hm.within hcon b)
          exact Ver.mem (k true) ({ s with st := { s.st with vars := x.2 :: rest }, tr := t, trace := y } : Sys σ μ) h2 ⟨hm.domsOK hcon, by show x.2.length = J.n; rw [hspec.length, hdl], by simp, hs.cstatesLen, ht⟩ e
        by_cases hno : x.1 = .noChange
        · have htr : s.track x.1 l { s.st with vars := x.2 :: rest } = ({ s with st := { s.st with vars := x.2 :: rest } }, true) := by rw [hno]; rfl
          simp only [htr, if_true] at e
          exact hgo s.tr s.trace hs.fine e
        · obtain ⟨v, hlv⟩ := infer_var_of_effective hspec hno hcon
          have htr : s.track x.1 l { s.st with vars := x.2 :: rest } =
              ({ s with
                  st := { s.st with vars := x.2 :: rest }
                  tr := { s.tr with inferences := s.tr.inferences ++ [(v, x.1)], didAnything := true, madeProgress := true }
                  trace := s.trace ++ [.change v x.1] }, true) := by
            cases hr : x.1 <;> simp [hr] at hno hcon <;> simp [Sys.track, Tracker.record, hlv]
          simp only [htr, if_true] at e
          exact hgo { s.tr with inferences := s.tr.inferences ++ [(v, x.1)], didAnything := true, madeProgress := true } (s.trace ++ [.change v x.1]) hs.fine e
    · obtain ⟨s1, cs, e1, h1, _, hw, _, hmem, _, _⟩ := run_infer (np := c.owner + 1) (R := J.R) c (Nat.lt_succ_self _) h.1 (fun ho => (h.2.2.2 ho).stops) hs e hf
      exact (Ver.mem (k true) s1 (h.2.2.1 _ h1.domsOK h1.domsLen hw) h1 e1).trans hmem
  | .progress k, s, h, hs, e => by
    have := Ver.mem (k s.tr.madeProgress) { s with tr := { s.tr with madeProgress := false } } (h _) ⟨hs.1, hs.2, hs.3, hs.4, hs.5⟩ e
    exact this
  | .watch l x k, s, h, hs, e => by
    have := Ver.mem k { s with w := s.w.register c.owner l x true } h.2.2.2.2 ⟨hs.1, hs.2, hs.3, hs.4, hs.5⟩ e
    exact this
  | .clearWatches k, s, h, hs, e => by
    obtain ⟨w, e', _⟩ := clear_spec (n := J.n) (np := c.owner + 1) c.scope s.w c.owner
    unfold runProg at e
    rw [e'] at e
    have := Ver.mem k { s with w := w } h.2 ⟨hs.1, hs.2, hs.3, hs.4, hs.5⟩ e
    exact this
  | .setWatchState x y k, s, h, hs, e => by
    have := Ver.mem k { s with w := s.w.stateSet c.owner x y } h.2 ⟨hs.1, hs.2, hs.3, hs.4, hs.5⟩ e
    exact this
  | .setState i v k, s, h, hs, e => by
    obtain ⟨st, e', h1, h2⟩ := setState_spec (n := J.n) (np := c.owner + 1) (s := s) v (by rw [hs.cstatesLen]; exact h.1.1)
    unfold runProg at e
    rw [e'] at e
    have hd : (⟨st, s.tr, s.w, s.q, s.claims, s.toDisable, s.total, s.effectful, s.contradicting, s.conflicts, s.mem, s.clock, s.trace⟩ : Sys σ μ).doms = s.doms := by
      unfold Sys.doms; rw [h2]
    have := Ver.mem k { s with st := st } (by rw [hd]; exact h.2) ⟨by rw [hd]; exact hs.domsOK, by rw [hd]; exact hs.domsLen,
      by show st.vars ≠ []; rw [h2]; exact hs.varsNe, h1.cstatesLen.trans hs.cstatesLen, hs.fine⟩ e
    exact this
  | .setMem _ _, s, h, _, _ => h.elim

theorem ver_mono {Q' : α → Doms → Prop} (hq : ∀ v d, Q v d → Q' v d) : ∀ (p : Prog σ μ α) (d : Doms), p.Ver J S Q d → p.Ver J S Q' d
  | .ret _, _, h => hq _ _ h
  | .raise _, _, h => h
  | .fail, _, h => h
  | .read k, d, h => fun s hs => ver_mono hq (k s) d (h s hs)
  | .infer _ _ k, _, h => ⟨h.1, h.2.1, fun d' h1 h2 h3 => ver_mono hq (k true) d' (h.2.2.1 d' h1 h2 h3), h.2.2.2⟩
  | .progress k, d, h => fun b => ver_mono hq (k b) d (h b)
  | .watch _ _ k, d, h => ⟨h.1, h.2.1, h.2.2.1, h.2.2.2.1, ver_mono hq k d h.2.2.2.2⟩
  | .clearWatches k, d, h => ⟨h.1, ver_mono hq k d h.2⟩
  | .setWatchState _ _ k, d, h => ⟨h.1, ver_mono hq k d h.2⟩
  | .setState _ _ k, d, h => ⟨h.1, ver_mono hq k d h.2⟩
  | .setMem _ _, _, h => h.elim

/-- Where the constraint is stronger there is less to keep. -/
theorem ver_weaken {C : Asg → Prop} : ∀ (p : Prog σ μ α) (d : Doms), (∀ a, Within d a → C a → J.C a) → p.Ver J S Q d → p.Ver { J with C := C } S Q d
  | .ret _, _, _, h => h
  | .raise _, _, _, h => h
  | .fail, _, hc, h => fun a ha hh => h a ha (hc a ha hh)
  | .read k, d, hc, h => fun s hs => ver_weaken (k s) d hc (h s hs)
  | .infer _ _ k, _, hc, h => ⟨h.1, fun a ha hh => h.2.1 a ha (hc a ha hh), fun d' h1 h2 h3 => ver_weaken (k true) d' (fun a ha => hc a ((h3 a).1 ha).1) (h.2.2.1 d' h1 h2 h3), h.2.2.2⟩
  | .progress k, d, hc, h => fun b => ver_weaken (k b) d hc (h b)
  | .watch _ _ k, d, hc, h => ⟨h.1, h.2.1, h.2.2.1, h.2.2.2.1, ver_weaken k d hc h.2.2.2.2⟩
  | .clearWatches k, d, hc, h => ⟨h.1, ver_weaken k d hc h.2⟩
  | .setWatchState _ _ k, d, hc, h => ⟨h.1, ver_weaken k d hc h.2⟩
  | .setState _ _ k, d, hc, h => ⟨h.1, ver_weaken k d hc h.2⟩
  | .setMem _ _, _, _, h => h.elim

/-! ## Rules -/

/-- Sequencing. What comes after may use that the domains are proper, and have only shrunk. -/
theorem ver_bind {T : β → Prop} {P : β → Doms → Prop} {f : α → Prog σ μ β} (hs : ∀ v, S v → (f v).Halts J.R T) : ∀ (p : Prog σ μ α) (d : Doms), DomsOK d → d.length = J.n →
    p.Ver J S (fun v d' => DomsOK d' → d'.length = J.n → (∀ a, Within d' a → Within d a) → (f v).Ver J T P d') d → (p.bind f).Ver J T P d
  | .ret _, _, h1, h2, h => h h1 h2 fun _ h => h
  | .raise _, _, _, _, h => h
  | .fail, _, _, _, h => h
  | .read k, d, h1, h2, h => fun s e => ver_bind hs (k s) d h1 h2 (h s e)
  | .infer _ _ k, d, _, _, h => ⟨h.1, h.2.1, fun d' h1 h2 h3 => ver_bind hs (k true) d' h1 h2 (ver_mono (fun _ _ hq k1 k2 k3 => hq k1 k2 fun a ha => ((h3 a).1 (k3 a ha)).1) _ _ (h.2.2.1 d' h1 h2 h3)),
      fun ho => (h.2.2.2 ho).bind hs⟩
  | .progress k, d, h1, h2, h => fun b => ver_bind hs (k b) d h1 h2 (h b)
  | .watch _ _ k, d, h1, h2, h => ⟨h.1, h.2.1, h.2.2.1, h.2.2.2.1, ver_bind hs k d h1 h2 h.2.2.2.2⟩
  | .clearWatches k, d, h1, h2, h => ⟨h.1, ver_bind hs k d h1 h2 h.2⟩
  | .setWatchState _ _ k, d, h1, h2, h => ⟨h.1, ver_bind hs k d h1 h2 h.2⟩
  | .setState _ _ k, d, h1, h2, h => ⟨h.1, ver_bind hs k d h1 h2 h.2⟩
  | .setMem _ _, _, _, _, h => h.elim

/-- A function without `infer_*_or_stop` may be used anywhere. -/
theorem ver_plain {T : α → Prop} : ∀ (p : Prog σ μ α) (d : Doms), p.Ver J (fun _ => False) Q d → p.Ver J T Q d := by
  intro p d h
  have halts : ∀ {q : Prog σ μ α}, q.Halts J.R (fun _ => False) → q.Halts J.R T := by
    intro q hq
    induction q with
    | ret v => exact hq.elim
    | raise e => exact hq
    | fail => trivial
    | read k ih => exact fun s => ih s (hq s)
    | infer _ _ _ _ => exact hq
    | progress k ih => exact fun b => ih b (hq b)
    | watch _ _ _ _ => exact hq
    | clearWatches _ _ => exact hq
    | setWatchState _ _ _ _ => exact hq
    | setState _ _ _ _ => exact hq
    | setMem _ _ _ => exact hq
  induction p generalizing d with
  | ret v => exact h
  | raise e => exact h
  | fail => exact h
  | read k ih => exact fun s e => ih s d (h s e)
  | infer l o k ih => exact ⟨h.1, h.2.1, fun d' h1 h2 h3 => ih true d' (h.2.2.1 d' h1 h2 h3), fun ho => halts (h.2.2.2 ho)⟩
  | progress k ih => exact fun b => ih b d (h b)
  | watch _ _ k ih => exact ⟨h.1, h.2.1, h.2.2.1, h.2.2.2.1, ih d h.2.2.2.2⟩
  | clearWatches k ih => exact ⟨h.1, ih d h.2⟩
  | setWatchState _ _ k ih => exact ⟨h.1, ih d h.2⟩
  | setState _ _ k ih => exact ⟨h.1, ih d h.2⟩
  | setMem _ _ _ => exact h.elim

theorem ver_ask {T : β → Prop} {Q : β → Doms → Prop} {f : Doms → Chk α} {k : α → Prog σ μ β} {d : Doms} {P : α → Prop} (ho : J.R .overflow) (h : RightOrOverflow (f d) P)
    (hk : ∀ v, P v → (k v).Ver J T Q d) : ((Prog.ask f).bind k).Ver J T Q d := by
  rintro s rfl
  rcases h with h | ⟨v, h, hv⟩
  · simp only [h, Prog.bind]; exact ho
  · simp only [h, Prog.bind]; exact hk v hv

/-- The answer, or one of the errors allowed. -/
theorem ver_ask' {T : β → Prop} {Q : β → Doms → Prop} {f : Doms → Chk α} {k : α → Prog σ μ β} {d : Doms} (h : ∀ e, f d = .error e → J.R e)
    (hk : ∀ v, f d = .ok v → (k v).Ver J T Q d) : ((Prog.ask f).bind k).Ver J T Q d := by
  rintro s rfl
  cases e : f s.doms with
  | error e' => simp only [e, Prog.bind]; exact h _ e
  | ok v => simp only [e, Prog.bind]; exact hk v e

/-! ## Fixed variables -/

/-- All assignments within the domains give `x` the same value. -/
def Known (d : Doms) (x : VarId) : Prop := ∀ a b, Within d a → Within d b → x.eval a = x.eval b

theorem Known.of_fixed {d : Doms} {x : VarId} (h : ∀ v, x.underlyingIndex = some v → Fixed d v) : Known d x := by
  intro a b ha hb
  have key : ∀ i, x.underlyingIndex = some i → a i = b i := by
    intro i hi
    obtain ⟨s, hs, w, hw⟩ := h i hi
    rw [(hw _).1 (ha i s hs), (hw _).1 (hb i s hs)]
  cases x with
  | const c => rfl
  | simple i => exact key i rfl
  | view i ng k => simp only [VarId.eval]; rw [key i rfl]

theorem known_all {d : Doms} {xs : List VarId} (h : ∀ v ∈ xs.filterMap VarId.underlyingIndex, Fixed d v) : ∀ x ∈ xs, Known d x :=
  fun x hx => .of_fixed fun v hv => h v (List.mem_filterMap.2 ⟨x, hx, hv⟩)

/-- Shrinking keeps a variable known. -/
theorem Known.sub {d d' : Doms} {x : VarId} (h : Known d x) (hs : ∀ a, Within d' a → Within d a) : Known d' x := fun a b ha hb => h a b (hs a ha) (hs b hb)

/-- It is enough to look at known variables. -/
theorem Enforced.intro {C : Asg → Prop} {xs : List VarId} {d d' : Doms} {ps : PState} (h1 : (∀ x ∈ xs, Known d x) → ∀ a, Within d' a → C a)
    (h2 : ps = .enableButIdempotent → (∀ x ∈ xs, Known d' x) → ∀ a, Within d' a → C a) (h3 : ps = .disableUntilBacktrack → ∀ a, Within d' a → C a) :
    Enforced C (xs.filterMap VarId.underlyingIndex) d ps d' :=
  ⟨fun h => h1 (known_all h), fun e h => h2 e (known_all h), h3⟩

theorem Enforced.when {D : Prop} {C : Asg → Prop} {vs : List Nat} {d d' : Doms} {ps : PState} (h : Enforced C vs d ps d') : EnforcedIf D C vs d ps d' := ⟨h.1, fun _ => h.2.1, h.2.2⟩

theorem IsMin.le {d : Doms} {x : VarId} {l : Int} (h : IsMin (Poss d x) l) {a : Asg} (ha : Within d a) : l ≤ x.eval a := h.2 _ (ha.poss x)
theorem IsMax.ge {d : Doms} {x : VarId} {u : Int} (h : IsMax (Poss d x) u) {a : Asg} (ha : Within d a) : x.eval a ≤ u := h.2 _ (ha.poss x)
theorem IsMin.eq {d : Doms} {x : VarId} {l : Int} (h : IsMin (Poss d x) l) (hs : Known d x) {a : Asg} (ha : Within d a) : l = x.eval a := by
  obtain ⟨b, hb, e⟩ := h.1
  rw [← e]; exact hs b a hb ha
theorem IsMax.eq {d : Doms} {x : VarId} {u : Int} (h : IsMax (Poss d x) u) (hs : Known d x) {a : Asg} (ha : Within d a) : u = x.eval a := by
  obtain ⟨b, hb, e⟩ := h.1
  rw [← e]; exact hs b a hb ha

/-! ## What the engine asks for -/

section
variable {n m : Nat} {R : Err → Prop} {C c : Asg → Prop} {root : Doms} {f : Prog σ μ PState} {t : Triggers} {xs : List VarId} {own : Nat → Prop}

theorem Implements.safe (h : Implements n m R root f t C c xs own) : f.Safe n m R := fun d h1 h2 => Ver.okAt f d (h.ver d h1 h2)

theorem Implements.truthful (h : Implements n m R root f t C c xs own) {a : Asg} (hr : Within root a) (ha : C a) : f.Truthful n a :=
  fun d h1 h2 hw => Ver.soundAt (J := { n, m, R, C := fun a => Within root a ∧ C a, own }) ⟨hr, ha⟩ f d (h.ver d h1 h2) hw

theorem Implements.checks (h : Implements n m R root f t C c xs own) : Checks n f t (fun a => Within root a → c a) (xs.filterMap VarId.underlyingIndex) where
  wakes := by
    intro v hv
    obtain ⟨x, hx, e⟩ := List.mem_filterMap.1 hv
    exact h.wakes x hx v e
  checks := fun d h1 h2 => Ver.wp f d (h.ver d h1 h2)

theorem Implements.armsOpen (h : Implements n m R root f t C c xs own) (d : Doms) (h1 : DomsOK d) (h2 : d.length = n) : f.ArmsOpen n d := Ver.arms f d (h.ver d h1 h2)

theorem Implements.spares (h : Implements n m R root f t C c xs own) (cell : Cell μ NogoodMem) : Spares n m cell f :=
  fun _ _ _ _ hs e => congrArg cell.get (Ver.mem f _ (h.ver _ hs.domsOK hs.domsLen) hs e)

end
end
end Gcs
