import Verif.Lemmas.Card
import Verif.Lemmas.Cons.Loops

/-!
# Loops that go on until nothing changes
-/

namespace Gcs
open IntervalSet

theorem sum_le_of_le : ∀ (l' l : List Nat), l'.length = l.length → (∀ (i x y : Nat), l'[i]? = some x → l[i]? = some y → x ≤ y) → l'.sum ≤ l.sum
  | [], [], _, _ => Nat.le_refl _
  | [], _ :: _, h, _ => by simp at h
  | _ :: _, [], h, _ => by simp at h
  | x :: l', y :: l, h, hle => by
    have h0 := hle 0 x y rfl rfl
    have := sum_le_of_le l' l (by simpa using h) fun i a b ha hb => hle (i + 1) a b (by simpa using ha) (by simpa using hb)
    simp only [List.sum_cons]; omega

theorem sum_lt_of_lt : ∀ (l' l : List Nat), l'.length = l.length → (∀ (i x y : Nat), l'[i]? = some x → l[i]? = some y → x ≤ y) → ∀ (i x y : Nat), l'[i]? = some x → l[i]? = some y → x < y → l'.sum < l.sum
  | [], _, _, _, i, x, y, h, _, _ => by simp at h
  | _ :: _, [], h, _, _, _, _, _, _, _ => by simp at h
  | a :: l', b :: l, h, hle, i, x, y, h1, h2, h3 => by
    have h0 := hle 0 a b rfl rfl
    have hle' : ∀ (i x y : Nat), l'[i]? = some x → l[i]? = some y → x ≤ y := fun i a b ha hb => hle (i + 1) a b (by simpa using ha) (by simpa using hb)
    have hlen : l'.length = l.length := by simpa using h
    cases i with
    | zero =>
      have := sum_le_of_le l' l hlen hle'
      simp only [List.getElem?_cons_zero, Option.some.injEq] at h1 h2
      simp only [List.sum_cons]; omega
    | succ i =>
      have := sum_lt_of_lt l' l hlen hle' i x y (by simpa using h1) (by simpa using h2) h3
      simp only [List.sum_cons]; omega

theorem mem_of_sub {d d' : Doms} (hd' : DomsOK d') (hlen : d'.length = d.length) (hs : ∀ a, Within d' a → Within d a) {i : Nat} {s s' : IntervalSet} (h1 : d[i]? = some s) (h2 : d'[i]? = some s') {x : Int}
    (hx : Mem x s') : Mem x s := by
  obtain ⟨a, ha⟩ := exists_within hd'
  have := hs (fun j => if j = i then x else a j) (fun j t ht => by
    by_cases h : j = i
    · subst h; rw [h2] at ht; cases ht; simpa using hx
    · simpa [h] using ha j t ht)
  simpa using this i s h1

/-- Domains that get smaller have fewer values. -/
theorem card_lt_of_sub {d d' : Doms} (hd : DomsOK d) (hd' : DomsOK d') (hlen : d'.length = d.length) (hs : ∀ a, Within d' a → Within d a) (hne : d' ≠ d) : d'.card < d.card := by
  have sub := fun {i s s'} h1 h2 => @mem_of_sub d d' hd' hlen hs i s s' h1 h2
  have : ∃ (i : Nat) (s s' : IntervalSet), d[i]? = some s ∧ d'[i]? = some s' ∧ s' ≠ s := by
    apply Classical.byContradiction
    intro hn
    apply hne
    apply List.ext_getElem?
    intro i
    by_cases hi : i < d.length
    · have e1 : d[i]? = some d[i] := List.getElem?_eq_getElem hi
      have e2 : d'[i]? = some d'[i] := List.getElem?_eq_getElem (hlen ▸ hi)
      rw [e1, e2]
      apply Classical.byContradiction
      intro h
      exact hn ⟨i, _, _, e1, e2, fun e => h (by rw [e])⟩
    · rw [List.getElem?_eq_none (by omega), List.getElem?_eq_none (by omega)]
  obtain ⟨i, s, s', h1, h2, h3⟩ := this
  have ws := (hd s (List.mem_of_getElem? h1)).wf
  have ws' := (hd' s' (List.mem_of_getElem? h2)).wf
  obtain ⟨y, hy, hy'⟩ : ∃ y, Mem y s ∧ ¬ Mem y s' := by
    apply Classical.byContradiction
    intro hn
    apply h3
    refine IntervalSet.ext ws' ws fun x => ⟨fun hx => sub h1 h2 hx, fun hx => ?_⟩
    apply Classical.byContradiction
    intro hx'
    exact hn ⟨x, hx, hx'⟩
  have hlt := card_lt ws' (fun x hx => sub h1 h2 hx) hy hy'
  refine sum_lt_of_lt _ _ (by simpa using hlen) (fun j x y hx hy => ?_) i s'.card s.card (by rw [List.getElem?_map, h2]; rfl) (by rw [List.getElem?_map, h1]; rfl) hlt
  rw [List.getElem?_map] at hx hy
  cases e1 : d'[j]? with
  | none => rw [e1] at hx; cases hx
  | some t' =>
    cases e2 : d[j]? with
    | none => rw [e2] at hy; cases hy
    | some t =>
      rw [e1] at hx; rw [e2] at hy
      cases hx; cases hy
      by_cases h : t' = t
      · rw [h]; exact Nat.le_refl _
      · have := length_le_of_subset (vals t') (vals t) (vals_nodup _ (hd' t' (List.mem_of_getElem? e1)).wf) fun x hx => (mem_vals x t).2 (sub e2 e1 ((mem_vals x t').1 hx))
        rwa [length_vals, length_vals] at this

section
variable {σ μ α β : Type} {J : Job}

theorem evolve_nil {d d' : Doms} (h : Evolve d [] d') : d' = d := by
  generalize hc : ([] : List (Nat × Inference)) = cs at h
  cases h with
  | refl => rfl
  | snoc => simp at hc

/-- Inferences are counted exactly if a domain changes. -/
theorem count_iff_changed {s s' : Sys σ μ} {cs : List (Nat × Inference)} (h : Ran s cs s') : s'.tr.inferences.length = s.tr.inferences.length ↔ s'.doms = s.doms := by
  rw [h.inferences, List.length_append]
  constructor
  · intro e
    have : cs = [] := List.length_eq_zero_iff.1 (by omega)
    exact evolve_nil (this ▸ h.evolve)
  · intro e
    have := h.evolve.card
    rw [e] at this
    omega

/-- No use of `made_progress_since_last_check()`. -/
def Prog.NoCheck : Prog σ μ α → Prop
  | .ret _ => True
  | .raise _ => True
  | .fail => True
  | .read k => ∀ s, (k s).NoCheck
  | .infer _ _ k => ∀ b, (k b).NoCheck
  | .progress _ => False
  | .watch _ _ k => k.NoCheck
  | .clearWatches k => k.NoCheck
  | .setWatchState _ _ k => k.NoCheck
  | .setState _ _ k => k.NoCheck
  | .setMem _ k => k.NoCheck

theorem bind_noCheck {f : α → Prog σ μ β} (hf : ∀ v, (f v).NoCheck) : ∀ p : Prog σ μ α, p.NoCheck → (p.bind f).NoCheck
  | .ret v, _ => hf v
  | .raise _, _ => trivial
  | .fail, _ => trivial
  | .read k, h => fun s => bind_noCheck hf (k s) (h s)
  | .infer _ _ k, h => fun b => bind_noCheck hf (k b) (h b)
  | .progress _, h => h.elim
  | .watch _ _ k, h => bind_noCheck hf k h
  | .clearWatches k, h => bind_noCheck hf k h
  | .setWatchState _ _ k, h => bind_noCheck hf k h
  | .setState _ _ k, h => bind_noCheck hf k h
  | .setMem _ k, h => bind_noCheck hf k h

/-- What `made_progress_since_last_check()` says: whether there were inferences since the last call, or since the start of the run. -/
theorem run_progress {S : α → Prop} {Q : α → Doms → Prop} {c : Ctx} {r : Res α} {s' : Sys σ μ} : ∀ (p : Prog σ μ α) (s : Sys σ μ), p.Ver J S Q s.doms → p.NoCheck → Runnable J.n J.m s →
    runProg c p s = .ok (r, s') → ¬ Failed r s' → ∃ cs, Evolve s.doms cs s'.doms ∧ s'.tr.madeProgress = (s.tr.madeProgress || !cs.isEmpty)
  | .ret v, s, _, _, hs, e, _ => by cases e; exact ⟨[], .refl _ hs.domsOK, by simp⟩
  | .raise _, s, _, _, _, e, _ => by cases e
  | .fail, s, _, _, _, e, hf => by cases e; exact absurd (.inl rfl) hf
  | .read k, s, h, hn, hs, e, hf => run_progress (k s) s (h s rfl) (hn s) hs e hf
  | .infer l o k, s, h, hn, hs, e, hf => by
    obtain ⟨s1, cs, e1, h1, hr, hw, _, _, _, _, hp⟩ := run_infer (np := c.owner + 1) (R := J.R) c (Nat.lt_succ_self _) h.1 (fun ho => (h.2.2.2 ho).stops) hs e hf
    obtain ⟨ds, k1, k2⟩ := run_progress (k true) s1 (h.2.2.1 s1.doms h1.domsOK h1.domsLen hw) (hn true) h1 e1 hf
    refine ⟨cs ++ ds, hr.evolve.trans k1, ?_⟩
    rw [k2, hp]
    cases cs <;> cases ds <;> simp
  | .progress _, _, _, hn, _, _, _ => hn.elim
  | .watch l x k, s, h, hn, hs, e, hf => run_progress k { s with w := s.w.register c.owner l x true } h.2.2.2.2 hn ⟨hs.1, hs.2, hs.3, hs.4, hs.5⟩ e hf
  | .clearWatches k, s, h, hn, hs, e, hf => by
    simp only [runProg] at e
    cases ew : s.w.clear c.owner c.scope with
    | error x => rw [ew] at e; cases e
    | ok w => rw [ew] at e; exact run_progress k { s with w := w } h.2 hn ⟨hs.1, hs.2, hs.3, hs.4, hs.5⟩ e hf
  | .setWatchState x y k, s, h, hn, hs, e, hf => run_progress k { s with w := s.w.stateSet c.owner x y } h.2 hn ⟨hs.1, hs.2, hs.3, hs.4, hs.5⟩ e hf
  | .setState x y k, s, h, hn, hs, e, hf => by
    simp only [runProg] at e
    cases ew : s.st.setConstraintState x y with
    | error z => rw [ew] at e; cases e
    | ok st =>
      rw [ew] at e
      obtain ⟨st', e', h1, _⟩ := setState_spec (n := J.n) (np := c.owner + 1) (s := s) y (by rw [hs.cstatesLen]; exact h.1.1)
      rw [ew] at e'
      cases e'
      have hv : st.vars = s.st.vars := by
        unfold State.setConstraintState at ew
        split at ew
        · cases ew
        · split at ew <;> cases ew; rfl
      have hd : (⟨st, s.tr, s.w, s.q, s.claims, s.toDisable, s.total, s.effectful, s.contradicting, s.conflicts, s.mem, s.clock, s.trace⟩ : Sys σ μ).doms = s.doms := by
        unfold Sys.doms; rw [hv]
      have := run_progress k { s with st := st } (by rw [hd]; exact h.2) hn ⟨by rw [hd]; exact hs.domsOK, by rw [hd]; exact hs.domsLen, by show st.vars ≠ []; rw [hv]; exact hs.varsNe,
        h1.cstatesLen.trans hs.cstatesLen, hs.fine⟩ e hf
      rwa [hd] at this
  | .setMem _ _, _, h, _, _, _, _ => h.elim

/-- If the flag was clear, it is set exactly if a domain has changed. -/
theorem progress_iff_changed {S : α → Prop} {Q : α → Doms → Prop} {c : Ctx} {r : Res α} {s s' : Sys σ μ} {p : Prog σ μ α} (h : p.Ver J S Q s.doms) (hn : p.NoCheck) (hs : Runnable J.n J.m s)
    (e : runProg c p s = .ok (r, s')) (hf : ¬ Failed r s') (h0 : s.tr.madeProgress = false) : s'.tr.madeProgress = true ↔ s'.doms ≠ s.doms := by
  obtain ⟨cs, h1, h2⟩ := run_progress p s h hn hs e hf
  rw [h2, h0, Bool.false_or]
  cases cs with
  | nil => simp [evolve_nil h1]
  | cons x xs =>
    have := h1.card
    simp only [List.isEmpty_cons, Bool.not_false, true_iff]
    intro e
    rw [e] at this
    simp only [List.length_cons] at this
    omega

theorem ver_onlyIf {c : Prop} [Decidable c] {p : Prog σ μ Unit} {T : Unit → Prop} {Q : Unit → Doms → Prop} {d : Doms} (h1 : c → p.Ver J T Q d) (h2 : ¬ c → Q () d) : (Prog.onlyIf c p).Ver J T Q d := by
  unfold Prog.onlyIf
  split
  · exact h1 ‹_›
  · exact h2 ‹_›

/-- A loop that goes on until nothing changes does come to an end, and then a round has changed nothing. -/
theorem ver_untilQuiet {body : Prog σ μ Unit} (I Q : Doms → Prop)
    (step : ∀ d, DomsOK d → d.length = J.n → I d → body.Ver J (fun _ => False) (fun _ d' => I d' ∧ (d' = d → Q d)) d) {d : Doms} (hd : DomsOK d) (hl : d.length = J.n) (h : I d) :
    (Prog.untilQuiet body).Ver J (fun _ => False) (fun _ d' => I d' ∧ Q d') d := by
  rintro s rfl
  have key : ∀ (k : Nat) (d : Doms), DomsOK d → d.length = J.n → I d → d.card < k → (Prog.untilQuietLoop body k).Ver J (fun _ => False) (fun _ d' => I d' ∧ Q d') d := by
    intro k
    induction k with
    | zero => intro d _ _ _ h; omega
    | succ k ih =>
      intro d hd hl hi hk
      rintro s rfl
      refine ver_bind (fun _ h => h.elim) _ _ hd hl (ver_mono (fun _ d' hq k1 k2 k3 => ?_) _ _ (step _ hd hl hi))
      rintro s' rfl
      dsimp only
      split
      · rename_i e; rw [e] at hq ⊢; exact ⟨hi, hq.2 rfl⟩
      · rename_i e
        exact ih _ k1 k2 hq.1 (by have := card_lt_of_sub hd k1 (k2.trans hl.symm) k3 e; omega)
  exact key _ _ hd hl h (Nat.lt_succ_self _)

theorem le_roo {v : VarId} {x : Int} (hx : InI64 x) : RightOrOverflow (Cond.le v x) (fun c => c = Cond.lt v (x + 1) ∧ InI64 (x + 1)) := by
  unfold Cond.le
  refine (add_roo hx (by decide)).bind fun r hr => .pure ⟨?_, hr.1 ▸ hr.2⟩
  rw [hr.1]; rfl

theorem gt_roo {v : VarId} {x : Int} (hx : InI64 x) : RightOrOverflow (Cond.gt v x) (fun c => c = Cond.ge v (x + 1) ∧ InI64 (x + 1)) := by
  unfold Cond.gt
  refine (add_roo hx (by decide)).bind fun r hr => .pure ⟨?_, hr.1 ▸ hr.2⟩
  rw [hr.1]; rfl

variable {T : β → Prop} {Q : β → Doms → Prop} {d : Doms}

/-- `infer_greater_than_or_equal` with a computed value. -/
theorem ver_tell_ge {v : VarId} {x : Chk Int} {y : Int} {k : Unit → Prog σ μ β} (ho : J.R .overflow) (hv : v.Valid J.n) (hx : RightOrOverflow x (fun r => r = y ∧ InI64 r)) (hs : ∀ a, Within d a → J.C a → y ≤ v.eval a)
    (hk : ∀ d', DomsOK d' → d'.length = J.n → (∀ b, Within d' b ↔ Within d b ∧ y ≤ v.eval b) → (k ()).Ver J T Q d') :
    ((Prog.lift x).bind fun r => (Prog.tell (.cond (Cond.ge v r))).bind k).Ver J T Q d :=
  ver_lift ho hx fun r hr => by obtain ⟨rfl, hi⟩ := hr; exact ver_tell (.ge hv hi) hs hk

/-- `infer_less_than(..., x + 1)` with a computed value. -/
theorem ver_tell_le {v : VarId} {x : Chk Int} {y : Int} {k : Unit → Prog σ μ β} (ho : J.R .overflow) (hv : v.Valid J.n) (hx : RightOrOverflow x (fun r => r = y ∧ InI64 r)) (hs : ∀ a, Within d a → J.C a → v.eval a ≤ y)
    (hk : ∀ d', DomsOK d' → d'.length = J.n → (∀ b, Within d' b ↔ Within d b ∧ v.eval b ≤ y) → (k ()).Ver J T Q d') :
    ((Prog.lift (x >>= Cond.le v)).bind fun r => (Prog.tell (.cond r)).bind k).Ver J T Q d := by
  refine ver_lift (P := fun c => c = Cond.lt v (y + 1) ∧ InI64 (y + 1)) ho (hx.bind fun r hr => ?_) fun c hc => ?_
  · have := le_roo (v := v) hr.2; rw [hr.1] at this ⊢; exact this
  · rw [hc.1]
    refine ver_tell (.lt hv hc.2) (fun a h1 h2 => Int.lt_add_one_of_le (hs a h1 h2)) fun d' h1 h2 h3 => hk d' h1 h2 fun b => ?_
    rw [h3 b, Lit.holds_lt, Int.lt_add_one_iff]

end
end Gcs
