import Verif.Model.Cons.Stages
import Verif.Lemmas.Cons.LinearConsistent
import Verif.Lemmas.Cons.Quiet

/-!
Linear pieces of compound constraints: they lose nothing, and a piece whose condition holds has done its work once all its variables but one are known.
-/

namespace Gcs
open IntervalSet

section
variable {σ μ α : Type} {J : Job} {S : α → Prop} {Q : α → Doms → Prop}

theorem halts_true {R : Err → Prop} {p : Prog σ μ α} (h : p.Halts R S) : (p.bind fun _ => (.ret true : Prog σ μ Bool)).Halts R (· = true) := Prog.Halts.bind (T := (· = true)) (f := fun _ => .ret true) (fun _ _ => rfl) h

theorem ver_contradicts : ∀ (p : Prog σ μ α) (d : Doms), p.Ver J S Q d → p.contradicts.Ver J (· = true) (fun b d' => b = false ∧ ∃ v, Q v d') d
  | .ret v, _, h => ⟨rfl, v, h⟩
  | .raise _, _, h => h
  | .fail, _, h => h
  | .read k, d, h => fun s hs => ver_contradicts (k s) d (h s hs)
  | .infer _ _ k, _, h => ⟨h.1, h.2.1, fun d' h1 h2 h3 => ver_contradicts (k true) d' (h.2.2.1 d' h1 h2 h3), fun e => halts_true (h.2.2.2 e)⟩
  | .progress k, d, h => fun b => ver_contradicts (k b) d (h b)
  | .watch _ _ k, d, h => ⟨h.1, h.2.1, h.2.2.1, h.2.2.2.1, ver_contradicts k d h.2.2.2.2⟩
  | .clearWatches k, d, h => ⟨h.1, ver_contradicts k d h.2⟩
  | .setWatchState _ _ k, d, h => ⟨h.1, ver_contradicts k d h.2⟩
  | .setState _ _ k, d, h => ⟨h.1, ver_contradicts k d h.2⟩
  | .setMem _ _, _, h => h

/-- Going on unless there was a contradiction. -/
theorem ver_unless {β : Type} {T : β → Prop} {Q' : β → Doms → Prop} {P : Doms → Prop} {p : Prog σ μ Bool} {r : β} {q : Prog σ μ β} {d : Doms} (hd : DomsOK d) (hl : d.length = J.n)
    (hp : p.Ver J (· = true) (fun b d' => b = false ∧ P d') d) (hr : T r) (hq : ∀ d', DomsOK d' → d'.length = J.n → (∀ a, Within d' a → Within d a) → P d' → q.Ver J T Q' d') :
    (p.bind fun b => if b = true then .ret r else q).Ver J T Q' d := by
  refine ver_bind ?_ p d hd hl (ver_mono (fun b d' h k1 k2 k3 => ?_) _ _ hp)
  · rintro _ rfl; exact hr
  · rw [h.1]; exact hq d' k1 k2 k3 h.2

theorem ver_untilQuietOr {body : Prog σ μ Bool} (I P : Doms → Prop)
    (step : ∀ d, DomsOK d → d.length = J.n → I d → body.Ver J (· = true) (fun b d' => b = false ∧ I d' ∧ (d' = d → P d)) d) {d : Doms} (hd : DomsOK d) (hl : d.length = J.n) (h : I d) :
    (Prog.untilQuietOr body).Ver J (fun _ => True) (fun ps d' => ps = .enableButIdempotent ∧ I d' ∧ P d') d := by
  rintro s rfl
  have key : ∀ (k : Nat) (d : Doms), DomsOK d → d.length = J.n → I d → d.card < k → (Prog.untilQuietOrLoop body k).Ver J (fun _ => True) (fun ps d' => ps = .enableButIdempotent ∧ I d' ∧ P d') d := by
    intro k
    induction k with
    | zero => intro d _ _ _ h; omega
    | succ k ih =>
      intro d hd hl hi hk
      rintro s rfl
      refine ver_unless hd hl (step _ hd hl hi) trivial fun d' k1 k2 k3 hq => ?_
      rintro s' rfl
      dsimp only
      split
      · rename_i e; rw [e] at hq ⊢; exact ⟨rfl, hi, hq.2 rfl⟩
      · rename_i e
        exact ih _ k1 k2 hq.1 (by have := card_lt_of_sub hd k1 (k2.trans hl.symm) k3 e; omega)
  exact key _ _ hd hl h (Nat.lt_succ_self _)

end

namespace Stages
open Linear

/-- What the sum has to satisfy. -/
def Stage.Rel (s : Stage) (a : Asg) : Prop := tsum s.terms a ≤ s.value ∧ (s.equality = true → tsum s.terms a = s.value)

/-- What a stage says. -/
def Stage.Holds (s : Stage) (a : Asg) : Prop := (∀ g, s.gate = some g → g.holds a) → s.Rel a

/-- A condition whose test is implemented. -/
def GateOK (n : Nat) (g : Cond) : Prop := (Lit.cond g).Valid n ∧ (g.op = .greaterEqual ∨ g.op = .less ∨ g.op = .equal)

structure Stage.OK (n : Nat) (s : Stage) : Prop where
  tidy : Tidy n s.terms
  value : InI64 s.value
  gate : ∀ g, s.gate = some g → GateOK n g
  nonempty : s.equality = true → s.terms = [] → s.value ≤ 0

/-- A stage has done its work: if its condition was known to hold and all variables, or all but one for an inequality, were known. -/
def Stage.Done (s : Stage) (d d' : Doms) : Prop := (∀ g, s.gate = some g → ∀ a, Within d a → g.holds a) → ∀ w, (∀ t ∈ s.terms, s.equality = true ∨ t.var ≠ w → Known d (.simple t.var)) → ∀ a, Within d' a → s.Rel a

theorem Stage.Done.mono {s : Stage} {d d1 d2 d' : Doms} (h : s.Done d1 d2) (h1 : ∀ a, Within d1 a → Within d a) (h2 : ∀ a, Within d' a → Within d2 a) : s.Done d d' :=
  fun hg w hk a ha => h (fun g e a ha => hg g e a (h1 a ha)) w (fun t ht hw => (hk t ht hw).sub h1) a (h2 a ha)

section
variable {σ μ : Type} {n m : Nat} {R : Err → Prop} {C : Asg → Prop} {d : Doms} {s : Stage}

theorem gateHolds_roo {g : Cond} (hd : DomsOK d) (hl : d.length = n) (h : GateOK n g) : RightOrOverflow (gateHolds d g) (fun b => b = true ↔ ∀ a, Within d a → g.holds a) := by
  obtain ⟨v, op, x, u⟩ := g
  obtain ⟨⟨h1, -, -⟩, h3⟩ := h
  dsimp only at h1 h3
  subst hl
  rcases h3 with rfl | rfl | rfl
  · refine (lower_roo hd h1).bind fun l hl => .pure ?_
    rw [decide_eq_true_iff]
    refine ⟨fun h a ha => Int.le_trans h (hl.2.le ha), fun h => ?_⟩
    obtain ⟨a, ha, e⟩ := hl.2.1
    have : x ≤ v.eval a := h a ha
    dsimp only; omega
  · refine (upper_roo hd h1).bind fun l hl => .pure ?_
    rw [decide_eq_true_iff]
    refine ⟨fun h a ha => Int.lt_of_le_of_lt (hl.2.ge ha) h, fun h => ?_⟩
    obtain ⟨a, ha, e⟩ := hl.2.1
    have : v.eval a < x := h a ha
    dsimp only; omega
  · refine (lower_roo hd h1).bind fun l hl => ?_
    obtain ⟨a, ha, e⟩ := hl.2.1
    dsimp only
    split
    · refine (upper_roo hd h1).bind fun u hu => .pure ?_
      rw [decide_eq_true_iff]
      refine ⟨fun h b hb => ?_, fun h => ?_⟩
      · show v.eval b = x
        have := hl.2.le hb
        have := hu.2.ge hb
        omega
      · obtain ⟨b, hb, e'⟩ := hu.2.1
        have : v.eval b = x := h b hb
        omega
    · rename_i hne
      refine .pure ⟨(fun h => nomatch h), fun h => absurd ?_ hne⟩
      have : v.eval a = x := h a ha
      omega

theorem fixed_of_known {i : Nat} (hd : DomsOK d) (hi : i < d.length) (h : Known d (.simple i)) : Fixed d i := by
  obtain ⟨a, ha⟩ := exists_within hd
  refine ⟨d[i], List.getElem?_eq_getElem hi, a i, fun x => ⟨fun hx => ?_, fun e => e ▸ ha i _ (List.getElem?_eq_getElem hi)⟩⟩
  obtain ⟨b, hb, rfl⟩ := exists_within_at hd (List.getElem?_eq_getElem hi) hx
  exact h b a hb ha

theorem tsum_known {ts : List Term} {w : Nat} {a b : Asg} (hk : ∀ t ∈ ts, t.var ≠ w → a t.var = b t.var) (hw : a w = b w) : tsum ts a = tsum ts b := by
  induction ts with
  | nil => rfl
  | cons t ts ih =>
    rw [tsum_cons, tsum_cons, ih fun u hu => hk u (by simp [hu])]
    by_cases e : t.var = w
    · rw [e, hw]
    · rw [hk t (by simp) e]

theorem propagate_ver (ho : R .overflow) (h : s.OK n) (hC : ∀ a, Within d a → C a → s.Rel a) (hd : DomsOK d) (hl : d.length = n) :
    (propagate (σ := σ) (μ := μ) s.equality s.terms s.value).contradicts.Ver { n, m, R, C } (· = true)
      (fun b d' => b = false ∧ ∀ w, (∀ t ∈ s.terms, s.equality = true ∨ t.var ≠ w → Known d (.simple t.var)) → ∀ a, Within d' a → s.Rel a) d := by
  obtain ⟨ts, value, eq, gate⟩ := s
  cases eq with
  | true =>
    refine ver_mono (fun b d' hq => ⟨hq.1, fun w hk a ha => ?_⟩) _ _ (ver_contradicts _ _ (ver_weaken (J := { n, m, R, C := fun a => Within d a ∧ tsum ts a = value }) _ _ (fun a ha hc => ⟨ha, (hC a ha hc).2 rfl⟩)
      (ver_facts _ _ hd hl (propagate_eq (m := m) (root := d) ho h.value h.tidy (h.nonempty rfl) d hd hl))))
    obtain ⟨_, _, hv, hq⟩ := hq
    have : tsum ts a = value := hq.1 (fun v hv' => ?_) a ha (hv.2.2 a ha)
    · exact ⟨by dsimp only; omega, fun _ => this⟩
    · simp only [scope, List.filterMap_map, List.mem_filterMap] at hv'
      obtain ⟨t, ht, e⟩ := hv'
      cases e
      exact fixed_of_known hd (hl.symm ▸ h.tidy.var t ht) (hk t ht (.inl rfl))
  | false =>
    refine ver_mono (fun b d' hq => ⟨hq.1, fun w hk a ha => ?_⟩) _ _ (ver_contradicts _ _ (ver_weaken (J := { n, m, R, C := fun a => Within d a ∧ tsum ts a ≤ value }) _ _ (fun a ha hc => ⟨ha, (hC a ha hc).1⟩)
      (ver_facts _ _ hd hl (propagate_consistent (J := { n, m, R, C := fun a => Within d a ∧ tsum ts a ≤ value }) ho h.value h.tidy (fun a hc => hc.2) hd hl))))
    obtain ⟨_, _, hv, hq⟩ := hq
    obtain ⟨b, h1, h2, h3⟩ := hq w (a w) ⟨a, ha, rfl⟩
    refine ⟨?_, fun e => nomatch e⟩
    dsimp only at h3 ⊢
    rw [tsum_known (w := w) (b := b) (fun t ht hw => hk t ht (.inr hw) a b (hv.2.2 a ha) (hv.2.2 b h1)) h2.symm]
    exact h3

theorem one_ver (ho : R .overflow) (h : s.OK n) (hC : ∀ a, C a → s.Holds a) (hd : DomsOK d) (hl : d.length = n) :
    (one (σ := σ) (μ := μ) s).Ver { n, m, R, C } (· = true) (fun b d' => b = false ∧ s.Done d d') d := by
  unfold one
  split
  · rename_i e
    exact ver_mono (fun b d' hq => ⟨hq.1, fun _ => hq.2⟩) _ _ (propagate_ver ho h (fun a _ hc => hC a hc fun g e' => by rw [e] at e'; cases e') hd hl)
  · rename_i g e
    refine ver_ask (f := (gateHolds · g)) ho (gateHolds_roo hd hl (h.gate g e)) fun b hb => ?_
    split
    · rename_i hbt
      have := hb.1 hbt
      exact ver_mono (fun b d' hq => ⟨hq.1, fun _ => hq.2⟩) _ _ (propagate_ver ho h (fun a ha hc => hC a hc fun g' e' => by rw [e] at e'; cases e'; exact this a ha) hd hl)
    · rename_i hbf
      have vac : ∀ d', s.Done d d' := fun d' hg => absurd (hb.2 (hg g e)) hbf
      split
      · exact ⟨rfl, vac d⟩
      · refine ver_ask (f := (readBounds · s.terms)) ho (readBounds_roo hd hl h.tidy.var) fun bs hbs => ?_
        refine ver_lift ho (lowerSum_roo (d := d) (inv := false) (s := 0) (by decide) fun t ht => ⟨(h.tidy.coeff t.term (hbs.1 ▸ List.mem_map_of_mem ht)).1, hbs.2 t ht⟩) fun least hle => ?_
        refine ver_seq (S := fun _ => False) (Q' := fun _ _ => True) hd hl (fun _ h => h) (ver_onlyIf (fun hlt => ?_) fun _ => trivial) fun _ d' _ _ _ _ => ⟨rfl, vac d'⟩
        refine ver_tell_last ?_ (fun a ha hc => ?_) fun _ _ _ _ => trivial
        · exact (h.gate g e).1.not
        · show (Lit.cond g).not.holds a
          rw [Lit.not_holds]
          intro hh
          have h1 := (hC a hc fun g' e' => by rw [e] at e'; cases e'; exact hh).1
          have h2 := lowSum_le (inv := false) hbs.2 ha
          rw [hbs.1] at h2
          have : esum false s.terms a = tsum s.terms a := rfl
          omega

theorem all_ver (ho : R .overflow) : ∀ (ss : List Stage) (d : Doms), (∀ s ∈ ss, s.OK n) → (∀ a, C a → ∀ s ∈ ss, s.Holds a) → DomsOK d → d.length = n →
    (all (σ := σ) (μ := μ) ss).Ver { n, m, R, C } (· = true) (fun b d' => b = false ∧ ∀ s ∈ ss, s.Done d d') d
  | [], d, _, _, hd, hl => ⟨rfl, by simp⟩
  | s :: ss, d, h, hC, hd, hl => by
    refine ver_unless hd hl (one_ver ho (h s (by simp)) (fun a ha => hC a ha s (by simp)) hd hl) rfl fun d1 hd1 hl1 s1 hq => ?_
    refine ver_mono (fun b d' hq' => ⟨hq'.2.1, ?_⟩) _ _ (ver_facts _ _ hd1 hl1 (all_ver ho ss d1 (fun t ht => h t (by simp [ht])) (fun a ha t ht => hC a ha t (by simp [ht])) hd1 hl1))
    intro t ht
    rcases List.mem_cons.1 ht with rfl | ht
    · exact hq.mono (fun _ h => h) hq'.1.2.2
    · exact (hq'.2.2 t ht).mono s1 fun _ h => h

/-- What the sum has to satisfy. -/
def Spec.Rel (s : Spec) (a : Asg) : Prop := wsum s.sum a ≤ s.value ∧ (s.equality = true → wsum s.sum a = s.value)

/-- What a stage that was decided on says. -/
def Spec.Holds (s : Spec) (a : Asg) : Prop := (∀ g, s.gate = some g → g.holds a) → s.Rel a

structure Spec.OK (n : Nat) (s : Spec) : Prop where
  terms : TermsOK n s.sum
  value : InI64 s.value
  gate : ∀ g, s.gate = some g → GateOK n g

/-- How a stage comes from what was decided on. -/
structure Made (n : Nat) (sp : Spec) (st : Stage) : Prop where
  tidy : Tidy n st.terms
  value : InI64 st.value
  gate : st.gate = sp.gate
  equality : st.equality = sp.equality
  vars : ∀ t ∈ st.terms, t.var ∈ varsOf sp.sum
  same : ∀ a, tsum st.terms a - st.value = wsum sp.sum a - sp.value

theorem Made.rel {sp : Spec} (h : Made n sp s) (a : Asg) : s.Rel a ↔ sp.Rel a := by
  have := h.same a
  unfold Stage.Rel Spec.Rel
  rw [h.equality]
  constructor
  · exact fun k => ⟨by omega, fun e => by have := k.2 e; omega⟩
  · exact fun k => ⟨by omega, fun e => by have := k.2 e; omega⟩

theorem Made.holds {sp : Spec} (h : Made n sp s) (a : Asg) : s.Holds a ↔ sp.Holds a := by
  unfold Stage.Holds Spec.Holds
  rw [h.gate, h.rel]

/-- A stage is checked properly if it is an inequality, or an equality whose sum is not always less than its value. -/
theorem Made.ok {sp : Spec} (h : Made n sp s) (hg : ∀ g, sp.gate = some g → GateOK n g) (ho : sp.equality = true → ∃ a, sp.value ≤ wsum sp.sum a) : s.OK n := by
  refine ⟨h.tidy, h.value, fun g e => hg g (h.gate ▸ e), fun e e0 => ?_⟩
  obtain ⟨a, ha⟩ := ho (h.equality ▸ e)
  have := h.same a
  rw [e0, tsum_nil] at this
  omega

theorem make_roo : ∀ ss : List Spec, (∀ s ∈ ss, s.OK n) → RightOrOverflow (make ss) (fun ts => (∀ t ∈ ts, ∃ s ∈ ss, Made n s t) ∧ ∀ s ∈ ss, ∃ t ∈ ts, Made n s t)
  | [], _ => .pure ⟨by simp, by simp⟩
  | s :: ss, h => by
    have hs := h s (by simp)
    refine (tidy_roo hs.terms).bind fun x hx => (add_roo hs.value hx.2.1).bind fun v hv => (make_roo ss fun t ht => h t (by simp [ht])).bind fun ts hts => .pure ?_
    have hm : Made n s ⟨x.1, v, s.equality, s.gate⟩ := ⟨hx.1, hv.2, rfl, rfl, hx.2.2.1, fun a => by have := hx.2.2.2 a; have := hv.1; dsimp only; omega⟩
    constructor
    · intro t ht
      rcases List.mem_cons.1 ht with rfl | ht
      · exact ⟨s, by simp, hm⟩
      · obtain ⟨s', h1, h2⟩ := hts.1 t ht
        exact ⟨s', by simp [h1], h2⟩
    · intro t ht
      rcases List.mem_cons.1 ht with rfl | ht
      · exact ⟨_, by simp, hm⟩
      · obtain ⟨s', h1, h2⟩ := hts.2 t ht
        exact ⟨s', by simp [h1], h2⟩

theorem known_under {v : VarId} {i : Nat} (h : Known d v) (hi : v.underlyingIndex = some i) : Known d (.simple i) := by
  intro a b ha hb
  have := h a b ha hb
  cases v with
  | const c => cases hi
  | simple j => cases hi; exact this
  | view j ng k =>
    cases hi
    simp only [VarId.eval] at this ⊢
    split at this <;> omega

theorem Cond.holds_known {g : Cond} {a b : Asg} (h : g.var.eval a = g.var.eval b) : g.holds a ↔ g.holds b := by
  unfold Cond.holds
  rw [h]

/-- Once everything is known, a stage that has done its work holds. -/
theorem Made.settled {sp : Spec} (h : Made n sp s) (hg : ∀ g, sp.gate = some g → Known d g.var) (hk : ∀ t ∈ sp.sum, Known d t.2) (hq : s.Done d d) : ∀ a, Within d a → sp.Holds a := by
  intro a ha hgate
  refine (h.rel a).1 (hq (fun g e b hb => ?_) 0 (fun t ht _ => ?_) a ha)
  · rw [h.gate] at e
    exact (Cond.holds_known (hg g e a b ha hb)).1 (hgate g e)
  · obtain ⟨u, hu, e⟩ := List.mem_filterMap.1 (h.vars t ht)
    exact known_under (hk u hu) e

end
end Stages
end Gcs
