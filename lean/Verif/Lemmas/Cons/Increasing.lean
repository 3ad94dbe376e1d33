import Verif.Model.Cons.Increasing
import Verif.Lemmas.Cons.Logical

namespace Gcs.Increasing

section
variable {σ μ : Type} {n m : Nat} {R : Err → Prop} {root : Doms} {step : Int}

/-- Each value is at least `step` more than the one before it, the first at least `step` more than `p`. -/
def From (step : Int) (a : Asg) (p : Int) : List VarId → Prop
  | [] => True
  | v :: vs => p + step ≤ v.eval a ∧ From step a (v.eval a) vs

/-- In order, with every difference at least `step`. -/
def Chain (step : Int) (vs : List VarId) (a : Asg) : Prop := (vs.map (·.eval a)).Pairwise (fun x y => x + step ≤ y)

theorem from_iff (hs : 0 ≤ step) (a : Asg) : ∀ (vs : List VarId) (v : VarId), From step a (v.eval a) vs ↔ Chain step (v :: vs) a
  | [], v => by simp [From, Chain]
  | w :: vs, v => by
    have ih := from_iff hs a vs w
    simp only [From, ih, Chain, List.map_cons, List.pairwise_cons]
    constructor
    · rintro ⟨h1, h2, h3⟩
      refine ⟨fun y hy => ?_, h2, h3⟩
      rcases List.mem_cons.1 hy with rfl | hy
      · exact h1
      · have := h2 y hy; omega
    · rintro ⟨h1, h2, h3⟩
      exact ⟨h1 _ List.mem_cons_self, h2, h3⟩

theorem chain_cons {v : VarId} {vs : List VarId} {a : Asg} : Chain step (v :: vs) a ↔ (∀ w ∈ vs, v.eval a + step ≤ w.eval a) ∧ Chain step vs a := by
  simp [Chain, List.pairwise_cons]

theorem chain_append {us vs : List VarId} {a : Asg} : Chain step (us ++ vs) a → Chain step vs a := by
  simp only [Chain, List.map_append, List.pairwise_append]; exact fun h => h.2.1

theorem entailed_spec (hs : InI64 step) (h0 : 0 ≤ step) {d : Doms} (hd : DomsOK d) : ∀ vs : List VarId, (∀ v ∈ vs, v.Valid d.length) →
    RightOrOverflow (entailed step d vs) (fun r => r = true → ∀ a, Within d a → Chain step vs a)
  | [], _ => .pure fun _ a _ => by simp [Chain]
  | [v], _ => .pure fun _ a _ => by simp [Chain]
  | v :: w :: vs, hv => by
    refine (bounds_roo hd (hv v (by simp))).bind fun b hb => ?_
    refine (add_roo hb.2.1 hs).bind fun x hx => ?_
    refine (bounds_roo hd (hv w (by simp))).bind fun c hc => ?_
    split
    · exact .pure fun h => nomatch h
    · refine (entailed_spec hs h0 hd (w :: vs) fun u hu => hv u (List.mem_cons_of_mem _ hu)).mono fun r hr e a ha => ?_
      rw [← from_iff h0]
      refine ⟨?_, (from_iff h0 ..).2 (hr e a ha)⟩
      have h1 := hb.2.2.ge ha; have h2 := hc.1.2.le ha; have := hx.1; omega

theorem prop_enforces (ho : R .overflow) (hs : InI64 step) (h0 : 0 ≤ step) {vs : List VarId} (hv : ∀ v ∈ vs, v.Valid n) (hne : vs ≠ []) :
    Enforces n m R root (fun a => Chain step vs a) vs (prop (σ := σ) (μ := μ) step vs) := by
  intro d hd hl
  subst hl
  cases vs with
  | nil => exact absurd rfl hne
  | cons v vs =>
    refine ver_ask (f := (bounds · v)) ho (bounds_roo hd (hv v (by simp))) fun b hb => ?_
    -- the forward sweep
    refine ver_seq (S := fun _ => False) hd rfl (fun _ h => h)
      (ver_forEachWith (J := { n := d.length, m, R, C := fun a => Within root a ∧ Chain step (v :: vs) a })
        (fun p xs d' => InI64 p ∧ (∀ x ∈ xs, x ∈ v :: vs) ∧ (∀ a, Within d' a → Within d a) ∧ (∀ a, Within d' a → Chain step (v :: vs) a → Chain step xs a ∧ ∀ x ∈ xs, p + step ≤ x.eval a) ∧
          ((∀ x ∈ v :: vs, Known d x) → ∀ a, Within d' a → From step a p xs → Chain step (v :: vs) a)) ?_ vs b.1 d hd rfl
        ⟨hb.1.1, fun x hx => List.mem_cons_of_mem _ hx, fun a ha => ha, fun a ha hc => ?_, fun hk a ha hf => ?_⟩) ?_
    · rintro p x xs d1 hd1 hl1 ⟨hp, hm, hsub, hsound, hkn⟩
      have hxv : x.Valid d.length := hv x (hm x (by simp))
      refine ver_lift ho (add_roo hp hs) fun needed hn => ?_
      refine ver_ask (f := (bounds · x)) ho (bounds_roo hd1 (hl1.symm ▸ hxv)) fun c hc => ?_
      have xs_in : ∀ y ∈ xs, y ∈ v :: vs := fun y hy => hm y (List.mem_cons_of_mem _ hy)
      split
      · rename_i hlt
        refine ver_tell (.ge hxv hn.2) (fun a ha hC => ?_) fun d2 k1 k2 k3 => ?_
        · have := (hsound a ha hC.2).2 x (by simp)
          show x.eval a ≥ needed
          have := hn.1; omega
        · refine ⟨hn.2, xs_in, fun a ha => hsub a ((k3 a).1 ha).1, fun a ha hC => ?_, fun hk a ha _ => ?_⟩
          · have hx := (k3 a).1 ha
            obtain ⟨h1, h2⟩ := hsound a hx.1 hC
            rw [chain_cons] at h1
            have h3 : x.eval a ≥ needed := hx.2
            exact ⟨h1.2, fun y hy => by have := h1.1 y hy; omega⟩
          · have hx := (k3 a).1 ha
            have h3 : x.eval a ≥ needed := hx.2
            have := hc.1.2.eq ((hk x (hm x (by simp))).sub hsub) hx.1
            omega
      · rename_i hlt
        refine ⟨hc.1.1, xs_in, hsub, fun a ha hC => ?_, fun hk a ha hf => hkn hk a ha ?_⟩
        · obtain ⟨h1, h2⟩ := hsound a ha hC
          rw [chain_cons] at h1
          have h3 := hc.1.2.le ha
          exact ⟨h1.2, fun y hy => by have := h1.1 y hy; omega⟩
        · have h4 := hc.1.2.eq ((hk x (hm x (by simp))).sub hsub) ha
          refine ⟨by have := hn.1; omega, h4 ▸ hf⟩
    · have h1 := hb.1.2.le ha
      have h2 := chain_cons.1 hc
      exact ⟨h2.2, fun x hx => by have := h2.1 x hx; omega⟩
    · rw [← from_iff h0, ← hb.1.2.eq (hk v (by simp)) ha]; exact hf
    rintro p d1 hd1 hl1 hsub1 ⟨-, -, -, -, hknown⟩
    -- the backward sweep
    have hmem : ∀ x, x ∈ (v :: vs).reverse ↔ x ∈ v :: vs := fun x => List.mem_reverse
    have hrev : ∀ a, Chain step (v :: vs) a → ((v :: vs).reverse.map (·.eval a)).Pairwise (fun x y => y + step ≤ x) := fun a h => by
      rw [List.map_reverse, List.pairwise_reverse]; exact h
    generalize hr : (v :: vs).reverse = rs at hmem hrev
    cases rs with
    | nil => simp at hr
    | cons w ws =>
      refine ver_ask (f := (bounds · w)) ho (bounds_roo hd1 (hl1.symm ▸ hv w ((hmem w).1 (by simp)))) fun c hc => ?_
      refine ver_seq (S := fun _ => False) hd1 hl1 (fun _ h => h)
        (ver_forEachWith (J := { n := d.length, m, R, C := fun a => Within root a ∧ Chain step (v :: vs) a })
          (fun p xs d' => InI64 p ∧ (∀ x ∈ xs, x ∈ v :: vs) ∧ (∀ a, Within d' a → Within d1 a) ∧
            (∀ a, Within d' a → Chain step (v :: vs) a → (xs.map (·.eval a)).Pairwise (fun x y => y + step ≤ x) ∧ ∀ x ∈ xs, x.eval a + step ≤ p)) ?_ ws c.2 d1 hd1 hl1
          ⟨hc.2.1, fun x hx => (hmem x).1 (List.mem_cons_of_mem _ hx), fun a ha => ha, fun a ha hC => ?_⟩) ?_
      · rintro p x xs d2 hd2 hl2 ⟨hp, hm, hsub, hsound⟩
        have hxv : x.Valid d.length := hv x (hm x (by simp))
        refine ver_lift ho (sub_roo hp hs) fun needed hn => ?_
        refine ver_ask (f := (bounds · x)) ho (bounds_roo hd2 (hl2.symm ▸ hxv)) fun c hc => ?_
        have xs_in : ∀ y ∈ xs, y ∈ v :: vs := fun y hy => hm y (List.mem_cons_of_mem _ hy)
        split
        · refine ver_lift ho (add_roo hn.2 (by decide)) fun y hy => ?_
          refine ver_tell (.lt hxv hy.2) (fun a ha hC => ?_) fun d3 k1 k2 k3 => ?_
          · have := (hsound a ha hC.2).2 x (by simp)
            show x.eval a < y
            have := hn.1; have := hy.1; omega
          · refine ⟨hn.2, xs_in, fun a ha => hsub a ((k3 a).1 ha).1, fun a ha hC => ?_⟩
            have hx := (k3 a).1 ha
            obtain ⟨h1, h2⟩ := hsound a hx.1 hC
            rw [List.map_cons, List.pairwise_cons] at h1
            have h3 : x.eval a < y := hx.2
            refine ⟨h1.2, fun z hz => ?_⟩
            have := h1.1 _ (List.mem_map_of_mem hz); have := hy.1; omega
        · refine ⟨hc.2.1, xs_in, hsub, fun a ha hC => ?_⟩
          obtain ⟨h1, h2⟩ := hsound a ha hC
          rw [List.map_cons, List.pairwise_cons] at h1
          have h3 := hc.2.2.ge ha
          refine ⟨h1.2, fun z hz => ?_⟩
          have := h1.1 _ (List.mem_map_of_mem hz); omega
      · have h1 := hrev a hC
        rw [List.map_cons, List.pairwise_cons] at h1
        have h2 := hc.2.2.ge ha
        refine ⟨h1.2, fun z hz => ?_⟩
        have := h1.1 _ (List.mem_map_of_mem hz); omega
      rintro p d2 hd2 hl2 hsub2 -
      refine ver_ask (f := (entailed step · (v :: vs))) ho (entailed_spec hs h0 hd2 (v :: vs) fun x hx => hl2.symm ▸ hv x hx) fun r hr => ?_
      cases r with
      | true =>
        have all : ∀ a, Within d2 a → Within root a → Chain step (v :: vs) a := fun a ha _ => hr rfl a ha
        exact ⟨fun _ => all, fun _ _ => all, fun _ => all⟩
      | false => exact Enforced.intro (fun hk a ha _ => hknown hk a (hsub2 a ha) trivial) (by rintro ⟨⟩) (by rintro ⟨⟩)

theorem install_right (ho : R .overflow) {vars : List VarId} {strict descending : Bool} (hv : ∀ v ∈ vars, v.Valid n) :
    (Posted.mk (install (σ := σ) (μ := μ) vars strict descending)
      (fun a => Chain (if strict then 1 else 0) (if descending then vars.reverse else vars) a) vars).Right n m R root (fun _ => False) := by
  have hs : InI64 (if strict then (1 : Int) else 0) := by cases strict <;> decide
  have h0 : 0 ≤ (if strict then (1 : Int) else 0) := by cases strict <;> decide
  generalize hstep : (if strict then (1 : Int) else 0) = step at hs h0
  have hmem : ∀ x, x ∈ (if descending then vars.reverse else vars) ↔ x ∈ vars := fun x => by cases descending <;> simp
  generalize hord : (if descending then vars.reverse else vars) = ord at hmem
  have hv' : ∀ v ∈ ord, v.Valid n := fun v h => hv v ((hmem v).1 h)
  by_cases hlen : ord.length > 1
  · have hne : ord ≠ [] := by rintro rfl; simp at hlen
    refine ⟨fun items hi => ?_, fun e he => ?_⟩
    · simp only [install, hstep, hord, if_pos hlen] at hi
      cases hi
      refine Posts.one ⟨ord, fun y hy => (hmem y).1 hy, (prop_enforces ho hs h0 hv' hne).implements (fun _ _ => Iff.rfl) ?_ rfl⟩
      exact fun x hx v e => ⟨x, .inr (.inl hx), e⟩
    · simp only [install, hord, if_pos hlen] at he; cases he
  · refine ⟨fun items hi => ?_, fun e he => ?_⟩
    · simp only [install, hord, if_neg hlen] at hi
      cases hi
      refine Posts.nil fun a _ => ?_
      rcases ord with _ | ⟨v, _ | ⟨w, ws⟩⟩
      · simp [Chain]
      · simp [Chain]
      · simp at hlen
    · simp only [install, hord, if_neg hlen] at he; cases he

end
end Gcs.Increasing
