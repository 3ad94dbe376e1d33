import Verif.Lemmas.Cons.KnapsackProp
import Verif.Lemmas.Rooted

namespace Gcs.Knapsack
open IntervalSet

section
variable {σ μ : Type} {coeffs : List (List Int)} {vars totals : List VarId} {d root : Doms} {k : Nat} {m : Nat} {R : Err → Prop} {layers : List (List Sums)}

/-- What it says, in terms of numbers. -/
def Means (coeffs : List (List Int)) (vars totals : List VarId) (a : Asg) : Prop := ∀ x, x < totals.length → vl totals a x = part coeffs vars a x (List.range vars.length)

theorem drop_cons {i : Nat} {v : VarId} {vs : List VarId} (h : vars.drop i = v :: vs) : i < vars.length ∧ vars.drop (i + 1) = vs ∧ (∀ a, vl vars a i = v.eval a) ∧ v ∈ vars := by
  have hi : i < vars.length := by
    refine Nat.not_le.1 fun hn => ?_
    rw [List.drop_eq_nil_of_le hn] at h; cases h
  rw [List.drop_eq_getElem_cons hi] at h
  obtain ⟨rfl, h2⟩ := List.cons.inj h
  exact ⟨hi, h2, fun a => by simp [vl, hi], List.getElem_mem hi⟩

theorem split_roo (hr : Rows coeffs k vars.length) (hd : DomsOK d) (hv : ∀ v ∈ vars, v.Valid d.length) : ∀ (i : Nat) (vs : List VarId) (com : Sums), vars.drop i = vs → Fine k com →
    RightOrOverflow (split coeffs k d i vs com) (fun r => Fine k r.2 ∧ (∀ j ∈ r.1, j < vars.length) ∧ ∀ a, Within d a → ∀ x, x < k → r.2.getD x 0 + part coeffs vars a x r.1 = com.getD x 0 + part coeffs vars a x (List.range' i vs.length))
  | _, [], com, _, hc => .pure ⟨hc, by simp, fun _ _ _ _ => rfl⟩
  | i, v :: vs, com, e, hc => by
    obtain ⟨hi, hdrop, hev, hm⟩ := drop_cons e
    unfold split
    refine (single_pin hd (hv v hm)).bind fun r hr' => ?_
    cases r with
    | none =>
      refine (split_roo hr hd hv (i + 1) vs com hdrop hc).bind fun r h => .pure ⟨h.1, fun j hj => ?_, fun a ha x hx => ?_⟩
      · rcases List.mem_cons.1 hj with rfl | hj
        · exact hi
        · exact h.2.1 j hj
      · have := h.2.2 a ha x hx
        show r.2.getD x 0 + part coeffs vars a x (i :: r.1) = _
        rw [List.length_cons, List.range'_succ, part, part]; omega
    | some y =>
      have hp := ((hr' y).1).1 rfl
      refine (advance_roo hr hi hc (((hr' y).2) rfl)).bind fun com' hcom => ?_
      obtain ⟨rfl, hf⟩ := hcom
      refine (split_roo hr hd hv (i + 1) vs _ hdrop hf).mono fun r h => ⟨h.1, h.2.1, fun a ha x hx => ?_⟩
      rw [h.2.2 a ha x hx, List.length_cons, List.range'_succ, part, hev, hp a ha]
      simp only [adv, List.getD_eq_getElem?_getD, List.getElem?_map, List.getElem?_range hx, Option.map_some, Option.getD_some]
      omega

/-- What is told about the totals at first. -/
theorem ver_before {J : Job} {com : Sums} {fixed : Bool} (hd : DomsOK d) (hl : d.length = J.n) (ht : ∀ t ∈ totals, t.Valid J.n) (hc : Fine totals.length com)
    (hge : ∀ a, Within d a → J.C a → ∀ x, x < totals.length → com.getD x 0 ≤ vl totals a x) (heq : fixed = true → ∀ a, Within d a → J.C a → ∀ x, x < totals.length → vl totals a x = com.getD x 0) :
    (before fixed totals com : Prog σ μ Unit).Ver J (fun _ => False) (fun _ _ => True) d := by
  have mem : ∀ p ∈ totals.zip com, p.1 ∈ totals ∧ InI64 p.2 ∧ ∃ x, x < totals.length ∧ com.getD x 0 = p.2 ∧ ∀ a, vl totals a x = p.1.eval a := fun p hp => by
    have h1 := List.of_mem_zip (a := p.1) (b := p.2) hp
    obtain ⟨x, hx⟩ := List.getElem?_of_mem hp
    have := List.getElem?_zip_eq_some.1 hx
    have hlt := (List.getElem?_eq_some_iff.1 this.1).1
    exact ⟨h1.1, hc.2 _ h1.2, x, hlt, by simp [this.2], fun a => by simp [vl, this.1]⟩
  unfold before
  refine ver_seq (S := fun _ => False) (Q' := fun _ _ => True) hd hl (fun _ h => h) (ver_onlyIf (fun hf => ?_) fun _ => trivial) fun _ d' k1 k2 k3 _ => ?_
  · refine ver_mono (fun _ _ _ => trivial) _ _ (ver_tells (lit := fun p => .cond (Cond.eq p.1 p.2)) hd hl _ (fun p hp => .eq (ht _ (mem p hp).1) (mem p hp).2.1) fun p hp a ha hj => ?_)
    obtain ⟨_, _, x, hx, e1, e2⟩ := mem p hp
    rw [Lit.holds_eq, ← e2, ← e1]
    exact heq hf a ha hj x hx
  · refine ver_mono (fun _ _ _ => trivial) _ _ (ver_tells (lit := fun p => .cond (Cond.ge p.1 p.2)) k1 k2 _ (fun p hp => .ge (ht _ (mem p hp).1) (mem p hp).2.1) fun p hp a ha hj => ?_)
    obtain ⟨_, _, x, hx, e1, e2⟩ := mem p hp
    rw [Lit.holds_ge, ← e2, ← e1]
    exact hge a (k3 a ha) hj x hx

theorem vl_nonneg (hn : ∀ a, Within root a → ∀ v ∈ vars, 0 ≤ v.eval a) {a : Asg} (ha : Within root a) {i : Nat} (hi : i < vars.length) : 0 ≤ vl vars a i := by
  have := hn a ha _ (List.getElem_mem hi)
  simpa [vl, hi] using this

theorem vl_known (h : ∀ x ∈ vars, Known d x) {a b : Asg} (ha : Within d a) (hb : Within d b) {i : Nat} (hi : i < vars.length) : vl vars a i = vl vars b i := by
  have := h _ (List.getElem_mem hi) a b ha hb
  simpa [vl, hi] using this

theorem ver_perCall (ho : R .overflow) (hr : Rows coeffs totals.length vars.length) (hv : ∀ v ∈ vars ++ totals, v.Valid root.length) (hn : ∀ a, Within root a → ∀ v ∈ vars, 0 ≤ v.eval a)
    (hd : DomsOK d) (hl : d.length = root.length) (hs : ∀ a, Within d a → Within root a) :
    (perCall coeffs vars totals : Prog σ μ PState).Ver { n := root.length, m, R, C := fun a => Within root a ∧ Means coeffs vars totals a } (fun _ => True)
      (Enforced (fun a => Within root a → Means coeffs vars totals a) (vars.filterMap VarId.underlyingIndex) d) d := by
  have vv : ∀ v ∈ vars, v.Valid d.length := fun v h => hl ▸ hv v (List.mem_append_left _ h)
  have vt : ∀ v ∈ totals, v.Valid root.length := fun v h => hv v (List.mem_append_right _ h)
  unfold perCall
  refine ver_ask (f := fun d => split coeffs totals.length d 0 vars (List.replicate totals.length 0)) ho (split_roo hr hd vv 0 vars _ rfl fine_zero) fun r hsp => ?_
  obtain ⟨hf, hlt, hsum⟩ := hsp
  have full : ∀ a, Within d a → ∀ x, x < totals.length → r.2.getD x 0 + part coeffs vars a x r.1 = part coeffs vars a x (List.range vars.length) := fun a ha x hx => by
    have := hsum a ha x hx
    rw [this, List.range_eq_range']
    simp [hx]
  refine ver_seq (S := fun _ => False) hd hl (fun _ h => h) (ver_before (fixed := decide (r.1 = [])) hd hl vt hf (fun a ha hc x hx => ?_) fun he a ha hc x hx => ?_) fun _ d1 k1 k2 k3 _ => ?_
  · rw [hc.2 x hx, ← full a ha x hx]
    have := part_nonneg (x := x) (is := r.1) (a := a) (vars := vars) hr hx hlt fun i hi => vl_nonneg hn (hs a ha) (hlt i hi)
    omega
  · rw [hc.2 x hx, ← full a ha x hx, of_decide_eq_true he, part]
    omega
  refine ver_ask (f := fun d => AllDifferent.mapAll (bounds d ·) totals) ho (AllDifferent.mapAll_roo (P := fun t b => ∀ a, Within d1 a → b.1 ≤ t.eval a ∧ t.eval a ≤ b.2) totals fun t ht => ?_) fun bs hbs => ?_
  · exact (bounds_roo k1 (k2.symm ▸ vt t ht)).mono fun b hb a ha => ⟨hb.1.2.le ha, hb.2.2.ge ha⟩
  have bound : ∀ x, x < totals.length → ∃ b, vecAt bs x = .ok b ∧ ∀ a, Within d1 a → b.1 ≤ vl totals a x ∧ vl totals a x ≤ b.2 := fun x hx => by
    have hx' : x < bs.length := by rw [hbs.1]; exact hx
    refine ⟨bs[x], vecAt_ok.2 (List.getElem?_eq_getElem hx'), fun a ha => ?_⟩
    have := hbs.2 x _ _ (List.getElem?_eq_getElem hx) (List.getElem?_eq_getElem hx') a ha
    simpa [vl, hx] using this
  have ok : Way.OK ⟨coeffs, vars, totals, r.2, fun _ x => do return (← vecAt bs x).1, fun _ x => do return (← vecAt bs x).2, fun _ _ => true⟩ r.1 d1 :=
    ⟨hr, hf, fun v h => k2.symm ▸ hv v (List.mem_append_left _ h), fun v h => k2.symm ▸ vt v h, hlt, fun a ha i hi => vl_nonneg hn (hs a (k3 a ha)) (hlt i hi),
      fun d _ _ hw x hx => by obtain ⟨b, e, h⟩ := bound x hx; exact .inr ⟨b.1, by show (vecAt bs x >>= _) = _; rw [e]; rfl, fun a ha => (h a (hw a ha)).1⟩,
      fun d _ _ hw x hx => by obtain ⟨b, e, h⟩ := bound x hx; exact .inr ⟨b.2, by show (vecAt bs x >>= _) = _; rw [e]; rfl, fun a ha => (h a (hw a ha)).2⟩,
      fun _ _ _ _ _ _ => rfl⟩
  refine ver_seq (S := fun _ => False) k1 k2 (fun _ h => h) (ver_gac ho ok (fun a ha hc x hx => ?_) k2.symm k1) fun _ d2 j1 j2 j3 j4 => ?_
  · show vl totals a x = r.2.getD x 0 + part coeffs vars a x r.1
    rw [full a (k3 a ha) x hx, hc.2 x hx]
  · refine .intro (fun hk a ha _ x hx => ?_) (fun h => nomatch h) (fun h => nomatch h)
    have := j4 (fun i hi a b ha hb => vl_known hk (k3 a ha) (k3 b hb) (hlt i hi)) a ha x hx
    rw [← full a (k3 a (j3 a ha)) x hx]
    exact this

/-- The nodes that there may be have all that an assignment goes through. -/
def Covers (coeffs : List (List Int)) (vars : List VarId) (k : Nat) (root : Doms) (layers : List (List Sums)) : Prop :=
  ∀ a, Within root a → ∀ j, j ≤ vars.length → spot coeffs vars k a (List.range j).reverse ∈ layers.getD j []

theorem ver_upfront (ho : R .overflow) (hr : Rows coeffs totals.length vars.length) (hv : ∀ v ∈ vars ++ totals, v.Valid root.length) (hn : ∀ a, Within root a → ∀ v ∈ vars, 0 ≤ v.eval a) (hc : Covers coeffs vars totals.length root layers)
    (hd : DomsOK d) (hl : d.length = root.length) (hs : ∀ a, Within d a → Within root a) :
    (upfront coeffs vars totals layers : Prog σ μ PState).Ver { n := root.length, m, R, C := fun a => Within root a ∧ Means coeffs vars totals a } (fun _ => True)
      (Enforced (fun a => Within root a → Means coeffs vars totals a) (vars.filterMap VarId.underlyingIndex) d) d := by
  have vt : ∀ v ∈ totals, v.Valid root.length := fun v h => hv v (List.mem_append_right _ h)
  have zero : ∀ x, x < totals.length → (List.replicate totals.length (0 : Int)).getD x 0 = 0 := fun x hx => by simp [hx]
  have at_ : ∀ x (hx : x < totals.length), vecAt totals x = .ok totals[x] := fun x hx => vecAt_ok.2 (List.getElem?_eq_getElem hx)
  unfold upfront
  have ok : Way.OK ⟨coeffs, vars, totals, List.replicate totals.length 0, fun d x => do lowerBound d (← vecAt totals x), fun d x => do upperBound d (← vecAt totals x), fun i w => decide (w ∈ layers.getD i [])⟩ (List.range vars.length) d :=
    ⟨hr, fine_zero, fun v h => hl.symm ▸ hv v (List.mem_append_left _ h), fun v h => hl.symm ▸ vt v h, fun i hi => List.mem_range.1 hi, fun a ha i hi => vl_nonneg hn (hs a ha) (List.mem_range.1 hi),
      fun d' h1 h2 _ x hx => by
        show RightOrOverflow (vecAt totals x >>= _) _
        have hx' : x < totals.length := hx
        rw [at_ x hx', chk_ok_bind]
        refine (lower_roo h1 ((h2.trans hl).symm ▸ vt _ (List.getElem_mem hx'))).mono fun u hu a ha => ?_
        have := hu.2.le ha
        simpa [vl, hx'] using this,
      fun d' h1 h2 _ x hx => by
        show RightOrOverflow (vecAt totals x >>= _) _
        have hx' : x < totals.length := hx
        rw [at_ x hx', chk_ok_bind]
        refine (upper_roo h1 ((h2.trans hl).symm ▸ vt _ (List.getElem_mem hx'))).mono fun u hu a ha => ?_
        have := hu.2.ge ha
        simpa [vl, hx'] using this,
      fun a ha pre i post e => by
        have hi : i < vars.length := by
          have : i ∈ List.range vars.length := by rw [e]; simp
          exact List.mem_range.1 this
        have hpre : pre = List.range i := by
          have h1 : (List.range vars.length)[pre.length]? = some i := by rw [e]; simp
          have h2 : pre.length < vars.length := by have := (List.getElem?_eq_some_iff.1 h1).1; simpa using this
          rw [List.getElem?_range h2] at h1
          have h3 : pre.length = i := by simpa using h1
          have h4 : (List.range vars.length).take i = pre := by rw [e, ← h3]; simp
          rw [← h4, List.take_range]
          congr 1; omega
        have := hc a (hs a ha) (i + 1) hi
        rw [List.range_succ, List.reverse_append] at this
        rw [hpre]
        exact decide_eq_true this⟩
  refine ver_seq (S := fun _ => False) hd hl (fun _ h => h) (ver_gac ho ok (fun a ha hc x hx => ?_) hl.symm hd) fun _ d2 j1 j2 j3 j4 => ?_
  · show vl totals a x = (List.replicate totals.length (0 : Int)).getD x 0 + part coeffs vars a x (List.range vars.length)
    rw [hc.2 x hx, zero x hx]; omega
  · refine .intro (fun hk a ha _ x hx => ?_) (fun h => nomatch h) (fun h => nomatch h)
    have : vl totals a x = (List.replicate totals.length (0 : Int)).getD x 0 + part coeffs vars a x (List.range vars.length) := j4 (fun i hi a b ha hb => vl_known hk ha hb (List.mem_range.1 hi)) a ha x hx
    rw [this, zero x hx]; omega

theorem cap_roo (hr : Rows coeffs k vars.length) (hd : DomsOK root) (hv : ∀ v ∈ vars, v.Valid root.length) {x : Nat} (hx : x < k) : ∀ (i : Nat) (vs : List VarId) (s : Int), vars.drop i = vs → InI64 s →
    RightOrOverflow (cap (coeffs.getD x []) root i vs s) (fun r => InI64 r ∧ ∀ a, Within root a → s + part coeffs vars a x (List.range' i vs.length) ≤ r)
  | _, [], s, _, hs => .inr ⟨s, rfl, hs, fun a _ => by simp [part]⟩
  | i, v :: vs, s, e, hs => by
    obtain ⟨hi, hdrop, hev, hm⟩ := drop_cons e
    obtain ⟨_, c2, c3, c4⟩ := hr.at_ hx hi
    unfold cap
    refine (upper_roo hd (hv v hm)).bind fun u hu => ?_
    rw [c2, chk_ok_bind]
    refine (mul_roo hu.1 c3).bind fun c hc => (add_roo hs hc.2).bind fun s' hs' => ?_
    refine (cap_roo hr hd hv hx (i + 1) vs s' hdrop hs'.2).mono fun r hr' => ⟨hr'.1, fun a ha => ?_⟩
    have h1 := hr'.2 a ha
    have h2 := Int.mul_le_mul_of_nonneg_right (hu.2.ge ha) c4
    rw [List.length_cons, List.range'_succ, part, hev]
    rw [hs'.1, hc.1] at h1
    omega

theorem dag_roo {caps : Sums} (hr : Rows coeffs k vars.length) (hd : DomsOK root) (hv : ∀ v ∈ vars, v.Valid root.length) (hn : ∀ a, Within root a → ∀ v ∈ vars, 0 ≤ v.eval a) (hl : caps.length = k)
    (hc : ∀ a, Within root a → ∀ x, x < k → part coeffs vars a x (List.range vars.length) ≤ caps.getD x 0) : ∀ (i : Nat) (vs : List VarId) (ws : List Sums), vars.drop i = vs → i + vs.length = vars.length → (∀ w ∈ ws, Fine k w) →
    (∀ a, Within root a → spot coeffs vars k a (List.range i).reverse ∈ ws) →
    RightOrOverflow (dag coeffs caps root i vs ws) (fun layers => ∀ a, Within root a → ∀ j, j ≤ vs.length → spot coeffs vars k a (List.range (i + j)).reverse ∈ layers.getD j [])
  | i, [], ws, _, _, _, h => .inr ⟨[ws], rfl, fun a ha j hj => by
      have : j = 0 := by simpa using hj
      subst this
      exact h a ha⟩
  | i, v :: vs, ws, e, hlen, hf, h => by
    obtain ⟨hi, hdrop, hev, hm⟩ := drop_cons e
    unfold dag
    have step : ∀ w ∈ ws, ∀ y, InI64 y → RightOrOverflow (stepTo coeffs caps i w y) (fun r => (∀ w' ∈ r, Fine k w') ∧ ∀ a, Within root a → w = spot coeffs vars k a (List.range i).reverse → y = v.eval a → spot coeffs vars k a (List.range (i + 1)).reverse ∈ r) := fun w hw y hy => by
      unfold stepTo
      rw [(hf w hw).1]
      refine (advance_roo hr hi (hf w hw) hy).bind fun w' hw' => ?_
      obtain ⟨rfl, hf'⟩ := hw'
      refine (anyOf_hit (P := fun x => x < k ∧ (adv coeffs k i w y).getD x 0 > caps.getD x 0) (List.range k) fun x hx => ?_).bind fun b hb => .pure ⟨fun w' hw' => ?_, fun a ha e1 e2 => ?_⟩
      · have hx := List.mem_range.1 hx
        have hx' : x < caps.length := by omega
        rw [(hf'.at_ hx).1, chk_ok_bind, vecAt_ok.2 (List.getElem?_eq_getElem hx'), chk_ok_bind]
        exact .pure fun e => ⟨hx, by have := of_decide_eq_true e; simpa [hx'] using this⟩
      · cases b with
        | true => cases hw'
        | false => rw [List.mem_singleton.1 hw']; exact hf'
      · have e3 : adv coeffs k i w y = spot coeffs vars k a (List.range (i + 1)).reverse := by
          rw [e1, e2, ← hev, adv_spot, List.range_succ, List.reverse_append]; rfl
        cases b with
        | false => exact List.mem_singleton.2 e3.symm
        | true =>
          obtain ⟨x, _, hx, hgt⟩ := hb rfl
          rw [e3, spot_getD hx, part_perm (List.reverse_perm _)] at hgt
          have h1 := hc a ha x hx
          have h2 : List.range vars.length = List.range (i + 1) ++ List.range' (i + 1) (vars.length - (i + 1)) := by
            have e : vars.length = (i + 1) + (vars.length - (i + 1)) := by omega
            have := List.range'_append_1 (s := 0) (m := i + 1) (n := vars.length - (i + 1))
            rw [← e, Nat.zero_add, ← List.range_eq_range', ← List.range_eq_range'] at this
            exact this.symm
          rw [h2, part_append] at h1
          have h3 := part_nonneg (x := x) (is := List.range' (i + 1) (vars.length - (i + 1))) (a := a) (vars := vars) hr hx (fun j hj => by have := List.mem_range'_1.1 hj; omega) fun j hj => vl_nonneg hn ha (by have := List.mem_range'_1.1 hj; omega)
          omega
    refine (Tabulation.collect_roo (P := fun w r => (∀ w' ∈ r, Fine k w') ∧ ∀ a, Within root a → w = spot coeffs vars k a (List.range i).reverse → spot coeffs vars k a (List.range (i + 1)).reverse ∈ r) ws fun w hw => ?_).bind fun next hnext => ?_
    · refine (listed_roo hd (hv v hm)).bind fun g hg => (Gcs.collect_roo hg).bind fun ys hys => ?_
      refine (Tabulation.collect_roo _ fun y hy => step w hw y (hys.1 y hy)).mono fun r hr' => ⟨fun w' hw' => ?_, fun a ha e1 => ?_⟩
      · obtain ⟨y, _, ry, hp, hm'⟩ := hr'.1 w' hw'
        exact hp.1 w' hm'
      · obtain ⟨ry, hp, hm'⟩ := hr'.2 (v.eval a) ((hys.2 _).2 ⟨a, ha, rfl⟩)
        exact hm' _ (hp.2 a ha e1 rfl)
    · refine (dag_roo hr hd hv hn hl hc (i + 1) vs next.eraseDups hdrop (by rw [List.length_cons] at hlen; omega) (fun w' hw' => ?_) fun a ha => ?_).bind fun rest hrest => .pure fun a ha j hj => ?_
      · obtain ⟨w, _, rw', hp, hm'⟩ := hnext.1 w' (List.mem_eraseDups.1 hw')
        exact hp.1 w' hm'
      · obtain ⟨rw', hp, hm'⟩ := hnext.2 _ (h a ha)
        exact List.mem_eraseDups.2 (hm' _ (hp.2 a ha rfl))
      · cases j with
        | zero => exact h a ha
        | succ j =>
          have := hrest a ha j (by rw [List.length_cons] at hj; omega)
          rw [show i + (j + 1) = i + 1 + j by omega]
          exact this

/-- What has to be so for it to be accepted. -/
structure Accepted (s : Strategy) (coeffs : List (List Int)) (vars totals : List VarId) (root : Doms) : Prop where
  len : coeffs.length = totals.length
  some : coeffs ≠ []
  same : ∀ r ∈ coeffs, ∀ r' ∈ coeffs, r.length = r'.length
  long : s = .upfront → ∀ r ∈ coeffs, r.length = vars.length
  coeffs : ∀ r ∈ coeffs, ∀ c ∈ r, 0 ≤ c
  nonneg : ∀ v ∈ vars ++ totals, ∀ a, Within root a → 0 ≤ v.eval a

theorem refused_roo {s : Strategy} (hd : DomsOK root) (hv : ∀ v ∈ vars ++ totals, v.Valid root.length) : RightOrOverflow (refused s coeffs vars totals root) (fun b => b = true ↔ ¬ Accepted s coeffs vars totals root) := by
  unfold refused
  split
  · rename_i h
    exact .pure ⟨fun _ k => h k.len, fun _ => rfl⟩
  rename_i h1
  cases coeffs with
  | nil => exact .pure ⟨fun _ k => k.some rfl, fun _ => rfl⟩
  | cons row rest =>
    show RightOrOverflow (if ∃ r ∈ row :: rest, r.length ≠ row.length then _ else _) _
    split
    · rename_i h
      obtain ⟨r, hr, hne⟩ := h
      exact .pure ⟨fun _ k => hne (k.same r hr row List.mem_cons_self), fun _ => rfl⟩
    rename_i h2
    have same : ∀ r ∈ row :: rest, r.length = row.length := fun r hr => Classical.byContradiction fun hn => h2 ⟨r, hr, hn⟩
    split
    · rename_i h
      exact .pure ⟨fun _ k => h.2 (k.long h.1 row List.mem_cons_self), fun _ => rfl⟩
    rename_i h3
    split
    · rename_i h
      obtain ⟨r, hr, c, hc, hlt⟩ := h
      exact .pure ⟨fun _ k => by have := k.coeffs r hr c hc; omega, fun _ => rfl⟩
    rename_i h4
    refine (anyOf_roo (P := fun v => ∃ a, Within root a ∧ v.eval a < 0) (vars ++ totals) fun v hm => ?_).mono fun b hb => ?_
    · refine (lower_roo hd (hv v hm)).bind fun l hl => .pure ?_
      rw [decide_eq_true_iff]
      exact ⟨fun h => by obtain ⟨a, ha, e⟩ := hl.2.1; exact ⟨a, ha, by omega⟩, fun ⟨a, ha, h⟩ => by have := hl.2.le ha; omega⟩
    · rw [hb]
      refine ⟨fun ⟨v, hm, a, ha, hlt⟩ k => by have := k.nonneg v hm a ha; omega, fun hn => Classical.byContradiction fun hno => hn ⟨?_, by simp, ?_, ?_, ?_, ?_⟩⟩
      · exact Classical.byContradiction h1
      · exact fun r hr r' hr' => (same r hr).trans (same r' hr').symm
      · exact fun e r hr => (same r hr).trans (Classical.byContradiction fun hn => h3 ⟨e, hn⟩)
      · exact fun r hr c hc => Int.not_lt.1 fun hlt => h4 ⟨r, hr, c, hc, hlt⟩
      · exact fun v hm a ha => Int.not_lt.1 fun hlt => hno ⟨v, hm, a, ha, hlt⟩

theorem install_ok {s : Strategy} {z0 : List σ} (ho : R .overflow) (hd : DomsOK root) (hv : ∀ v ∈ vars ++ totals, v.Valid root.length) (hc : ∀ row ∈ coeffs, ∀ c ∈ row, InI64 c) (hlong : ∀ row ∈ coeffs, vars.length ≤ row.length) (h : Accepted s coeffs vars totals root) :
    RightOrOverflow (install (σ := σ) (μ := μ) s coeffs vars totals root) (fun items => ∃ I es, es.map (·.1) = items ∧ Served root.length m R root z0 I (fun _ => False) (Means coeffs vars totals) (vars ++ totals) es) := by
  have hr : Rows coeffs totals.length vars.length := ⟨h.len, hlong, hc, h.coeffs⟩
  have hn : ∀ a, Within root a → ∀ v ∈ vars, 0 ≤ v.eval a := fun a ha v hm => h.nonneg v (List.mem_append_left _ hm) a ha
  have vv : ∀ v ∈ vars, v.Valid root.length := fun v hm => hv v (List.mem_append_left _ hm)
  have wk : ∀ x ∈ vars, ∀ v, x.underlyingIndex = some v → ∃ y, (y ∈ vars ++ totals ∨ y ∈ ([] : List VarId) ∨ y ∈ ([] : List VarId)) ∧ y.underlyingIndex = some v := fun x hx v e => ⟨x, .inl (List.mem_append_left _ hx), e⟩
  unfold install
  refine (refused_roo hd hv).bind fun b hb => ?_
  have eb : b = false := by
    cases b with
    | false => rfl
    | true => exact absurd h (hb.1 rfl)
  subst eb
  rw [if_neg (by decide)]
  cases s with
  | perCall =>
    exact .pure ⟨_, [(_, _)], rfl, served_rooted (fun d h1 h2 h3 => ver_perCall ho hr hv hn h1 h2 h3) (fun y hy => List.mem_append_left _ hy) wk rfl⟩
  | upfront =>
    refine (AllDifferent.mapAll_roo (P := fun x c => ∀ a, Within root a → part coeffs vars a x (List.range vars.length) ≤ c) (List.range totals.length) fun x hx => ?_).bind fun caps hcaps => ?_
    · have hx := List.mem_range.1 hx
      have hx' : x < coeffs.length := by rw [h.len]; exact hx
      have e : vecAt coeffs x = .ok (coeffs.getD x []) := vecAt_ok.2 (by simp [hx'])
      rw [e, chk_ok_bind]
      refine (cap_roo hr hd vv hx 0 vars 0 rfl (by decide)).mono fun c hc a ha => ?_
      have := hc.2 a ha
      rw [← List.range_eq_range'] at this
      omega
    · have hl : caps.length = totals.length := by simpa using hcaps.1
      refine (dag_roo hr hd vv hn hl (fun a ha x hx => ?_) 0 vars _ rfl (by simp) (fun w hw => ?_) fun a ha => ?_).bind fun layers hlayers => .pure ?_
      · have hx' : x < caps.length := by omega
        have := hcaps.2 x x caps[x] (by simp [hx]) (List.getElem?_eq_getElem hx') a ha
        simpa [hx'] using this
      · rw [List.mem_singleton.1 hw]; exact fine_zero
      · rw [List.range_zero, List.reverse_nil, spot_nil]; simp
      · refine ⟨_, [(_, _)], rfl, served_rooted (fun d h1 h2 h3 => ver_upfront ho hr hv hn (fun a ha j hj => ?_) h1 h2 h3) (fun y hy => List.mem_append_left _ hy) wk rfl⟩
        have := hlayers a ha j hj
        rwa [Nat.zero_add] at this

end
end Gcs.Knapsack
