import Verif.Lemmas.Cons.Gaps

/-!
# Absolute values
-/

namespace Gcs
open IntervalSet

/-- A constraint that installs an initialiser that may speed things up and a propagator. -/
theorem right_start_prop {σ μ : Type} {n m : Nat} {R : Err → Prop} {root : Doms} {P : Asg → Prop} {xs : List VarId} {pr : Priority} {g : Prog σ μ Unit} {f : Prog σ μ PState} {t : Triggers}
    {inst : Doms → Chk (List (Item σ μ))} (hi : inst root = .ok [.init pr g, .prop f t])
    (hg : ∀ d, DomsOK d → d.length = n → g.Ver { n, m, R, C := fun a => Within root a ∧ P a, watch := False } (fun _ => False) (fun _ _ => True) d)
    (h : Enforces n m R root P xs f) (hw : Wakes t xs) (ht : t.refined = []) : (Posted.mk inst P xs).Right n m R root (fun _ => False) := by
  refine ⟨fun items e => ?_, fun e he => ?_⟩
  · replace e : inst root = _ := e
    rw [hi] at e; cases e
    refine ⟨[(.init pr g, fun _ => True), (.prop f t, P)], rfl, ?_, fun a _ => by simp⟩
    intro p hp
    simp only [List.mem_cons, List.not_mem_nil, or_false] at hp
    rcases hp with rfl | rfl
    · exact fun d hd hl => ver_mono (fun _ _ _ _ _ _ => trivial) _ _ (hg d hd hl)
    · exact ⟨_, fun y hy => hy, h.implements (fun _ _ => Iff.rfl) hw ht⟩
  · replace he : inst root = _ := he
    rw [hi] at he; cases he

namespace Abs

theorem pieces_roo {f : Int × Int → Chk (List (Int × Int))} {P : Int × Int → List (Int × Int) → Prop} : ∀ (s : List (Int × Int)), (∀ p ∈ s, RightOrOverflow (f p) (P p)) →
    RightOrOverflow (pieces f s) (fun qs => (∀ q ∈ qs, ∃ p ∈ s, ∃ rs, P p rs ∧ q ∈ rs) ∧ ∀ p ∈ s, ∃ rs, P p rs ∧ ∀ q ∈ rs, q ∈ qs)
  | [], _ => .inr ⟨[], rfl, by simp, by simp⟩
  | p :: ps, h => by
    unfold pieces
    refine (h p (by simp)).bind fun rs hrs => (pieces_roo ps fun q hq => h q (List.mem_cons_of_mem _ hq)).bind fun qs hqs => .pure ⟨fun q hq => ?_, fun q hq => ?_⟩
    · rcases List.mem_append.1 hq with hq | hq
      · exact ⟨p, by simp, rs, hrs, hq⟩
      · obtain ⟨p', h1, h2⟩ := hqs.1 q hq
        exact ⟨p', List.mem_cons_of_mem _ h1, h2⟩
    · rcases List.mem_cons.1 hq with rfl | hq
      · exact ⟨rs, hrs, fun r hr => List.mem_append_left _ hr⟩
      · obtain ⟨rs', h1, h2⟩ := hqs.2 q hq
        exact ⟨rs', h1, fun r hr => List.mem_append_right _ (h2 r hr)⟩

theorem imagePiece_roo {p : Int × Int} (hp : p.1 ≤ p.2) (h1 : InI64 p.1) (h2 : InI64 p.2) : RightOrOverflow (imagePiece p) (fun rs => (∀ q ∈ rs, q.1 ≤ q.2 ∧ InI64 q.1 ∧ InI64 q.2) ∧
    ∀ y, (∃ q ∈ rs, q.1 ≤ y ∧ y ≤ q.2) ↔ ∃ x : Int, p.1 ≤ x ∧ x ≤ p.2 ∧ y = x.natAbs) := by
  unfold imagePiece
  split
  · refine .inr ⟨_, rfl, by simp only [List.mem_singleton, forall_eq]; exact ⟨hp, h1, h2⟩, fun y => ?_⟩
    simp only [List.mem_singleton, exists_eq_left]
    constructor
    · intro h; exact ⟨y, h.1, h.2, by omega⟩
    · rintro ⟨x, h⟩; omega
  · split
    · refine (neg_roo h2).bind fun l hl => (neg_roo h1).bind fun u hu => .pure ⟨?_, fun y => ?_⟩
      · simp only [List.mem_singleton, forall_eq]
        exact ⟨by omega, hl.2, hu.2⟩
      · simp only [List.mem_singleton, exists_eq_left]
        constructor
        · intro h; exact ⟨-y, by omega, by omega, by omega⟩
        · rintro ⟨x, h⟩; omega
    · refine (neg_roo h1).bind fun u hu => .pure ⟨?_, fun y => ?_⟩
      · simp only [List.mem_singleton, forall_eq]
        exact ⟨by omega, by decide, inI64_max hu.2 h2⟩
      · simp only [List.mem_singleton, exists_eq_left]
        constructor
        · intro h
          by_cases hy : y ≤ p.2
          · exact ⟨y, by omega, hy, by omega⟩
          · exact ⟨-y, by omega, by omega, by omega⟩
        · rintro ⟨x, h⟩; omega

theorem preimagePiece_roo {p : Int × Int} (hp : p.1 ≤ p.2) (h1 : InI64 p.1) (h2 : InI64 p.2) : RightOrOverflow (preimagePiece p) (fun rs => (∀ q ∈ rs, q.1 ≤ q.2 ∧ InI64 q.1 ∧ InI64 q.2) ∧
    ∀ y : Int, p.1 ≤ y → y ≤ p.2 → (∃ q ∈ rs, q.1 ≤ y ∧ y ≤ q.2) ∧ ∃ q ∈ rs, q.1 ≤ -y ∧ -y ≤ q.2) := by
  unfold preimagePiece
  split
  · refine (neg_roo h2).bind fun l hl => .pure ⟨?_, fun y hy1 hy2 => ?_⟩
    · simp only [List.mem_singleton, forall_eq]
      exact ⟨by omega, hl.2, h2⟩
    · simp only [List.mem_singleton, exists_eq_left]
      omega
  · refine (neg_roo h2).bind fun l hl => (neg_roo h1).bind fun u hu => .pure ⟨?_, fun y hy1 hy2 => ?_⟩
    · simp only [List.mem_cons, List.not_mem_nil, or_false, forall_eq_or_imp, forall_eq]
      exact ⟨⟨by omega, hl.2, hu.2⟩, hp, h1, h2⟩
    · simp only [List.mem_cons, List.not_mem_nil, or_false, exists_eq_or_imp, exists_eq_left]
      omega

theorem image_roo {s : IntervalSet} (hw : WF s) (hr : InRange s) :
    RightOrOverflow (do piecesToSet (← pieces imagePiece (eachInterval s))) (fun t => WF t ∧ InRange t ∧ ∀ y, Mem y t ↔ ∃ x : Int, Mem x s ∧ y = x.natAbs) := by
  refine (pieces_roo _ fun p hp => imagePiece_roo (hw.1 p hp) (hr p hp).1 (hr p hp).2).bind fun qs hqs => ?_
  refine (piecesToSet_roo fun q hq => ?_).mono fun t ht => ⟨ht.1, ht.2.1, fun y => ?_⟩
  · obtain ⟨p, hp, rs, h, hm⟩ := hqs.1 q hq
    exact h.1 q hm
  · rw [ht.2.2 y]
    constructor
    · rintro ⟨q, hq, h⟩
      obtain ⟨p, hp, rs, h', hm⟩ := hqs.1 q hq
      obtain ⟨x, h1, h2, h3⟩ := (h'.2 y).1 ⟨q, hm, h⟩
      exact ⟨x, ⟨p, hp, h1, h2⟩, h3⟩
    · rintro ⟨x, ⟨p, hp, h1, h2⟩, h3⟩
      obtain ⟨rs, h', hm⟩ := hqs.2 p hp
      obtain ⟨q, hq, h⟩ := (h'.2 y).2 ⟨x, h1, h2, h3⟩
      exact ⟨q, hm q hq, h⟩

theorem preimage_roo {s : IntervalSet} (hw : WF s) (hr : InRange s) :
    RightOrOverflow (do piecesToSet (← pieces preimagePiece (eachInterval s))) (fun t => WF t ∧ InRange t ∧ ∀ y, Mem y s → Mem y t ∧ Mem (-y) t) := by
  refine (pieces_roo _ fun p hp => preimagePiece_roo (hw.1 p hp) (hr p hp).1 (hr p hp).2).bind fun qs hqs => ?_
  refine (piecesToSet_roo fun q hq => ?_).mono fun t ht => ⟨ht.1, ht.2.1, fun y => ?_⟩
  · obtain ⟨p, hp, rs, h, hm⟩ := hqs.1 q hq
    exact h.1 q hm
  · rw [ht.2.2 y, ht.2.2 (-y)]
    rintro ⟨p, hp, h1, h2⟩
    obtain ⟨rs, h', hm⟩ := hqs.2 p hp
    obtain ⟨⟨q, hq, h⟩, r, hr, h''⟩ := h'.2 y h1 h2
    exact ⟨⟨q, hm q hq, h⟩, r, hm r hr, h''⟩

section
variable {σ μ : Type} {n m : Nat} {R : Err → Prop} {root d : Doms} {v1 v2 : VarId} {J : Job}

theorem towardsResult_ver (ho : J.R .overflow) (hd : DomsOK d) (hl : d.length = J.n) (h2 : v2.Valid J.n) (hc : ∀ a, J.C a → v2.eval a = (v1.eval a).natAbs) {b1 b2 : Int × Int}
    (hb1 : (InI64 b1.1 ∧ IsMin (Poss d v1) b1.1) ∧ InI64 b1.2 ∧ IsMax (Poss d v1) b1.2) : (towardsResult v2 b1 b2 : Prog σ μ Unit).Ver J (fun _ => False) (fun _ _ => True) d := by
  have hle := fun a ha => hb1.1.2.le (a := a) ha
  have hge := fun a ha => hb1.2.2.ge (a := a) ha
  have hub : RightOrOverflow (do return max (← iNeg b1.1) b1.2) (fun u => u = max (- b1.1) b1.2 ∧ InI64 u) :=
    (neg_roo hb1.1.1).bind fun r hr => .pure ⟨by rw [hr.1], inI64_max hr.2 hb1.2.1⟩
  refine ver_lift ho hub fun u hu => ?_
  refine ver_seq (S := fun _ => False) (Q' := fun _ _ => True) hd hl (fun _ h => h) (ver_onlyIf (fun _ => ?_) fun _ => trivial) fun _ d' _ _ hs _ => ?_
  · refine ver_lift ho (add_roo hu.2 (by decide)) fun w hw => ver_tell_last (.lt h2 hw.2) (fun a ha hC => ?_) fun _ _ _ _ => trivial
    rw [Lit.holds_lt]
    have := hc a hC; have := hle a ha; have := hge a ha
    omega
  · split
    · refine ver_tell_last (.ge h2 hb1.1.1) (fun a ha hC => ?_) fun _ _ _ _ => trivial
      rw [Lit.holds_ge]
      have := hc a hC; have := hle a (hs a ha)
      omega
    · split
      · refine ver_lift ho (neg_roo hb1.2.1) fun w hw => ver_onlyIf (fun _ => ver_tell_last (.ge h2 hw.2) (fun a ha hC => ?_) fun _ _ _ _ => trivial) fun _ => trivial
        rw [Lit.holds_ge]
        have := hc a hC; have := hge a (hs a ha)
        omega
      · exact trivial

theorem towardsArgument_ver (ho : J.R .overflow) (hd : DomsOK d) (hl : d.length = J.n) (h1 : v1.Valid J.n) (hc : ∀ a, J.C a → v2.eval a = (v1.eval a).natAbs) {b1 b2 : Int × Int}
    (hi : InI64 b2.2) (hge : ∀ a, Within d a → v2.eval a ≤ b2.2) : (towardsArgument v1 b1 b2 : Prog σ μ Unit).Ver J (fun _ => False) (fun _ _ => True) d := by
  refine ver_seq (S := fun _ => False) (Q' := fun _ _ => True) hd hl (fun _ h => h) (ver_onlyIf (fun _ => ?_) fun _ => trivial) fun _ d' _ _ hs _ => ?_
  · refine ver_lift ho (add_roo hi (by decide)) fun w hw => ver_tell_last (.lt h1 hw.2) (fun a ha hC => ?_) fun _ _ _ _ => trivial
    rw [Lit.holds_lt]
    have := hc a hC; have := hge a ha
    omega
  · refine ver_lift ho (neg_roo hi) fun w hw => ver_onlyIf (fun _ => ver_tell_last (.ge h1 hw.2) (fun a ha hC => ?_) fun _ _ _ _ => trivial) fun _ => trivial
    rw [Lit.holds_ge]
    have := hc a hC; have := hge a (hs a ha)
    omega

theorem prop_enforces (ho : R .overflow) (h1 : v1.Valid n) (h2 : v2.Valid n) : Enforces n m R root (fun a => v2.eval a = (v1.eval a).natAbs) [v1, v2] (prop (σ := σ) (μ := μ) v1 v2) := by
  intro d hd hl
  subst hl
  refine ver_ask (f := (copyOfValues · v1)) ho (copyOfValues_spec hd h1).drop fun s1 hs1 => ?_
  refine ver_ask (f := (copyOfValues · v2)) ho (copyOfValues_spec hd h2).drop fun s2 hs2 => ?_
  refine ver_ask (f := (bounds · v1)) ho (bounds_roo hd h1) fun b1 hb1 => ?_
  refine ver_ask (f := (bounds · v2)) ho (bounds_roo hd h2) fun b2 hb2 => ?_
  refine ver_seq (S := fun _ => False) (Q' := fun _ _ => True) hd rfl (fun _ h => h) (ver_onlyIf (fun _ => towardsResult_ver (J := { n := d.length, m, R, C := fun a => Within root a ∧ v2.eval a = (v1.eval a).natAbs }) (v1 := v1) ho hd rfl h2 (fun a hC => hC.2) hb1) fun _ => trivial) fun _ d1 hd1 hl1 sub1 _ => ?_
  refine ver_seq (S := fun _ => False) (Q' := fun _ _ => True) hd1 hl1 (fun _ h => h) (towardsArgument_ver (J := { n := d.length, m, R, C := fun a => Within root a ∧ v2.eval a = (v1.eval a).natAbs }) (v2 := v2) ho hd1 hl1 h1 (fun a hC => hC.2) hb2.2.1 fun a ha => hb2.2.2.ge (sub1 a ha)) fun _ d2 hd2 hl2 sub2 _ => ?_
  have s2d : ∀ a, Within d2 a → Within d a := fun a ha => sub1 a (sub2 a ha)
  refine ver_lift ho (image_roo hs1.1 hs1.2.1) fun im him => ?_
  refine ver_seq (S := fun _ => False) hd2 hl2 (fun _ h => h) (removeGaps_ver ho hd2 hl2 h2 ⟨hs2.1, hs2.2.1⟩ ⟨him.1, him.2.1⟩ fun a ha hC _ => ?_) fun _ d3 hd3 hl3 sub3 hq => ?_
  · exact (him.2.2 _).2 ⟨v1.eval a, (hs1.2.2 _).2 ((s2d a ha).poss v1), hC.2⟩
  refine ver_lift ho (preimage_roo hs2.1 hs2.2.1) fun pr hpr => ?_
  refine ver_seq (S := fun _ => False) hd3 hl3 (fun _ h => h) (removeGaps_ver ho hd3 hl3 h1 ⟨hs1.1, hs1.2.1⟩ ⟨hpr.1, hpr.2.1⟩ fun a ha hC _ => ?_) fun _ d4 _ _ sub4 _ => ?_
  · have hm := (hs2.2.2 _).2 ((s2d a (sub3 a ha)).poss v2)
    have hC2 : v2.eval a = (v1.eval a).natAbs := hC.2
    have hh := hpr.2.2 _ hm
    by_cases hneg : v1.eval a < 0
    · have : v1.eval a = - v2.eval a := by omega
      rw [this]; exact hh.2
    · have : v1.eval a = v2.eval a := by omega
      rw [this]; exact hh.1
  refine .intro (fun hk a ha _ => ?_) (fun h => nomatch h) fun h => nomatch h
  have ha3 := sub4 a ha
  have had := s2d a (sub3 a ha3)
  obtain ⟨x, hx, e⟩ := (him.2.2 _).1 (hq a ha3 ((hs2.2.2 _).2 (had.poss v2)))
  show v2.eval a = (v1.eval a).natAbs
  rw [(hk v1 (by simp)).poss had ((hs1.2.2 _).1 hx)]
  exact e

theorem start_ver (ho : J.R .overflow) (hd : DomsOK d) (hl : d.length = J.n) (h1 : v1.Valid J.n) (h2 : v2.Valid J.n) (hc : ∀ a, J.C a → v2.eval a = (v1.eval a).natAbs) :
    (start v1 v2 : Prog σ μ Unit).Ver J (fun _ => False) (fun _ _ => True) d := by
  unfold start
  split
  · exact trivial
  · refine ver_tell (.ge h2 (by decide)) (fun a ha hC => by rw [Lit.holds_ge]; have := hc a hC; omega) fun d1 hd1 hl1 _ => ?_
    refine ver_ask (f := (upperBound · v2)) ho (upper_roo hd1 (hl1 ▸ h2)) fun u hu => ?_
    have hge := fun a ha => hu.2.ge (a := a) ha
    refine ver_seq (S := fun _ => False) (Q' := fun _ _ => True) hd1 hl1 (fun _ h => h) (ver_onlyIf (fun _ => ?_) fun _ => trivial) fun _ d2 hd2 hl2 sub2 _ => ?_
    · refine ver_lift ho (le_roo hu.1) fun c hcc => ?_
      rw [hcc.1]
      refine ver_tell_last (.lt h1 hcc.2) (fun a ha hC => ?_) fun _ _ _ _ => trivial
      rw [Lit.holds_lt]
      have := hc a hC; have := hge a ha
      omega
    refine ver_seq (S := fun _ => False) (Q' := fun _ _ => True) hd2 hl2 (fun _ h => h) (ver_onlyIf (fun _ => ?_) fun _ => trivial) fun _ d3 hd3 hl3 sub3 _ => ?_
    · refine ver_lift ho (neg_roo hu.1) fun w hw => ver_tell_last (.ge h1 hw.2) (fun a ha hC => ?_) fun _ _ _ _ => trivial
      rw [Lit.holds_ge]
      have := hc a hC; have := hge a (sub2 a ha)
      omega
    refine ver_ask (f := (bounds · v1)) ho (bounds_roo hd3 (hl3 ▸ h1)) fun b hb => ?_
    have hub : RightOrOverflow (do Cond.le v2 (max b.2 (← iNeg b.1))) (fun c => c = Cond.lt v2 (max b.2 (- b.1) + 1) ∧ InI64 (max b.2 (- b.1) + 1)) :=
      (neg_roo hb.1.1).bind fun r hr => by rw [← hr.1]; exact le_roo (inI64_max hb.2.1 hr.2)
    refine ver_lift ho hub fun c hcc => ?_
    rw [hcc.1]
    refine ver_tell_last (.lt h2 hcc.2) (fun a ha hC => ?_) fun _ _ _ _ => trivial
    rw [Lit.holds_lt]
    have := hc a hC; have := hb.1.2.le ha; have := hb.2.2.ge ha
    omega

theorem install_right (ho : R .overflow) (h1 : v1.Valid n) (h2 : v2.Valid n) :
    (Posted.mk (install (σ := σ) (μ := μ) v1 v2) (fun a => v2.eval a = (v1.eval a).natAbs) [v1, v2]).Right n m R root (fun _ => False) :=
  right_start_prop rfl (fun _ hd hl => start_ver (J := { n, m, R, C := fun a => Within root a ∧ v2.eval a = (v1.eval a).natAbs, watch := False }) ho hd hl h1 h2 fun _ hC => hC.2) (prop_enforces ho h1 h2) (wakes_mem fun _ hx => .inl hx) rfl

end
end Abs
end Gcs
