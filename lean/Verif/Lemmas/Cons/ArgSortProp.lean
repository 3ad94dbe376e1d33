import Verif.Lemmas.Cons.ArgSortMeans
import Verif.Lemmas.Cons.MinDistanceInstall

/-!
# The propagation functions of ArgSort
-/

namespace Gcs.ArgSort
open IntervalSet

section
variable {σ μ : Type} {J : Job} {d : Doms} {x p ys : List VarId} {off : Int}

/-- What is at position `j` has the value of the element that is said to be there. -/
def Follows (x : List VarId) (off : Int) (q : VarId × VarId) (a : Asg) : Prop :=
  ∀ (k : Nat) (xk : VarId), x[k]? = some xk → q.1.eval a = off + k → q.2.eval a = xk.eval a

theorem place_roo (ho : InI64 off) (k : Nat) : RightOrOverflow (do iAdd off (← ofSize k)) (fun v => v = off + (k : Int) ∧ InI64 v) :=
  (ofSize_roo k).bind fun K hK => (add_roo ho hK.2).mono fun r hr => ⟨by rw [hr.1, hK.1], hr.2⟩

theorem ver_ruleOut (ho : J.R .overflow) (hoff : InI64 off) (hx : ∀ v ∈ x, v.Valid J.n) {q : VarId × VarId} (hp : q.1.Valid J.n) {yb : Int × Int} {k : Nat} (hk : k < x.length) (hd : DomsOK d) (hl : d.length = J.n)
    (hy : ∀ a, Within d a → yb.1 ≤ q.2.eval a ∧ q.2.eval a ≤ yb.2) (hC : ∀ a, Within d a → J.C a → Follows x off q a) :
    (ruleOut x off q.1 yb k : Prog σ μ Unit).Ver J (fun _ => False) (fun _ _ => True) d := by
  refine ver_lift ho (place_roo hoff k) fun pv hpv => ?_
  refine ver_ask (f := (inDomain · q.1 pv)) ho (inDomain_spec hd (hl ▸ hp) pv hpv.2) fun b _ => ?_
  refine ver_onlyIf (fun _ => ?_) fun _ => trivial
  have e := List.getElem?_eq_getElem hk
  rw [vecAt_ok.2 e]
  refine ver_ask (f := (bounds · x[k])) ho (bounds_roo hd (hl ▸ hx _ (List.getElem_mem hk))) fun xb hxb => ?_
  refine ver_onlyIf (fun hout => ?_) fun _ => trivial
  refine ver_tell_last (.ne hp hpv.2) (fun a ha hc => ?_) fun _ _ _ _ => trivial
  rw [Lit.holds_ne]
  intro hE
  have e1 := hC a ha hc k _ e (hE.trans hpv.1)
  have e2 := hy a ha
  have e3 := hxb.1.2.le ha
  have e4 := hxb.2.2.ge ha
  omega

theorem ver_equate (ho : J.R .overflow) {xk yj : VarId} (hx : xk.Valid J.n) (hy : yj.Valid J.n) {xb yb : Int × Int} (hd : DomsOK d) (hl : d.length = J.n)
    (h1 : InI64 xb.1 ∧ InI64 xb.2) (h2 : InI64 yb.1 ∧ InI64 yb.2) (hxb : ∀ a, Within d a → xb.1 ≤ xk.eval a ∧ xk.eval a ≤ xb.2) (hyb : ∀ a, Within d a → yb.1 ≤ yj.eval a ∧ yj.eval a ≤ yb.2)
    (hC : ∀ a, Within d a → J.C a → yj.eval a = xk.eval a) :
    (equate xk yj xb yb : Prog σ μ Unit).Ver J (fun _ => False) (fun _ d' => ∀ a, Within d' a → xb.1 ≤ yj.eval a ∧ yj.eval a ≤ xb.2) d := by
  refine ver_seq (S := fun _ => False) (Q' := fun _ d' => ∀ a, Within d' a → xb.1 ≤ yj.eval a) hd hl (fun _ h => h) (ver_onlyIf (fun hlt => ?_) fun hge a ha => ?_) fun _ d1 k1 k2 s1 q1 => ?_
  · refine ver_tell_last (.ge hy h1.1) (fun a ha hc => ?_) fun d' _ _ h a ha => ?_
    · rw [Lit.holds_ge, hC a ha hc]; exact (hxb a ha).1
    · have := ((h a).1 ha).2; rwa [Lit.holds_ge] at this
  · have := hyb a ha; omega
  refine ver_seq (S := fun _ => False) (Q' := fun _ d' => ∀ a, Within d' a → xb.1 ≤ yj.eval a ∧ yj.eval a ≤ xb.2) k1 k2 (fun _ h => h) (ver_onlyIf (fun hlt => ?_) fun hge a ha => ?_) fun _ d2 k3 k4 s2 q2 => ?_
  · refine ver_lift ho (add_roo h1.2 (by decide)) fun u hu => ?_
    refine ver_tell_last (.lt hy hu.2) (fun a ha hc => ?_) fun d' _ _ h a ha => ?_
    · have := hC a (s1 a ha) hc
      have := hxb a (s1 a ha)
      rw [Lit.holds_lt]; omega
    · have hh := (h a).1 ha
      have := hh.2
      rw [Lit.holds_lt] at this
      exact ⟨q1 a hh.1, by omega⟩
  · exact ⟨q1 a ha, by have := hyb a (s1 a ha); omega⟩
  refine ver_seq (S := fun _ => False) (Q' := fun _ d' => ∀ a, Within d' a → xb.1 ≤ yj.eval a ∧ yj.eval a ≤ xb.2) k3 k4 (fun _ h => h) (ver_onlyIf (fun hlt => ?_) fun hge => q2) fun _ d3 k5 k6 s3 q3 => ?_
  · refine ver_tell_last (.ge hx h2.1) (fun a ha hc => ?_) fun d' _ _ h a ha => q2 a ((h a).1 ha).1
    have hh := s1 a (s2 a ha)
    rw [Lit.holds_ge, ← hC a hh hc]; exact (hyb a hh).1
  refine ver_onlyIf (fun hlt => ?_) fun hge => q3
  refine ver_lift ho (add_roo h2.2 (by decide)) fun u hu => ?_
  refine ver_tell_last (.lt hx hu.2) (fun a ha hc => ?_) fun d' _ _ h a ha => q3 a ((h a).1 ha).1
  have hh := s1 a (s2 a (s3 a ha))
  have := hC a hh hc
  have := hyb a hh
  rw [Lit.holds_lt]; omega

theorem ver_channelOne (ho : J.R .overflow) (hoff : InI64 off) (hx : ∀ v ∈ x, v.Valid J.n) {q : VarId × VarId} (hp : q.1.Valid J.n) (hy : q.2.Valid J.n) (hd : DomsOK d) (hl : d.length = J.n)
    (hin : ∀ v, Poss d q.1 v → off ≤ v ∧ v < off + x.length) (hC : ∀ a, Within d a → J.C a → Follows x off q a) :
    (channelOne x off q : Prog σ μ Unit).Ver J (fun _ => False) (fun _ d' => (∀ v ∈ x, Known d v) → Known d q.1 → ∀ a, Within d' a → Follows x off q a) d := by
  refine ver_ask (f := (bounds · q.2)) ho (bounds_roo hd (hl ▸ hy)) fun yb hyb => ?_
  have hyb' : ∀ a, Within d a → yb.1 ≤ q.2.eval a ∧ q.2.eval a ≤ yb.2 := fun a ha => ⟨hyb.1.2.le ha, hyb.2.2.ge ha⟩
  refine ver_seq (S := fun _ => False) hd hl (fun _ h => h) (ver_forEach (fun rest d' => (∀ k ∈ rest, k < x.length) ∧ ∀ a, Within d' a → Within d a) (fun k rest d1 k1 k2 ⟨k3, k4⟩ => ?_) (List.range x.length) d hd hl
    ⟨fun k hk => List.mem_range.1 hk, fun _ h => h⟩) fun _ d1 k1 k2 s1 _ => ?_
  · exact ver_mono (fun _ d' hq => ⟨fun j hj => k3 j (List.mem_cons_of_mem _ hj), fun a ha => k4 a (hq.1.2.2 a ha)⟩) _ _ (ver_facts _ _ k1 k2
      (ver_ruleOut ho hoff hx hp (k3 k List.mem_cons_self) k1 k2 (fun a ha => hyb' a (k4 a ha)) fun a ha => hC a (k4 a ha)))
  refine ver_ask (f := (optionalSingleValue · q.1)) ho (single_pin k1 (k2 ▸ hp)) fun o hov => ?_
  cases o with
  | none =>
    intro _ hk a ha
    have := ((hov (q.1.eval a)).1.2 ((hk.sub s1).pinned ha))
    cases this
  | some v =>
    obtain ⟨h1, h2⟩ := hov v
    have hpin := h1.1 rfl
    obtain ⟨a0, ha0⟩ := exists_within k1
    have hr := hin v ⟨a0, s1 a0 ha0, hpin a0 ha0⟩
    refine ver_lift ho (sub_roo (h2 rfl) hoff) fun k hk => ?_
    obtain ⟨xk, e1, e2⟩ := atIndex_ok (xs := x) (k := k) (by rw [hk.1]; omega) (by rw [hk.1]; omega)
    rw [e1]
    have hxv := hx xk (List.mem_of_getElem? e2)
    refine ver_ask (f := (bounds · xk)) ho (bounds_roo k1 (k2 ▸ hxv)) fun xb hxb => ?_
    have hv : v = off + (k.toNat : Nat) := by rw [hk.1]; omega
    refine ver_mono (fun _ d' hq hkx _ a ha i xi hi hE => ?_) _ _ (ver_facts _ _ k1 k2 (ver_equate ho hxv hy k1 k2 ⟨hxb.1.1, hxb.2.1⟩ ⟨hyb.1.1, hyb.2.1⟩ (fun a ha => ⟨hxb.1.2.le ha, hxb.2.2.ge ha⟩)
      (fun a ha => hyb' a (s1 a ha)) fun a ha hc => hC a (s1 a ha) hc _ xk e2 ((hpin a ha).trans hv)))
    have h3 := hpin a (hq.1.2.2 a ha)
    have hik : i = k.toNat := by omega
    subst hik
    rw [e2] at hi
    cases hi
    have hkn := (hkx xk (List.mem_of_getElem? e2)).sub s1
    have l1 := hxb.1.2.eq hkn (hq.1.2.2 a ha)
    have l2 := hxb.2.2.eq hkn (hq.1.2.2 a ha)
    have := hq.2 a ha
    omega

/-- All positions. -/
def Channels (x p ys : List VarId) (off : Int) (a : Asg) : Prop := ∀ q ∈ p.zip ys, Follows x off q a

theorem ver_channel (ho : J.R .overflow) (hoff : InI64 off) (hx : ∀ v ∈ x, v.Valid J.n) (hp : ∀ v ∈ p, v.Valid J.n) (hy : ∀ v ∈ ys, v.Valid J.n) (hd : DomsOK d) (hl : d.length = J.n)
    (hin : Inverse.Inside d off x.length p) (hC : ∀ a, Within d a → J.C a → Channels x p ys off a) :
    (Prog.forEach (channelOne x off) (p.zip ys) : Prog σ μ Unit).Ver J (fun _ => False) (fun _ d' => (∀ v ∈ x ++ p, Known d v) → ∀ a, Within d' a → Channels x p ys off a) d := by
  refine ver_mono (fun _ d' hq hk a ha q hm => (hq.2.2 q hm).resolve_left (fun h => nomatch h) hk a ha) _ _ (ver_forEach (fun rest d' => (∀ q ∈ rest, q ∈ p.zip ys) ∧ (∀ a, Within d' a → Within d a) ∧
    ∀ q ∈ p.zip ys, q ∈ rest ∨ ((∀ v ∈ x ++ p, Known d v) → ∀ a, Within d' a → Follows x off q a)) (fun q rest d1 k1 k2 ⟨k3, k4, k5⟩ => ?_) (p.zip ys) d hd hl ⟨fun _ h => h, fun _ h => h, fun q h => .inl h⟩)
  have hm : q.1 ∈ p ∧ q.2 ∈ ys := List.of_mem_zip (k3 q List.mem_cons_self)
  refine ver_mono (fun _ d' hq => ⟨fun r hr => k3 r (List.mem_cons_of_mem _ hr), fun a ha => k4 a (hq.1.2.2 a ha), fun r hr => ?_⟩) _ _ (ver_facts _ _ k1 k2 (ver_channelOne ho hoff hx (hp _ hm.1) (hy _ hm.2) k1 k2
    (fun v hv => hin _ hm.1 v (Inverse.Poss.mono k4 hv)) fun a ha hc => hC a (k4 a ha) hc q (k3 q List.mem_cons_self)))
  rcases k5 r hr with h | h
  · rcases List.mem_cons.1 h with rfl | h
    · exact .inr fun hk a ha => hq.2 (fun v hv => (hk v (List.mem_append_left _ hv)).sub k4) ((hk _ (List.mem_append_right _ hm.1)).sub k4) a ha
    · exact .inl h
  · exact .inr fun hk a ha => h hk a (hq.1.2.2 a ha)

/-- Number `k` is where its rank says. -/
def Rank (x p : List VarId) (off : Int) (k : Nat) (a : Asg) : Prop :=
  ∀ q ∈ p.zipIdx, q.1.eval a = off + (k : Int) → q.2 = tally x.length k ((x.map (·.eval a)).getD · 0) ((x.map (·.eval a)).getD k 0)

theorem ver_rankOne (ho : J.R .overflow) (hoff : InI64 off) {k : Nat} {reach : Nat → Bool} {q : VarId × Nat} (hp : q.1.Valid J.n) (hd : DomsOK d) (hl : d.length = J.n)
    (hC : ∀ a, Within d a → J.C a → q.1.eval a = off + k → reach q.2 = true) :
    (rankOne off k reach q : Prog σ μ Unit).Ver J (fun _ => False) (fun _ d' => ∀ a, Within d' a → q.1.eval a = off + k → reach q.2 = true) d := by
  refine ver_onlyIf (fun hn => ?_) fun hn _ _ _ => by simpa using hn
  refine ver_lift ho (place_roo hoff k) fun pv hpv => ?_
  refine ver_ask (f := (inDomain · q.1 pv)) ho (inDomain_spec hd (hl ▸ hp) pv hpv.2) fun b hb => ?_
  refine ver_onlyIf (fun _ => ?_) fun hbn a ha hE => ?_
  · refine ver_tell_last (.ne hp hpv.2) (fun a ha hc => ?_) fun d' _ _ h a ha hE => ?_
    · rw [Lit.holds_ne]
      intro hE
      have := hC a ha hc (hE.trans hpv.1)
      rw [hn] at this; cases this
    · have := ((h a).1 ha).2
      rw [Lit.holds_ne] at this
      exact absurd (hE.trans hpv.1.symm) this
  · exact absurd (hb.2 ⟨a, ha, hE.trans hpv.1.symm⟩) hbn

theorem getD_map {k : Nat} {v : VarId} {a : Asg} (h : x[k]? = some v) : (x.map (·.eval a)).getD k 0 = v.eval a := by
  rw [List.getD_eq_getElem?_getD, List.getElem?_map, h]; rfl

theorem ver_rankFor (ho : J.R .overflow) (hoff : InI64 off) (hx : ∀ v ∈ x, v.Valid J.n) (hp : ∀ v ∈ p, v.Valid J.n) {k : Nat} (hk : k < x.length) (hd : DomsOK d) (hl : d.length = J.n)
    (hin : ∀ v ∈ x, ∀ y, Poss d v y → Inner y) (hC : ∀ a, Within d a → J.C a → Rank x p off k a) :
    (rankFor x p off k : Prog σ μ Unit).Ver J (fun _ => False) (fun _ d' => (∀ v ∈ x, Known d v) → ∀ a, Within d' a → Rank x p off k a) d := by
  refine ver_ask (f := fun d => AllDifferent.mapAll (bounds d ·) x) ho (AllDifferent.mapAll_roo x fun v h => bounds_roo hd (hl ▸ hx v h)) fun bs hb => ?_
  have at' : ∀ i (hi : i < x.length), IsMin (Poss d x[i]) (bs.getD i (0, 0)).1 ∧ IsMax (Poss d x[i]) (bs.getD i (0, 0)).2 := fun i hi => by
    have hl' : i < bs.length := by rw [hb.1]; exact hi
    have := hb.2 i x[i] bs[i] (List.getElem?_eq_getElem hi) (List.getElem?_eq_getElem hl')
    have e2 : bs.getD i (0, 0) = bs[i] := by simp [List.getD_eq_getElem?_getD, hl']
    rw [e2]
    exact ⟨this.1.2, this.2.2⟩
  obtain ⟨vs, e, ht⟩ := cands_ok (n := x.length) (lo := fun i => (bs.getD i (0, 0)).1) (hi := fun i => (bs.getD i (0, 0)).2) (k := k) fun i hi =>
    ⟨hin _ (List.getElem_mem hi) _ (at' i hi).1.1, hin _ (List.getElem_mem hi) _ (at' i hi).2.1⟩
  dsimp only
  rw [e]
  show (Prog.forEach (rankOne off k (reachable x.length _ _ k vs)) p.zipIdx : Prog σ μ Unit).Ver J _ _ d
  have ev : ∀ (a : Asg) i (hi : i < x.length), (x.map (·.eval a)).getD i 0 = x[i].eval a := fun a i hi => getD_map (List.getElem?_eq_getElem hi)
  have lt : ∀ i, i < x.length ∨ i = k → i < x.length := fun i h => h.elim id fun e => e ▸ hk
  have sound : ∀ a, Within d a → J.C a → ∀ q ∈ p.zipIdx, q.1.eval a = off + k → reachable x.length (fun i => (bs.getD i (0, 0)).1) (fun i => (bs.getD i (0, 0)).2) k vs q.2 = true := fun a ha hc q hq hE => by
    rw [hC a ha hc q hq hE]
    refine ht.complete (f := ((x.map (·.eval a)).getD · 0)) fun i hi => ?_
    rw [ev a i (lt i hi)]
    exact ⟨(at' i (lt i hi)).1.le ha, (at' i (lt i hi)).2.ge ha⟩
  refine ver_mono (fun _ d' hq hkn a ha q hm hE => ?_) _ _ (ver_forEach (fun rest d' => (∀ q ∈ rest, q ∈ p.zipIdx) ∧ (∀ a, Within d' a → Within d a) ∧
    ∀ q ∈ p.zipIdx, q ∈ rest ∨ ∀ a, Within d' a → q.1.eval a = off + k → reachable x.length (fun i => (bs.getD i (0, 0)).1) (fun i => (bs.getD i (0, 0)).2) k vs q.2 = true) (fun q rest d1 k1 k2 ⟨k3, k4, k5⟩ => ?_) p.zipIdx d hd hl
    ⟨fun _ h => h, fun _ h => h, fun q h => .inl h⟩)
  · refine ht.exact (f := ((x.map (·.eval a)).getD · 0)) (fun i hi => ?_) ((hq.2.2 q hm).resolve_left (fun h => nomatch h) a ha hE)
    rw [ev a i (lt i hi)]
    have hki := hkn _ (List.getElem_mem (lt i hi))
    exact ⟨(at' i (lt i hi)).1.eq hki (hq.2.1 a ha), ((at' i (lt i hi)).2.eq hki (hq.2.1 a ha)).symm⟩
  · have hm := k3 q List.mem_cons_self
    have hpq : q.1 ∈ p := List.mem_of_getElem? (List.mem_zipIdx_iff_getElem?.1 hm)
    refine ver_mono (fun _ d' hq => ⟨fun r hr => k3 r (List.mem_cons_of_mem _ hr), fun a ha => k4 a (hq.1.2.2 a ha), fun r hr => ?_⟩) _ _ (ver_facts _ _ k1 k2 (ver_rankOne ho hoff (hp _ hpq) k1 k2
      fun a ha hc hE => sound a (k4 a ha) hc q hm hE))
    rcases k5 r hr with h | h
    · rcases List.mem_cons.1 h with rfl | h
      · exact .inr hq.2
      · exact .inl h
    · exact .inr fun a ha => h a (hq.1.2.2 a ha)

theorem ver_rank (ho : J.R .overflow) (hoff : InI64 off) (hx : ∀ v ∈ x, v.Valid J.n) (hp : ∀ v ∈ p, v.Valid J.n) (hd : DomsOK d) (hl : d.length = J.n)
    (hin : ∀ v ∈ x, ∀ y, Poss d v y → Inner y) (hC : ∀ a, Within d a → J.C a → ∀ k < x.length, Rank x p off k a) :
    (Prog.forEach (rankFor x p off) (List.range x.length) : Prog σ μ Unit).Ver J (fun _ => False) (fun _ d' => (∀ v ∈ x, Known d v) → ∀ a, Within d' a → ∀ k < x.length, Rank x p off k a) d := by
  refine ver_mono (fun _ d' hq hk a ha k hlt => (hq.2.2 k hlt).resolve_left (fun h => nomatch h) hk a ha) _ _ (ver_forEach (fun rest d' => (∀ k ∈ rest, k < x.length) ∧ (∀ a, Within d' a → Within d a) ∧
    ∀ k < x.length, k ∈ rest ∨ ((∀ v ∈ x, Known d v) → ∀ a, Within d' a → Rank x p off k a)) (fun k rest d1 k1 k2 ⟨k3, k4, k5⟩ => ?_) (List.range x.length) d hd hl ⟨fun k h => List.mem_range.1 h, fun _ h => h, fun k h => .inl (List.mem_range.2 h)⟩)
  have hk := k3 k List.mem_cons_self
  refine ver_mono (fun _ d' hq => ⟨fun r hr => k3 r (List.mem_cons_of_mem _ hr), fun a ha => k4 a (hq.1.2.2 a ha), fun r hr => ?_⟩) _ _ (ver_facts _ _ k1 k2 (ver_rankFor ho hoff hx hp hk k1 k2
    (fun v hv y hy => hin v hv y (Inverse.Poss.mono k4 hy)) fun a ha hc => hC a (k4 a ha) hc k hk))
  rcases k5 r hr with h | h
  · rcases List.mem_cons.1 h with rfl | h
    · exact .inr fun hkn a ha => hq.2 (fun v hv => (hkn v hv).sub k4) a ha
    · exact .inl h
  · exact .inr fun hkn a ha => h hkn a (hq.1.2.2 a ha)

end
end Gcs.ArgSort
