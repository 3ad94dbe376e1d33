import Verif.Lemmas.Cons.GlobalCardinalityGac
import Verif.Lemmas.Cons.Components

/-!
# The generalised arc consistent GlobalCardinality: what is removed, and that it is right
-/

namespace Gcs.GlobalCardinality.Gac
open IntervalSet Flow
open Gcs.Gac (put put_same put_ne Scc Reach scc_spec)
open Classical

section
variable {d : Doms} {vars : List VarId} {cover : List (Int × VarId)} {closed : Bool} {fl : List Int}

/-- What the constraint asks for. -/
def Sol (vars : List VarId) (cover : List (Int × VarId)) (closed : Bool) (a : Asg) : Prop := Tally vars cover a ∧ (closed = true → ∀ x ∈ vars, x.eval a ∈ cover.map (·.1))

/-- A verdict that loses no solution. -/
def Sound (d : Doms) (vars : List VarId) (cover : List (Int × VarId)) (closed : Bool) : Verdict → Prop
  | .fail => ∀ a, Within d a → ¬ Sol vars cover closed a
  | .leave => True
  | .prune fl comp => ∀ a, Within d a → Sol vars cover closed a →
      (∀ p ∈ cover.zipIdx, ∀ q ∈ vars.zipIdx, fl (valueNode p.2) (varNode cover.length q.2) = some 0 → comp (valueNode p.2) ≠ comp (varNode cover.length q.2) → q.1.eval a ≠ p.1.1) ∧
      ∀ q ∈ vars.zipIdx, fl (dummyNode cover.length) (varNode cover.length q.2) = some 0 → comp (dummyNode cover.length) ≠ comp (varNode cover.length q.2) → closed = false ∧ q.1.eval a ∈ cover.map (·.1)

theorem dummy_edge_open {i : Nat} {f : Int} (h : flowOn (netw d vars cover closed) fl (dummyNode cover.length) (varNode cover.length i) = some f) : closed = false := by
  obtain ⟨e, hm, e1, e2⟩ := flowOn_mem h
  exact (edge_dummy (List.of_mem_zip hm).1 e1 e2).1

theorem residual_lt {es : List Orig} {n : Nat} (hes : OrigOK n es) : ∀ v < n, ∀ w ∈ residual es fl v, w < n := by
  intro v _ w hw
  obtain ⟨p, hp, hw⟩ := List.mem_flatMap.1 hw
  have := hes p.1 (List.of_mem_zip (a := p.1) (b := p.2) hp).1
  rcases List.mem_append.1 hw with h | h
  · split at h
    · rw [List.mem_singleton.1 h]; exact this.2.1
    · simp at h
  · split at h
    · rw [List.mem_singleton.1 h]; exact this.1
    · simp at h

/-- An edge that nothing flows through, between different components, is used by no solution. -/
theorem unused_edge {es : List Orig} {n : Nat} (hes : OrigOK n es) (hC : Circ es fl) {f : Orig → Int} (hb : ∀ e ∈ es, e.lo ≤ f e ∧ f e ≤ e.hi) (he : ∀ w : Nat → Int, (es.map fun e => f e * (w e.dst - w e.src)).sum = 0)
    {comp : Nat → Nat} (hcomp : ∀ v < n, ∀ w, Reach (residual es fl) v w → comp w ≤ comp v) {e : Orig} (hm : (e, 0) ∈ es.zip fl) (hne : comp e.src ≠ comp e.dst) : f e ≤ 0 := by
  refine Classical.byContradiction fun hn => hne ?_
  have hme := (List.of_mem_zip hm).1
  have h1 := hC.back hb he hm (by dsimp only; omega)
  have h2 : Reach (residual es fl) e.src e.dst := .one (List.mem_flatMap.2 ⟨(e, 0), hm, List.mem_append_left _ (by
    rw [if_pos ⟨rfl, by have := hb e hme; dsimp only; omega⟩]; exact List.mem_singleton.2 rfl)⟩)
  exact Nat.le_antisymm (hcomp _ (hes e hme).2.1 _ h1) (hcomp _ (hes e hme).1 _ h2)

theorem verdict_roo (hd : DomsOK d) (hv : ∀ x ∈ vars, x.Valid d.length) (hc : ∀ p ∈ cover, p.2.Valid d.length) (hI : ∀ p ∈ cover, InI64 p.1) (hs : closed = false → (cover.map (·.1)).Pairwise (· ≤ ·)) (hn : (cover.map (·.1)).Nodup)
    (h0 : ∀ p ∈ cover, ∀ a, Within d a → 0 ≤ p.2.eval a) : RightOrOverflow (verdict vars cover closed d) (Sound d vars cover closed) := by
  refine (network_roo hd hv hc hI hs).bind fun es hes => ?_
  obtain ⟨rfl, hb⟩ := hes
  have hok := netw_ok (vars := vars) (closed := closed) hb h0
  obtain ⟨b, fl, hf, _⟩ := feasible_spec hok
  show RightOrOverflow (feasible _ _ >>= _) _
  rw [hf]
  cases b with
  | true =>
    have hcirc := feasible_circ hok hf
    obtain ⟨s, hs1, hs2, hs3, _⟩ := scc_spec (ix := true) (residual_lt (fl := fl) hok)
    show RightOrOverflow (Scc.roots true (residual (netw d vars cover closed) fl) _ _ {} >>= _) _
    rw [hs1]
    refine .pure fun a ha hsol => ?_
    have hbe := fun e he => use_between (e := e) (closed := closed) hb ha hsol.1 he
    have hev := use_even (closed := closed) hn ha hsol.2
    refine ⟨fun p hp q hq hz hne e => ?_, fun q hq hz hne => ⟨dummy_edge_open hz, Classical.byContradiction fun hnm => ?_⟩⟩
    · obtain ⟨ed, hm, e1, e2⟩ := flowOn_mem hz
      have := unused_edge hok hcirc hbe hev hs3 hm (by rw [e1, e2]; exact hne)
      obtain ⟨src, dst, lo, hi⟩ := ed
      dsimp only at e1 e2
      rw [e1, e2, use_assign (snd_zipIdx hp).2.1 (snd_zipIdx hq).2.1, if_pos e] at this
      omega
    · obtain ⟨ed, hm, e1, e2⟩ := flowOn_mem hz
      have := unused_edge hok hcirc hbe hev hs3 hm (by rw [e1, e2]; exact hne)
      obtain ⟨src, dst, lo, hi⟩ := ed
      dsimp only at e1 e2
      rw [e1, e2, use_dummy (snd_zipIdx hq).2.1, if_pos hnm] at this
      omega
  | false =>
    obtain ⟨miss, Q, hP⟩ := feasible_partial hok hf
    refine (infeasible_roo hP hd hv hI hb (fun p hp => ?_) hn).mono fun v h => ?_
    · obtain ⟨a, ha, e⟩ := (hb p hp).has
      rw [← e]; exact h0 p hp a ha
    · rcases h with ⟨rfl, h⟩ | rfl
      · exact fun a ha hsol => h a ha hsol.1
      · trivial

end

section
variable {σ μ : Type} {J : Job} {d : Doms} {vars : List VarId} {cover : List (Int × VarId)} {closed : Bool}

theorem ver_act (ho : J.R .overflow) (hv : ∀ x ∈ vars, x.Valid J.n) (hI : ∀ p ∈ cover, InI64 p.1) (hsort : closed = false → (cover.map (·.1)).Pairwise (· ≤ ·)) (hC : ∀ a, J.C a → Sol vars cover closed a) (hd : DomsOK d)
    (hl : d.length = J.n) {v : Verdict} (hs : Sound d vars cover closed v) : (act (σ := σ) (μ := μ) vars cover v).Ver J (fun _ => True) (fun r _ => r = .enable) d := by
  cases v with
  | fail => exact fun a ha hc => hs a ha (hC a hc)
  | leave => exact rfl
  | prune fl comp =>
    refine ver_seq (S := fun _ => False) hd hl (fun _ h => h) (ver_loop _ hd hl fun p hp d1 hd1 hl1 s1 => ver_loop _ hd1 hl1 fun q hq d2 hd2 hl2 s2 => ver_onlyIf (fun h => ?_) fun _ => trivial) fun _ d1 hd1 hl1 s1 _ => ?_
    · exact ver_tell_last (.ne (hv _ (snd_zipIdx hq).2.2) (hI _ (snd_zipIdx hp).2.2)) (fun a ha hc => by
        rw [Lit.holds_ne]; exact (hs a (s1 a (s2 a ha)) (hC a hc)).1 p hp q hq h.1 h.2) fun _ _ _ _ => trivial
    · refine ver_seq (S := fun _ => False) hd1 hl1 (fun _ h => h) (ver_loop _ hd1 hl1 fun q hq d2 hd2 hl2 s2 => ver_onlyIf (fun h => ?_) fun _ => trivial) fun _ d2 _ _ _ _ => rfl
      refine ver_remove (c := fun v => bisect (cover.map (·.1)) v = false) ho (hv _ (snd_zipIdx hq).2.2) hd2 hl2 fun a ha hc hne => ?_
      rw [List.length_map] at h
      obtain ⟨h1, h2⟩ := (hs a (s1 a (s2 a ha)) (hC a hc)).2 q hq h.1 h.2
      rw [← bisect_iff (hsort h1), hne] at h2
      exact nomatch h2

end

section
variable {σ μ : Type} {n m : Nat} {R : Err → Prop} {root : Doms} {vars : List VarId} {cover : List (Int × VarId)} {closed : Bool}

theorem known_count {d : Doms} {v : Int} (hk : ∀ x ∈ vars, Known d x) {a : Asg} (ha : Within d a) {y : Int} (h : (cnt (Pinned d · v) vars : Int) ≤ y ∧ y ≤ cnt (Poss d · v) vars) : y = cnt (fun x => x.eval a = v) vars := by
  have h1 : cnt (Poss d · v) vars ≤ cnt (fun x => x.eval a = v) vars := cnt_le vars fun x hx ⟨b, hb, e⟩ => e ▸ hk x hx a b ha hb
  have h2 : cnt (fun x => x.eval a = v) vars ≤ cnt (Pinned d · v) vars := cnt_le vars fun x hx e b hb => e ▸ hk x hx b a hb ha
  omega

theorem gacProp_ver (ho : R .overflow) (hv : ∀ x ∈ vars, x.Valid n) (hp : ∀ p ∈ cover, p.2.Valid n) (hI : ∀ p ∈ cover, InI64 p.1) (hs : closed = false → (cover.map (·.1)).Pairwise (· ≤ ·)) (hn : (cover.map (·.1)).Nodup)
    {d : Doms} (hd : DomsOK d) (hl : d.length = n) :
    (gacProp (σ := σ) (μ := μ) vars cover closed).Ver { n, m, R, C := fun a => Within root a ∧ Sol vars cover closed a } (fun _ => True) (Enforced (fun a => Within root a → Tally vars cover a) ((vars ++ cover.map (·.2)).filterMap VarId.underlyingIndex) d) d := by
  refine ver_seq (S := fun _ => False) hd hl (fun _ h => h) (ver_forEach (J := { n, m, R, C := fun a => Within root a ∧ Sol vars cover closed a })
    (fun ps d' => (∀ p ∈ ps, p ∈ cover) ∧ (∀ a, Within d' a → Within d a) ∧ ∀ p ∈ cover, p ∈ ps ∨ ((∀ a, Within d' a → 0 ≤ p.2.eval a) ∧ ((∀ x ∈ vars, Known d x) → ∀ a, Within d' a → p.2.eval a = cnt (fun x => x.eval a = p.1) vars)))
    ?_ cover d hd hl ⟨fun _ h => h, fun _ h => h, fun p hp => .inl hp⟩) fun _ d1 hd1 hl1 s1 h1 => ?_
  · rintro p ps d1 hd1 hl1 ⟨hm, hsub, hinv⟩
    have hpc := hm p (by simp)
    refine ver_seq (S := fun _ => False) hd1 hl1 (fun _ h => h) (ver_countBounds ho hv (hp p hpc) (hI p hpc) (fun a ha hc => hc.2.1 p hpc) hd1 hl1) fun r d2 hd2 hl2 s2 hr => ?_
    refine ⟨fun q hq => hm q (List.mem_cons_of_mem _ hq), fun a ha => hsub a (s2 a ha), fun q hq => ?_⟩
    rcases hinv q hq with h | ⟨h, h'⟩
    · rcases List.mem_cons.1 h with rfl | h
      · refine .inr ⟨fun a ha => by have := (hr.2.2 a ha).1; omega, fun hk a ha => known_count (fun x hx => (hk x hx).sub hsub) (s2 a ha) (hr.2.2 a ha)⟩
      · exact .inl h
    · exact .inr ⟨fun a ha => h a (s2 a ha), fun hk a ha => h' hk a (s2 a ha)⟩
  · have h2 := fun p hp => (h1.2.2 p hp).resolve_left (by simp)
    refine ver_ask (f := verdict vars cover closed) ho (verdict_roo hd1 (hl1 ▸ hv) (hl1 ▸ hp) hI hs hn fun p hp => (h2 p hp).1) fun v hvs => ?_
    refine ver_mono (fun r d2 hq => ?_) _ _ (ver_within hd1 hl1 (fun _ h => h) (ver_act (J := { n, m, R, C := fun a => Within root a ∧ Sol vars cover closed a }) ho hv hI hs (fun a hc => hc.2) hd1 hl1 hvs))
    obtain ⟨rfl, s2⟩ := hq
    refine .intro (fun hk a ha _ p hp => ?_) (fun h => nomatch h) fun h => nomatch h
    exact (h2 p hp).2 (fun x hx => hk x (by simp [hx])) a (s2 a ha)

theorem install_right {values : List Int} {counts : List VarId} (ho : R .overflow) (hv : ∀ x ∈ vars, x.Valid n) (hc : ∀ x ∈ counts, x.Valid n) (hI : ∀ v ∈ values, InI64 v) (hn : values.Nodup)
    (hs : closed = false → values.Pairwise (· ≤ ·)) (hlen : values.length ≤ counts.length) :
    (Posted.mk (install (σ := σ) (μ := μ) vars values counts closed) (fun a => Tally vars (values.zip counts) a ∧ (closed = true → ∀ x ∈ vars, x.eval a ∈ values)) (vars ++ counts)).Right n m R root (fun _ => False) := by
  have e : install (σ := σ) (μ := μ) vars values counts closed root = .ok (closedItems vars values closed ++ [.prop (gacProp vars (values.zip counts) closed) { onChange := vars, onBounds := counts }]) := by
    rw [install, pairUp_ok _ _ (by omega)]; rfl
  refine ⟨fun items h => ?_, fun x h => ?_⟩
  · replace h : install vars values counts closed root = _ := h
    rw [e] at h; cases h
    have hfst : ((values.zip counts).map (·.1)) = values := List.map_fst_zip (by omega)
    have hmem : ∀ p ∈ values.zip counts, p.1 ∈ values ∧ p.2 ∈ counts := fun p hp => List.of_mem_zip hp
    refine Posts.append (D1 := fun a => closed = true → ∀ x ∈ vars, x.eval a ∈ values) (D2 := Tally vars (values.zip counts)) (closed_ok ho hv (fun x hx => List.mem_append_left _ hx) closed fun a h => h.2)
      ⟨[(.prop (gacProp vars (values.zip counts) closed) { onChange := vars, onBounds := counts }, Tally vars (values.zip counts))], rfl, fun p hp => ?_, by simp⟩ fun a _ => and_comm
    rw [List.mem_singleton.1 hp]
    have hcs : ∀ y ∈ (values.zip counts).map (·.2), y ∈ counts := fun y hy => by obtain ⟨p, hp, rfl⟩ := List.mem_map.1 hy; exact (hmem p hp).2
    refine ⟨vars ++ (values.zip counts).map (·.2), fun y hy => (List.mem_append.1 hy).elim (List.mem_append_left _) fun h => List.mem_append_right _ (hcs y h),
      ⟨wakes_mem fun x hx => (List.mem_append.1 hx).imp id fun h => .inl (hcs x h), by simp, fun d hd hl => ?_⟩⟩
    refine ver_mono (fun _ _ h => h.when) _ _ (ver_weaken (J := { n, m, R, C := fun a => Within root a ∧ Sol vars (values.zip counts) closed a }) _ d (fun a _ hh => ⟨hh.1, hh.2.1, ?_⟩)
      (gacProp_ver ho hv (fun p hp => hc _ (hmem p hp).2) (fun p hp => hI _ (hmem p hp).1) (by rw [hfst]; exact hs) (by rw [hfst]; exact hn) hd hl))
    rw [hfst]; exact hh.2.2
  · replace h : install vars values counts closed root = _ := h
    rw [e] at h; cases h

end
end Gcs.GlobalCardinality.Gac
