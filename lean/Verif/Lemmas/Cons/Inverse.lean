import Verif.Model.Cons.Inverse
import Verif.Spec.Inverse
import Verif.Lemmas.Cons.AllDifferentInstall

/-!
# `define_bound`, SymmetricAllDifferent and Inverse
-/

namespace Gcs
open IntervalSet

theorem atIndex_ok {α : Type} {xs : List α} {k : Int} (h0 : 0 ≤ k) (h1 : k < xs.length) : ∃ w, atIndex xs k = .ok w ∧ xs[k.toNat]? = some w := by
  have hl : k.toNat < xs.length := by omega
  refine ⟨xs[k.toNat], ?_, List.getElem?_eq_getElem hl⟩
  rw [atIndex, if_neg (by omega), vecAt_ok, List.getElem?_eq_getElem hl]

section
variable {σ μ : Type} {n m : Nat} {R : Err → Prop} {root : Doms} {C : Asg → Prop}

/-- Initialisers that together see to `e`. -/
structure Inits (n m : Nat) (R : Err → Prop) (root : Doms) (C e : Asg → Prop) (items : List (Item σ μ)) : Prop where
  out : ∃ es : List (Item σ μ × (Asg → Prop)), es.map (·.1) = items ∧ (∀ p ∈ es, (∃ q f, p.1 = .init q f) ∧ ∀ I own xs, p.1.Served n m R root I own C xs p.2) ∧ ∀ a, Within root a → ((∀ p ∈ es, p.2 a) ↔ e a)

theorem Inits.nil {e : Asg → Prop} (h : ∀ a, Within root a → e a) : Inits n m R root C e ([] : List (Item σ μ)) := ⟨[], rfl, by simp, fun a ha => by simpa using h a ha⟩

theorem Inits.append {e1 e2 e : Asg → Prop} {xs ys : List (Item σ μ)} (h1 : Inits n m R root C e1 xs) (h2 : Inits n m R root C e2 ys) (h : ∀ a, Within root a → (e a ↔ e1 a ∧ e2 a)) : Inits n m R root C e (xs ++ ys) := by
  obtain ⟨s1, a1, b1, c1⟩ := h1.out
  obtain ⟨s2, a2, b2, c2⟩ := h2.out
  refine ⟨s1 ++ s2, by simp [a1, a2], fun p hp => (List.mem_append.1 hp).elim (b1 p) (b2 p), fun a ha => ?_⟩
  rw [List.forall_mem_append, c1 a ha, c2 a ha, h a ha]

theorem lower_inits (ho : R .overflow) (hd : DomsOK root) {v : VarId} {k : Int} (hv : v.Valid root.length) (hk : InI64 k) (hC : ∀ a, Within root a → C a → k ≤ v.eval a) :
    RightOrOverflow (defineLower (σ := σ) (μ := μ) root v k) (Inits root.length m R root C (fun a => k ≤ v.eval a)) := by
  refine (lower_roo hd hv).bind fun l hll => ?_
  split
  · rename_i h
    exact .pure (.nil fun a ha => Int.le_trans h (hll.2.2 _ (ha.poss v)))
  · refine .pure ⟨[(_, fun a => k ≤ v.eval a)], rfl, ?_, fun a _ => by simp⟩
    rw [List.forall_mem_singleton]
    refine ⟨⟨_, _, rfl⟩, fun I own xs d hd1 hl1 => ?_⟩
    refine ver_tell_last (.ge hv hk) (fun a ha hc => ?_) fun d' _ _ h => ?_
    · rw [Lit.holds_ge]; exact hC a hc.1 hc.2
    · intro a ha _
      have := ((h a).1 ha).2
      rwa [Lit.holds_ge] at this

theorem upper_inits (ho : R .overflow) (hd : DomsOK root) {v : VarId} {k : Int} (hv : v.Valid root.length) (hk : InI64 k) (hC : ∀ a, Within root a → C a → v.eval a ≤ k) :
    RightOrOverflow (defineUpper (σ := σ) (μ := μ) root v k) (Inits root.length m R root C (fun a => v.eval a ≤ k)) := by
  refine (upper_roo hd hv).bind fun l hll => ?_
  split
  · rename_i h
    exact .pure (.nil fun a ha => Int.le_trans (hll.2.2 _ (ha.poss v)) h)
  · refine .pure ⟨[(_, fun a => v.eval a ≤ k)], rfl, ?_, fun a _ => by simp⟩
    rw [List.forall_mem_singleton]
    refine ⟨⟨_, _, rfl⟩, fun I own xs d hd1 hl1 => ?_⟩
    refine ver_lift (J := { n := root.length, m, R, C := fun a => Within root a ∧ C a, watch := False }) ho (le_roo hk) fun c hc => ?_
    rw [hc.1]
    refine ver_tell_last (.lt hv hc.2) (fun a ha hc => ?_) fun d' _ _ h => ?_
    · rw [Lit.holds_lt]; have := hC a hc.1 hc.2; omega
    · intro a ha _
      have := ((h a).1 ha).2
      rw [Lit.holds_lt] at this
      omega

theorem range_inits (ho : R .overflow) (hd : DomsOK root) {lo : Int} {k : Nat} (hlo : InI64 lo) : ∀ vs : List VarId, (∀ v ∈ vs, v.Valid root.length) →
    (∀ a, Within root a → C a → ∀ v ∈ vs, lo ≤ v.eval a ∧ v.eval a < lo + k) →
    RightOrOverflow (defineRange (σ := σ) (μ := μ) root lo k vs) (Inits root.length m R root C (fun a => ∀ v ∈ vs, lo ≤ v.eval a ∧ v.eval a < lo + k))
  | [], _, _ => .pure (.nil fun _ _ => by simp)
  | v :: vs, hv, hC => by
    unfold defineRange
    refine (lower_inits (m := m) ho hd (hv v (by simp)) hlo fun a ha hc => (hC a ha hc v (by simp)).1).bind fun is his => ?_
    refine (ofSize_roo k).bind fun K hK => (add_roo hlo hK.2).bind fun s hs => (sub_roo hs.2 (by decide)).bind fun hi hhi => ?_
    have e : hi = lo + k - 1 := by rw [hhi.1, hs.1, hK.1]
    refine (upper_inits (m := m) ho hd (hv v (by simp)) hhi.2 fun a ha hc => by have := (hC a ha hc v (by simp)).2; omega).bind fun js hjs => ?_
    refine (range_inits ho hd hlo vs (fun w h => hv w (by simp [h])) fun a ha hc w h => hC a ha hc w (by simp [h])).bind fun rest hr => .pure ?_
    refine (his.append hjs (e := fun a => lo ≤ v.eval a ∧ v.eval a < lo + k) fun a _ => ⟨fun h => ⟨h.1, by have := h.2; omega⟩, fun h => ⟨h.1, by have := h.2; omega⟩⟩).append hr fun a _ => ?_
    rw [List.forall_mem_cons]

/-- Initialisers and a propagator that relies on them. -/
theorem Inits.served {z0 : List σ} {e c : Asg → Prop} {I : Doms → Prop} {items : List (Item σ μ)} {f : Prog σ μ PState} {t : Triggers} {xs ys : List VarId} (h : Inits n m R root C e items)
    (hs : Serves n m R root (fun d _ => I d) (fun _ => False) f t C c ys) (hy : ∀ y ∈ ys, y ∈ xs) (hC : ∀ a, Within root a → (C a ↔ e a ∧ c a)) (h1 : ∀ d d', (∀ a, Within d' a → Within d a) → I d → I d')
    (h2 : ∀ d, DomsOK d → d.length = n → (∀ a, Within d a → Within root a ∧ e a) → I d) :
    ∃ I es, es.map (·.1) = items ++ [Item.prop f t] ∧ Served n m R root z0 I (fun _ => False) C xs es := by
  obtain ⟨es, e1, e2, e3⟩ := h.out
  refine ⟨fun d _ => I d, es ++ [(.prop f t, c)], by simp [e1], ⟨?_, fun a ha => ?_, fun d d' _ _ _ hs => h1 d d' hs, fun _ _ _ _ hi => hi, fun d hd hl hq => ?_⟩⟩
  · rw [List.forall_mem_append, List.forall_mem_singleton]
    exact ⟨fun p hp => (e2 p hp).2 _ _ _, ys, hy, hs⟩
  · rw [List.forall_mem_append, List.forall_mem_singleton, e3 a ha]; exact hC a ha
  · refine h2 d hd hl fun a ha => ⟨(hq a ha).1, (e3 a (hq a ha).1).1 fun p hp => (hq a ha).2 p (List.mem_append_left _ hp) (e2 p hp).1⟩

end

namespace Inverse

section
variable {σ μ : Type} {J : Job} {d : Doms} {xs ys : List VarId} {xStart yStart : Int}

/-- The value `v` for number `i` has something at the other end. -/
def Supported (ys : List VarId) (xStart yStart : Int) (d : Doms) (i : Nat) (v : Int) : Prop :=
  ∃ (k : Nat) (w : VarId), ys[k]? = some w ∧ v = yStart + k ∧ Poss d w (xStart + i)

/-- All values are indices. -/
abbrev Inside (d : Doms) (lo : Int) (k : Nat) (vs : List VarId) : Prop := ∀ v ∈ vs, ∀ y, Poss d v y → lo ≤ y ∧ y < lo + k

theorem Poss.mono {d d' : Doms} {v : VarId} {y : Int} (hs : ∀ a, Within d' a → Within d a) (h : Poss d' v y) : Poss d v y := by
  obtain ⟨a, ha, e⟩ := h; exact ⟨a, hs a ha, e⟩

theorem Inside.sub {d d' : Doms} {lo : Int} {k : Nat} {vs : List VarId} (hs : ∀ a, Within d' a → Within d a) (h : Inside d lo k vs) : Inside d' lo k vs :=
  fun v hv y hy => h v hv y (Poss.mono hs hy)

theorem one_ver (ho : J.R .overflow) (h1 : InI64 xStart) (h2 : InI64 yStart) {x : VarId} {i : Nat} (hx : x.Valid J.n) (hy : ∀ w ∈ ys, w.Valid J.n) (hd : DomsOK d) (hl : d.length = J.n)
    (hin : ∀ v, Poss d x v → yStart ≤ v ∧ v < yStart + ys.length) (hC : ∀ a, J.C a → ∀ (k : Nat) w, ys[k]? = some w → x.eval a = yStart + k → w.eval a = xStart + i) :
    (channelOne ys xStart yStart i x : Prog σ μ Unit).Ver J (fun _ => False) (fun _ d' => ∀ v, Poss d' x v → Supported ys xStart yStart d i v) d := by
  refine ver_ask (f := (eachValue · x)) ho (listed_roo hd (hl ▸ hx)) fun g hg => ?_
  refine ver_mono (fun _ d' hq v hv => ?_) _ _ (ver_gen (fun vs d1 => (∀ v ∈ vs, InI64 v ∧ Poss d x v) ∧ (∀ a, Within d1 a → Within d a) ∧ (g.2 = none → ∀ v, Poss d1 x v → v ∈ vs ∨ Supported ys xStart yStart d i v))
    hd hl (fun e he => by rw [hg.2.2 e he]; exact ho) ?_ ⟨fun v hv => hg.1 v hv, fun _ h => h, fun hn v hv => .inl (hg.2.1 hn v hv)⟩)
  · rcases hq.1.2.2 hq.2 v hv with h | h
    · cases h
    · exact h
  · intro v vs d1 hd1 hl1 ⟨hvs, hsub, hsup⟩
    obtain ⟨hv1, hv2⟩ := hvs v (by simp)
    obtain ⟨hr1, hr2⟩ := hin v hv2
    refine ver_lift ho (sub_roo hv1 h2) fun k hk => ?_
    refine ver_lift ho (.inr (atIndex_ok (xs := ys) (k := k) (by rw [hk.1]; omega) (by rw [hk.1]; omega))) fun w hw2 => ?_
    have hw : w ∈ ys := List.mem_of_getElem? hw2
    have hvk : v = yStart + (k.toNat : Nat) := by rw [hk.1]; omega
    refine ver_lift ho (P := fun j => j = xStart + i ∧ InI64 j) ((ofSize_roo i).bind fun K hK => (add_roo hK.2 h1).mono fun r hr => ⟨by rw [hr.1, hK.1]; omega, hr.2⟩) fun j hj => ?_
    refine ver_ask (f := (inDomain · w j)) ho (inDomain_spec hd1 (hl1 ▸ hy w hw) j hj.2) fun b hb => ?_
    refine ver_onlyIf (fun hbf => ?_) fun hbt => ?_
    · refine ver_tell_last (.ne hx hv1) (fun a ha hc => ?_) fun d2 _ _ h => ⟨fun u hu => hvs u (by simp [hu]), fun a ha => hsub a ((h a).1 ha).1, fun hn u hu => ?_⟩
      · rw [Lit.holds_ne]
        intro hE
        have hp : Poss d1 w j := by rw [hj.1, ← hC a hc _ w hw2 (hE.trans hvk)]; exact ha.poss w
        rw [hb.2 hp] at hbf; cases hbf
      · rcases hsup hn u (Poss.mono (fun a ha => ((h a).1 ha).1) hu) with hm | hm
        · rcases List.mem_cons.1 hm with rfl | hm
          · obtain ⟨a, ha, e⟩ := hu
            have := ((h a).1 ha).2
            rw [Lit.holds_ne] at this
            exact absurd e this
          · exact .inl hm
        · exact .inr hm
    · have hp : Poss d1 w j := hb.1 (by simpa using hbt)
      refine ⟨fun u hu => hvs u (by simp [hu]), hsub, fun hn u hu => ?_⟩
      rcases hsup hn u hu with hm | hm
      · rcases List.mem_cons.1 hm with rfl | hm
        · exact .inr ⟨k.toNat, w, hw2, hvk, hj.1 ▸ Poss.mono hsub hp⟩
        · exact .inl hm
      · exact .inr hm

theorem Supported.mono {d d' : Doms} {i : Nat} {v : Int} (hs : ∀ a, Within d' a → Within d a) (h : Supported ys xStart yStart d' i v) : Supported ys xStart yStart d i v := by
  obtain ⟨k, w, h1, h2, h3⟩ := h; exact ⟨k, w, h1, h2, Poss.mono hs h3⟩

/-- After a pass every value left is supported by what was there before it. -/
theorem channel_ver (ho : J.R .overflow) (h1 : InI64 xStart) (h2 : InI64 yStart) (hy : ∀ w ∈ ys, w.Valid J.n) : ∀ (xs : List VarId) (i : Nat) (d : Doms), (∀ x ∈ xs, x.Valid J.n) → DomsOK d → d.length = J.n →
    Inside d yStart ys.length xs → (∀ a, J.C a → ∀ (j k : Nat) x w, xs[j]? = some x → ys[k]? = some w → x.eval a = yStart + k → w.eval a = xStart + ((i + j : Nat) : Int)) →
    (channel ys xStart yStart i xs : Prog σ μ Unit).Ver J (fun _ => False) (fun _ d' => ∀ (j : Nat) x, xs[j]? = some x → ∀ v, Poss d' x v → Supported ys xStart yStart d (i + j) v) d
  | [], _, _, _, _, _, _, _ => by intro j x hx; simp at hx
  | x :: xs, i, d, hx, hd, hl, hin, hC => by
    refine ver_seq hd hl (fun _ h => h) (one_ver ho h1 h2 (hx x (by simp)) hy hd hl (hin x (by simp)) fun a hc k w hw e => hC a hc 0 k x w rfl hw e) fun _ d1 hd1 hl1 hs1 hq => ?_
    refine ver_mono (fun _ d2 h j y hj v hv => ?_) _ _ (ver_facts _ _ hd1 hl1 (channel_ver ho h1 h2 hy xs (i + 1) d1 (fun y h => hx y (by simp [h])) hd1 hl1 (Inside.sub hs1 fun y h => hin y (by simp [h])) fun a hc j k y w hj hk e => ?_))
    · cases j with
      | zero =>
        cases hj
        exact hq v (Poss.mono h.1.2.2 hv)
      | succ j =>
        have := (h.2 j y hj v hv).mono hs1
        rwa [show i + 1 + j = i + (j + 1) by omega] at this
    · have := hC a hc (j + 1) k y w hj hk e
      rwa [show i + (j + 1) = i + 1 + j by omega] at this

/-- Every element of `x` points to one of `y` that points back. -/
def Points (x y : List VarId) (xStart yStart : Int) (a : Asg) : Prop :=
  ∀ (i : Nat) v, x[i]? = some v → ∃ (k : Nat) (w : VarId), y[k]? = some w ∧ v.eval a = yStart + k ∧ w.eval a = xStart + i

theorem points_iff {x y : List VarId} {a : Asg} : Inverses x y xStart yStart a ↔ Points x y xStart yStart a ∧ Points y x yStart xStart a := by
  constructor
  · refine fun h => ⟨fun i v hi => ?_, fun i v hi => ?_⟩
    · obtain ⟨l1, l2⟩ := h.left v (List.mem_of_getElem? hi)
      have hlt : (v.eval a - yStart).toNat < y.length := by omega
      have e : v.eval a = yStart + ((v.eval a - yStart).toNat : Nat) := by omega
      exact ⟨_, _, List.getElem?_eq_getElem hlt, e, (h.iff i _ v _ hi (List.getElem?_eq_getElem hlt)).1 e⟩
    · obtain ⟨l1, l2⟩ := h.right v (List.mem_of_getElem? hi)
      have hlt : (v.eval a - xStart).toNat < x.length := by omega
      have e : v.eval a = xStart + ((v.eval a - xStart).toNat : Nat) := by omega
      exact ⟨_, _, List.getElem?_eq_getElem hlt, e, (h.iff _ i _ v (List.getElem?_eq_getElem hlt) hi).2 e⟩
  · rintro ⟨h1, h2⟩
    refine ⟨fun v hv => ?_, fun w hw => ?_, fun i j v w hi hj => ⟨fun e => ?_, fun e => ?_⟩⟩
    · obtain ⟨i, hi⟩ := List.mem_iff_getElem?.1 hv
      obtain ⟨k, w, hk, e, _⟩ := h1 i v hi
      have := (List.getElem?_eq_some_iff.1 hk).1
      omega
    · obtain ⟨i, hi⟩ := List.mem_iff_getElem?.1 hw
      obtain ⟨k, w, hk, e, _⟩ := h2 i _ hi
      have := (List.getElem?_eq_some_iff.1 hk).1
      omega
    · obtain ⟨k, w', hk, e1, e2⟩ := h1 i v hi
      have : k = j := by omega
      subst this
      rw [hk] at hj; cases hj; exact e2
    · obtain ⟨k, w', hk, e1, e2⟩ := h2 j w hj
      have : k = i := by omega
      subst this
      rw [hk] at hi; cases hi; exact e2

theorem differ {x y : List VarId} {a : Asg} (h : Inverses x y xStart yStart a) : DifferExcept x [] a := by
  intro i j v w hi hj hij e
  obtain ⟨k, u, hk, e1, e2⟩ := (points_iff.1 h).1 i v hi
  have := (h.iff j k w u hj hk).1 (e ▸ e1)
  omega

/-- What is known once there is nothing left to choose. -/
theorem points_of_supported {x y : List VarId} {d d' : Doms} {a : Asg} (hs : ∀ a, Within d' a → Within d a) (hk : ∀ w ∈ y, Known d w) (h : ∀ (i : Nat) v, x[i]? = some v → ∀ u, Poss d' v u → Supported y xStart yStart d i u)
    (ha : Within d' a) : Points x y xStart yStart a := by
  intro i v hi
  obtain ⟨k, w, h1, h2, h3⟩ := h i v hi _ (ha.poss v)
  exact ⟨k, w, h1, h2, (hk w (List.mem_of_getElem? h1)).poss (hs a ha) h3⟩

theorem indices_roo {start : Int} (hs : InI64 start) (k : Nat) : RightOrOverflow (indices start k) (fun vals => AllDifferent.Vals vals [] ∧ ∀ y, start ≤ y → y < start + k → y ∈ vals) := by
  refine (AllDifferent.mapAll_roo (P := fun i y => y = start + (i : Nat) ∧ InI64 y) _ fun i _ => (ofSize_roo i).bind fun K hK => (add_roo hK.2 hs).mono fun r hr => ⟨by rw [hr.1, hK.1]; omega, hr.2⟩).mono fun ys h => ?_
  have hlen : ys.length = k := by rw [h.1, List.length_range]
  have at' : ∀ (i : Nat) (hi : i < ys.length), ys[i] = start + (i : Nat) ∧ InI64 ys[i] := fun i hi =>
    h.2 i i _ (by rw [List.getElem?_range (by omega)]) (List.getElem?_eq_getElem hi)
  refine ⟨⟨?_, fun y hy => ?_, by simp, by simp⟩, fun y h1 h2 => ?_⟩
  · rw [List.Nodup, List.pairwise_iff_getElem]
    intro i j hi hj hij e
    rw [(at' i hi).1, (at' j hj).1] at e
    omega
  · obtain ⟨i, hi, rfl⟩ := List.mem_iff_getElem.1 hy
    exact (at' i hi).2
  · have hlt : (y - start).toNat < ys.length := by omega
    have := (at' _ hlt).1
    exact List.mem_iff_getElem.2 ⟨_, hlt, by omega⟩

end

section
variable {σ μ : Type} {n m : Nat} {R : Err → Prop} {root : Doms} {C c : Asg → Prop} {I : Doms → Prop} {t : Triggers} {ys : List VarId} {f : Prog σ μ PState}

/-- A function that relies on something that is not lost by removing values. -/
theorem serves_of_ver (hw : Wakes t ys) (hr : t.refined = []) (h1 : ∀ d d', (∀ a, Within d' a → Within d a) → I d → I d')
    (h : ∀ d, DomsOK d → d.length = n → I d → f.Ver { n, m, R, C := fun a => Within root a ∧ C a } (fun _ => True) (EnforcedIf t.Distinct (fun a => Within root a → c a) (ys.filterMap VarId.underlyingIndex) d) d) :
    Serves n m R root (fun d _ => I d) (fun _ => False) f t C c ys where
  wakes := hw
  refined := by rw [hr]; simp
  ver d z hd hl _ hi := verS_mono (fun _ _ _ hq => ⟨hq.1.2, h1 d _ hq.1.1.2.2 hi⟩) _ _ _
    (Ver.toS (J := { n, m, R, C := fun a => Within root a ∧ C a }) (fun _ => id) _ d z (ver_facts (J := { n, m, R, C := fun a => Within root a ∧ C a }) _ _ hd hl (h d hd hl hi)))

end

section
variable {σ μ : Type} {n m : Nat} {R : Err → Prop} {root : Doms} {x y : List VarId} {start : Int} {vals : List Int} {old : Nat → List (Option Nat)}

theorem prop_serves (ho : R .overflow) (hs : InI64 start) (hx : ∀ v ∈ x, v.Valid n) (hy : ∀ v ∈ y, v.Valid n) (hlen : x.length = y.length) (hold : ∀ k, Gac.Injective (old k))
    (hvals : AllDifferent.Vals vals [] ∧ ∀ y, start ≤ y → y < start + x.length → y ∈ vals) :
    Serves n m R root (fun d _ => Inside d start y.length x ∧ Inside d start x.length y) (fun _ => False) (prop (σ := σ) (μ := μ) x y start start vals old) { onChange := x ++ y } (Inverses x y start start) (Inverses x y start start) (x ++ y) := by
  refine serves_of_ver (I := fun d => Inside d start y.length x ∧ Inside d start x.length y) (wakes_mem fun z hz => .inl hz) rfl (fun d d' hs hi => ⟨hi.1.sub hs, hi.2.sub hs⟩) fun d hd hl hi => ?_
  let J : Job := { n, m, R, C := fun a => Within root a ∧ Inverses x y start start a }
  refine ver_bind (J := J) (S := fun _ => False) (fun _ h => h.elim) _ d hd hl (ver_mono (fun _ d' hq k1 k2 k3 => ?_) _ _ (ver_untilQuiet (J := J) (fun d => Inside d start y.length x ∧ Inside d start x.length y)
    (fun d => (∀ (i : Nat) v, x[i]? = some v → ∀ u, Poss d v u → Supported y start start d i u) ∧ ∀ (i : Nat) v, y[i]? = some v → ∀ u, Poss d v u → Supported x start start d i u) (fun d hd hl hi => ?_) hd hl hi))
  · show EnforcedIf _ _ _ _ PState.enableButIdempotent _
    have key : (∀ v ∈ x ++ y, Known d' v) → ∀ a, Within d' a → Inverses x y start start a := fun hk a ha => points_iff.2
      ⟨points_of_supported (fun _ h => h) (fun w hw => hk w (by simp [hw])) hq.2.1 ha, points_of_supported (fun _ h => h) (fun w hw => hk w (by simp [hw])) hq.2.2 ha⟩
    exact ⟨fun hk a ha _ => key (fun v hv => (known_all hk v hv).sub k3) a ha, fun _ _ hk a ha _ => key (known_all hk) a ha, fun e => nomatch e⟩
  · refine ver_seq hd hl (fun _ h => h) (channel_ver (J := J) ho hs hs hy x 0 d hx hd hl hi.1 fun a hc j k v w hj hk e => ?_) fun _ d1 hd1 hl1 hs1 q1 => ?_
    · rw [Nat.zero_add]; exact (hc.2.iff j k v w hj hk).1 e
    refine ver_seq hd1 hl1 (fun _ h => h) (channel_ver (J := J) ho hs hs hx y 0 d1 hy hd1 hl1 (hi.2.sub hs1) fun a hc j k v w hj hk e => ?_) fun _ d2 hd2 hl2 hs2 q2 => ?_
    · rw [Nat.zero_add]; exact (hc.2.iff k j w v hk hj).2 e
    refine ver_mono (fun _ d3 hq => ?_) _ _ (ver_facts _ _ hd2 hl2 (AllDifferent.gac_vals (J := J) ho hvals.1 hx hold (fun a hc => ⟨fun v hv => .inl (hvals.2 _ (hc.2.left v hv).1 (by rw [hlen]; exact (hc.2.left v hv).2)), differ hc.2⟩) hd2 hl2))
    have s12 : ∀ a, Within d2 a → Within d a := fun a ha => hs1 a (hs2 a ha)
    have s3 : ∀ a, Within d3 a → Within d a := fun a ha => s12 a (hq.1.2.2 a ha)
    refine ⟨⟨hi.1.sub s3, hi.2.sub s3⟩, fun e => ⟨fun i v hi' u hu => ?_, fun i v hi' u hu => ?_⟩⟩
    · have := q1 i v hi' u (Poss.mono (fun a ha => hs2 a (hq.1.2.2 a ha)) (e ▸ hu : Poss d3 v u))
      rwa [Nat.zero_add] at this
    · have := (q2 i v hi' u (Poss.mono hq.1.2.2 (e ▸ hu : Poss d3 v u))).mono hs1
      rwa [Nat.zero_add] at this

theorem inside_of {d : Doms} {lo : Int} {k : Nat} {vs : List VarId} (h : ∀ a, Within d a → ∀ v ∈ vs, lo ≤ v.eval a ∧ v.eval a < lo + k) : Inside d lo k vs := by
  rintro v hv u ⟨a, ha, rfl⟩
  exact h a ha v hv

/-- Either what is posted is right, or posting throws. -/
theorem install_ok {z0 : List σ} (ho : R .overflow) (hd : DomsOK root) (hs : InI64 start) (hx : ∀ v ∈ x, v.Valid root.length) (hy : ∀ v ∈ y, v.Valid root.length) (hold : ∀ k, Gac.Injective (old k)) (hlen : x.length = y.length)
    (h1 : hasDup x = false) (h2 : hasDup y = false) :
    RightOrOverflow (install (σ := σ) (μ := μ) x y start start old root) (fun items => ∃ I es, es.map (·.1) = items ∧ Served root.length m R root z0 I (fun _ => False) (Inverses x y start start) (x ++ y) es) := by
  unfold install
  rw [h1, h2]
  simp only [Bool.or_self, Bool.false_eq_true, if_false, ne_eq, hlen, not_true_eq_false]
  refine (range_inits (m := m) (C := Inverses x y start start) ho hd hs x hx fun a _ hc => hc.left).bind fun is his => ?_
  refine (range_inits (m := m) (C := Inverses x y start start) ho hd hs y hy fun a _ hc => by rw [← hlen]; exact hc.right).bind fun js hjs => ?_
  refine (indices_roo hs y.length).bind fun vals hvals => .pure ?_
  refine (his.append hjs (e := fun a => (∀ v ∈ x, start ≤ v.eval a ∧ v.eval a < start + y.length) ∧ ∀ v ∈ y, start ≤ v.eval a ∧ v.eval a < start + y.length) fun a _ => Iff.rfl).served
    (prop_serves ho hs hx hy hlen hold (by rw [hlen]; exact hvals)) (fun _ h => h) (fun a _ => ⟨fun h => ⟨⟨h.left, by rw [← hlen]; exact h.right⟩, h⟩, fun h => h.2⟩) (fun d d' hs hi => ⟨hi.1.sub hs, hi.2.sub hs⟩)
    fun d _ _ hq => ⟨inside_of fun a ha => (hq a ha).2.1, by rw [hlen]; exact inside_of fun a ha => (hq a ha).2.2⟩

end
end Inverse

namespace SymmetricAllDifferent
open Inverse

section
variable {σ μ : Type} {n m : Nat} {R : Err → Prop} {root : Doms} {vars : List VarId} {start : Int} {vals : List Int} {old : Nat → List (Option Nat)}

theorem prop_serves (ho : R .overflow) (hs : InI64 start) (hv : ∀ v ∈ vars, v.Valid n) (hold : ∀ k, Gac.Injective (old k)) (hvals : AllDifferent.Vals vals [] ∧ ∀ y, start ≤ y → y < start + vars.length → y ∈ vals) :
    Serves n m R root (fun d _ => Inverse.Inside d start vars.length vars) (fun _ => False) (prop (σ := σ) (μ := μ) vars start vals old) { onChange := vars } (Inverses vars vars start start) (Inverses vars vars start start) vars := by
  refine serves_of_ver (I := fun d => Inverse.Inside d start vars.length vars) (wakes_mem fun z hz => .inl hz) rfl (fun d d' hs hi => hi.sub hs) fun d hd hl hi => ?_
  let J : Job := { n, m, R, C := fun a => Within root a ∧ Inverses vars vars start start a }
  refine ver_seq (J := J) hd hl (fun _ h => h) (channel_ver (J := J) ho hs hs hv vars 0 d hv hd hl hi fun a hc j k v w hj hk e => ?_) fun _ d1 hd1 hl1 hs1 q1 => ?_
  · rw [Nat.zero_add]; exact (hc.2.iff j k v w hj hk).1 e
  refine ver_bind (J := J) (S := fun _ => False) (fun _ h => h.elim) _ d1 hd1 hl1 (ver_mono (fun _ d2 hq k1 k2 k3 => ?_) _ _ (AllDifferent.gac_vals (J := J) ho hvals.1 hv hold (fun a hc => ⟨fun v hv => .inl (hvals.2 _ (hc.2.left v hv).1 (hc.2.left v hv).2), differ hc.2⟩) hd1 hl1))
  show EnforcedIf _ _ _ _ PState.enable _
  refine Enforced.when (.intro (fun hk a ha _ => ?_) (fun h => nomatch h) (fun h => nomatch h))
  have := points_of_supported (d' := d2) (fun a ha => hs1 a (k3 a ha)) hk (fun i v hi u hu => by have := q1 i v hi u (Poss.mono k3 hu); rwa [Nat.zero_add] at this) ha
  exact points_iff.2 ⟨this, this⟩

theorem install_ok {z0 : List σ} (ho : R .overflow) (hd : DomsOK root) (hs : InI64 start) (hv : ∀ v ∈ vars, v.Valid root.length) (hold : ∀ k, Gac.Injective (old k)) :
    RightOrOverflow (install (σ := σ) (μ := μ) vars start old root) (fun items => ∃ I es, es.map (·.1) = items ∧ Served root.length m R root z0 I (fun _ => False) (Inverses vars vars start start) vars es) := by
  unfold install
  by_cases hr : repeats (sortBy VarId.le vars) = true
  · rw [if_pos hr]
    have no : ∀ a, ¬ Inverses vars vars start start a := fun a hc => repeats_differ _ hr (differExcept_iff.1 ((differExcept_perm (sortBy_perm _ _)).2 (differ hc)))
    refine .pure ⟨fun _ _ => True, [(AllDifferent.refuse, fun _ => False)], rfl, ⟨?_, ?_, fun _ _ _ _ _ _ _ => trivial, fun _ _ _ _ _ => trivial, fun _ _ _ _ => trivial⟩⟩
    · intro p hp
      rw [List.mem_singleton.1 hp]
      exact fun d _ _ a _ hc => no a hc.2
    · intro a _
      rw [List.forall_mem_singleton]
      exact ⟨no a, False.elim⟩
  · rw [if_neg hr]
    refine (range_inits (m := m) (C := Inverses vars vars start start) ho hd hs vars hv fun a _ hc => hc.left).bind fun is his => ?_
    refine (indices_roo hs vars.length).bind fun vals hvals => .pure ?_
    exact his.served (SymmetricAllDifferent.prop_serves ho hs hv hold hvals) (fun _ h => h) (fun a _ => ⟨fun h => ⟨h.left, h⟩, fun h => h.2⟩) (fun d d' hs hi => hi.sub hs) fun d _ _ hq => inside_of fun a ha => (hq a ha).2

end
end SymmetricAllDifferent
end Gcs
