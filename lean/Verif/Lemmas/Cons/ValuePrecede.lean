import Verif.Model.Cons.ValuePrecede
import Verif.Spec.Precede
import Verif.Lemmas.Cons.Inverse

/-!
# ValuePrecede and SeqPrecedeChain
-/

namespace Gcs
open IntervalSet

theorem leftmost_roo {d : Doms} {s : Int} (hd : DomsOK d) (hs : InI64 s) : ∀ vs : List VarId, (∀ v ∈ vs, v.Valid d.length) →
    RightOrOverflow (leftmost d s vs) (fun k => k ≤ vs.length ∧ (∀ (i : Nat) v, i < k → vs[i]? = some v → ¬ Poss d v s) ∧ ∀ v, vs[k]? = some v → Poss d v s)
  | [], _ => .pure (by simp)
  | v :: vs, hv => by
    unfold leftmost
    refine (inDomain_spec hd (hv v (by simp)) s hs).bind fun b hb => ?_
    split
    · rename_i h
      exact .pure ⟨by simp, by simp, fun w hw => by cases hw; exact hb.1 h⟩
    · rename_i h
      refine (leftmost_roo hd hs vs fun w hw => hv w (by simp [hw])).bind fun k hk => .pure ⟨by simpa using hk.1, fun i w hi hw => ?_, fun w hw => hk.2.2 w hw⟩
      cases i with
      | zero => cases hw; exact fun hp => h (hb.2 hp)
      | succ i => exact hk.2.1 i w (by omega) hw

section
variable {σ μ : Type} {n m : Nat} {R : Err → Prop} {root : Doms} {vars : List VarId} {C : Asg → Prop} {s t : Int}
namespace ValuePrecede

theorem prune_ver {J : Job} (ho : J.R .overflow) (ht : InI64 t) : ∀ (vs : List VarId) (d : Doms), (∀ v ∈ vs, v.Valid J.n) → DomsOK d → d.length = J.n → (∀ a, Within d a → J.C a → ∀ v ∈ vs, v.eval a ≠ t) →
    (Prog.forEach (prune t) vs : Prog σ μ Unit).Ver J (fun _ => False) (fun _ d' => ∀ v ∈ vs, ¬ Poss d' v t) d
  | [], _, _, _, _, _ => by intro v hv; cases hv
  | v :: vs, d, hv, hd, hl, hC => by
    have hvv := hv v (by simp)
    refine ver_seq (Q' := fun _ d' => ¬ Poss d' v t) hd hl (fun _ h => h) ?_ fun _ d1 hd1 hl1 hs1 hq => ?_
    · refine ver_ask (f := (inDomain · v t)) ho (inDomain_spec hd (hl ▸ hvv) t ht) fun b hb => ver_onlyIf (fun _ => ?_) fun h hp => h (hb.2 hp)
      refine ver_tell_last (.ne hvv ht) (fun a ha hc => ?_) fun d2 _ _ h => ?_
      · rw [Lit.holds_ne]; exact hC a ha hc v (by simp)
      · rintro ⟨a, ha, e⟩
        have := ((h a).1 ha).2
        rw [Lit.holds_ne] at this
        exact this e
    · refine ver_mono (fun _ d2 h => ?_) _ _ (ver_facts _ _ hd1 hl1 (prune_ver ho ht vs d1 (fun w h => hv w (by simp [h])) hd1 hl1 fun a ha hc w hw => hC a (hs1 a ha) hc w (by simp [hw])))
      rw [List.forall_mem_cons]
      exact ⟨fun hp => hq (Inverse.Poss.mono h.1.2.2 hp), h.2⟩

theorem prop_ok (ho : R .overflow) (hs : InI64 s) (ht : InI64 t) (hv : ∀ v ∈ vars, v.Valid n) (hC : ∀ a, Within root a → C a → Precedes s t vars a) :
    Implements n m R root (prop (σ := σ) (μ := μ) vars s t) { onChange := vars } C (Precedes s t vars) vars where
  wakes := wakes_mem fun x hx => .inl hx
  refined := by simp
  ver d hd hl := by
    let J : Job := { n, m, R, C := fun a => Within root a ∧ C a }
    refine ver_ask (J := J) (f := (leftmost · s vars)) ho (leftmost_roo hd hs vars fun v h => hl ▸ hv v h) fun k ⟨hk1, hk2, hk3⟩ => ?_
    have hcut : ∀ (i : Nat) v, i ≤ k → vars[i]? = some v → v ∈ vars.take (if k = vars.length then vars.length else k + 1) := by
      intro i v hi hvi
      have hil := (List.getElem?_eq_some_iff.1 hvi).1
      refine List.mem_iff_getElem?.2 ⟨i, ?_⟩
      rw [List.getElem?_take_of_lt (by split <;> omega), hvi]
    refine ver_seq (J := J) hd hl (fun _ h => h) (prune_ver (J := J) ho ht _ d (fun v h => hv v (List.mem_of_mem_take h)) hd hl fun a ha hc v hvm e => ?_) fun _ d1 hd1 hl1 hs1 hq => ?_
    · obtain ⟨i, hi⟩ := List.mem_iff_getElem?.1 hvm
      have hil := (List.getElem?_eq_some_iff.1 hi).1
      rw [List.length_take] at hil
      rw [List.getElem?_take_of_lt (by omega)] at hi
      obtain ⟨j, w, h1, h2, h3⟩ := hC a hc.1 hc.2 i v hi e
      refine hk2 j w ?_ h2 (h3 ▸ ha.poss w)
      split at hil <;> omega
    · have early : ∀ a, Within d1 a → ∀ (i : Nat) v, i ≤ k → vars[i]? = some v → v.eval a ≠ t := fun a ha i v hi hvi e => hq v (hcut i v hi hvi) (e ▸ ha.poss v)
      have late : ∀ a, Within d1 a → ∀ w, vars[k]? = some w → w.eval a = s → Precedes s t vars a := fun a ha w hw e i v hvi ev =>
        ⟨k, w, Nat.lt_of_not_le fun hi => early a ha i v hi hvi ev, hw, e⟩
      have none' : k = vars.length → ∀ a, Within d1 a → Precedes s t vars a := fun hkl a ha i v hvi ev =>
        absurd ev (early a ha i v (by have := (List.getElem?_eq_some_iff.1 hvi).1; omega) hvi)
      split
      · rename_i hkl
        show EnforcedIf _ _ _ _ PState.disableUntilBacktrack _
        exact ⟨fun _ a ha _ => none' hkl a ha, fun _ e => absurd e (by decide), fun _ a ha _ => none' hkl a ha⟩
      · rename_i hkl
        have hlt : k < vars.length := by omega
        have hw : vars[k]? = some vars[k] := List.getElem?_eq_getElem hlt
        have hp := hk3 _ hw
        have first : (∀ v ∈ vars.filterMap VarId.underlyingIndex, Fixed d v) → ∀ a, Within d1 a → Within root a → Precedes s t vars a := fun hf a ha _ =>
          late a ha _ hw ((known_all hf _ (List.getElem_mem hlt)).poss (hs1 a ha) hp)
        have enable : EnforcedIf (Triggers.Distinct { onChange := vars }) (fun a => Within root a → Precedes s t vars a) (vars.filterMap VarId.underlyingIndex) d PState.enable d1 :=
          ⟨first, fun _ e => absurd e (by decide), fun e => absurd e (by decide)⟩
        refine ver_lift (J := J) (P := fun w => w = vars[k]) ho (.inr ⟨_, vecAt_ok.2 hw, rfl⟩) fun w hwe => ?_
        subst hwe
        have hval : vars[k].Valid d1.length := hl1 ▸ hv _ (List.getElem_mem hlt)
        refine ver_ask (J := J) (f := (hasSingleValue · vars[k])) ho (.inr (hasSingleValue_spec hd1 hval)) fun b hb => ?_
        split
        · rename_i hbt
          refine ver_ask (J := J) (f := (bounds · vars[k])) ho (bounds_roo hd1 hval) fun r hr => ?_
          split
          · rename_i hrs
            obtain ⟨y, hy⟩ := hb.1 hbt
            have hys : y = s := by rw [← hrs]; exact ((hy _).1 hr.1.2.1).symm
            show EnforcedIf _ _ _ _ PState.disableUntilBacktrack _
            exact ⟨first, fun _ e => absurd e (by decide), fun _ a ha _ => late a ha _ hw (hys ▸ (hy _).1 (ha.poss _))⟩
          · exact enable
        · exact enable

/-- Parts of what is installed. -/
theorem pairs_ok (ho : R .overflow) (hv : ∀ v ∈ vars, v.Valid n) : ∀ chain : List Int, (∀ s ∈ chain, InI64 s) → (∀ a, Within root a → C a → Chained chain vars a) →
    ∃ es : List (Item σ μ × (Asg → Prop)), es.map (·.1) = pairs vars chain ∧ (∀ p ∈ es, p.1.OK n m R root C vars p.2) ∧ ∀ a, Within root a → (Chained chain vars a ↔ ∀ p ∈ es, p.2 a)
  | [], _, _ => ⟨[], rfl, by simp, fun a _ => by simp [Chained]⟩
  | [_], _, _ => ⟨[], rfl, by simp, fun a _ => by simp [Chained]⟩
  | s :: t :: rest, hc, hC => by
    have split : ∀ a, Chained (s :: t :: rest) vars a ↔ Precedes s t vars a ∧ Chained (t :: rest) vars a := fun a => by
      constructor
      · exact fun h => ⟨h 0 s t rfl rfl, fun j u w h1 h2 => h (j + 1) u w h1 h2⟩
      · rintro ⟨h1, h2⟩ j u w e1 e2
        cases j with
        | zero => cases e1; cases e2; exact h1
        | succ j => exact h2 j u w e1 e2
    obtain ⟨es, e1, e2, e3⟩ := pairs_ok ho hv (t :: rest) (fun u h => hc u (by simp [h])) fun a ha h => ((split a).1 (hC a ha h)).2
    refine ⟨(.prop (prop vars s t) { onChange := vars }, Precedes s t vars) :: es, by simp [e1, pairs], ?_, fun a ha => ?_⟩
    · rw [List.forall_mem_cons]
      exact ⟨⟨vars, fun _ h => h, prop_ok ho (hc s (by simp)) (hc t (by simp)) hv fun a ha h => ((split a).1 (hC a ha h)).1⟩, e2⟩
    · rw [split, List.forall_mem_cons, e3 a ha]

end ValuePrecede

namespace SeqPrecedeChain

/-- What SeqPrecedeChain is for. -/
def Seq (vars : List VarId) (a : Asg) : Prop := ∀ v : Int, 1 ≤ v → Precedes v (v + 1) vars a

/-- A value needs the smaller ones before it. -/
theorem Seq.small {a : Asg} (h : Seq vars a) : ∀ (k : Nat) (i : Nat) v, vars[i]? = some v → v.eval a = k → v.eval a ≤ i + 1
  | 0, i, v, _, e => by omega
  | 1, i, v, _, e => by omega
  | k + 2, i, v, hv, e => by
    obtain ⟨j, w, h1, h2, h3⟩ := h ((k + 1 : Nat) : Int) (by omega) i v hv (by omega)
    have := Seq.small h (k + 1) j w h2 h3
    omega

theorem Seq.le {a : Asg} (h : Seq vars a) {v : VarId} (hv : v ∈ vars) : v.eval a ≤ vars.length := by
  obtain ⟨i, hi⟩ := List.mem_iff_getElem?.1 hv
  have hil := (List.getElem?_eq_some_iff.1 hi).1
  by_cases h0 : v.eval a ≤ 0
  · omega
  · have := Seq.small h (v.eval a).toNat i v hi (by omega)
    omega

theorem upTo_at {k j : Nat} {s : Int} : (upTo k)[j]? = some s ↔ j < k ∧ s = j + 1 := by
  unfold upTo
  rw [List.getElem?_map]
  by_cases h : j < k
  · rw [List.getElem?_range h]
    simp only [Option.map_some, Option.some.injEq, h, true_and]
    exact eq_comm
  · rw [List.getElem?_eq_none (by simpa using h)]
    simp [h]

theorem chained_upTo {k : Nat} {a : Asg} : Chained (upTo k) vars a ↔ ∀ v : Int, 1 ≤ v → v + 1 ≤ k → Precedes v (v + 1) vars a := by
  constructor
  · intro h v h1 h2
    exact h (v.toNat - 1) v (v + 1) (upTo_at.2 ⟨by omega, by omega⟩) (upTo_at.2 ⟨by omega, by omega⟩)
  · intro h j s t h1 h2
    obtain ⟨_, rfl⟩ := upTo_at.1 h1
    obtain ⟨h3, rfl⟩ := upTo_at.1 h2
    have := h (j + 1) (by omega) (by omega)
    rwa [show ((j + 1 : Nat) : Int) + 1 = (j : Int) + 1 + 1 by omega]

theorem maxUpper_roo {d : Doms} (hd : DomsOK d) : ∀ (vs : List VarId) (x : Int), (∀ v ∈ vs, v.Valid d.length) → RightOrOverflow (maxUpper d x vs) (fun t => x ≤ t ∧ ∀ v ∈ vs, ∀ y, Poss d v y → y ≤ t)
  | [], x, _ => .pure ⟨Int.le_refl _, by simp⟩
  | v :: vs, x, hv => by
    refine (upper_roo hd (hv v (by simp))).bind fun u hu => (maxUpper_roo hd vs _ fun w hw => hv w (by simp [hw])).mono fun t ht => ⟨?_, ?_⟩
    · have := ht.1; split at this <;> omega
    · rw [List.forall_mem_cons]
      refine ⟨fun y hy => ?_, ht.2⟩
      have h1 := ht.1
      have h2 := hu.2.2 y hy
      split at h1 <;> omega

theorem clamp_roo (ho : R .overflow) (hd : DomsOK root) {k : Int} (hk : InI64 k) : ∀ vs : List VarId, (∀ v ∈ vs, v.Valid root.length) → (∀ a, Within root a → C a → ∀ v ∈ vs, v.eval a ≤ k) →
    RightOrOverflow (clamp (σ := σ) (μ := μ) root k vs) (Inits root.length m R root C (fun a => ∀ v ∈ vs, v.eval a ≤ k))
  | [], _, _ => .pure (.nil fun _ _ => by simp)
  | v :: vs, hv, hC => by
    unfold clamp
    refine (upper_inits (m := m) ho hd (hv v (by simp)) hk fun a ha hc => hC a ha hc v (by simp)).bind fun is his => ?_
    refine (clamp_roo ho hd hk vs (fun w h => hv w (by simp [h])) fun a ha hc w h => hC a ha hc w (by simp [h])).bind fun rest hr => .pure (his.append hr fun a _ => ?_)
    rw [List.forall_mem_cons]

theorem _root_.Gcs.Inits.posts {e : Asg → Prop} {items : List (Item σ μ)} {xs : List VarId} (h : Inits n m R root C e items) :
    ∃ es : List (Item σ μ × (Asg → Prop)), es.map (·.1) = items ∧ (∀ p ∈ es, p.1.OK n m R root C xs p.2) ∧ ∀ a, Within root a → (e a ↔ ∀ p ∈ es, p.2 a) := by
  obtain ⟨es, e1, e2, e3⟩ := h.out
  refine ⟨es, e1, fun p hp => ?_, fun a ha => (e3 a ha).symm⟩
  obtain ⟨⟨q, f, he⟩, h2⟩ := e2 p hp
  have := h2 (fun _ _ => True) (fun _ => False) xs
  rw [he] at this ⊢
  exact this

theorem install_ok (ho : R .overflow) (hd : DomsOK root) (hv : ∀ v ∈ vars, v.Valid root.length) :
    RightOrOverflow (install (σ := σ) (μ := μ) vars root) (Posts root.length m R root (Seq vars) vars) := by
  unfold install
  split
  · rename_i h
    subst h
    exact .pure (.nil fun a _ v _ i w hw => by simp at hw)
  rename_i hne
  refine (maxUpper_roo hd vars 0 hv).bind fun top ⟨ht1, ht2⟩ => ?_
  have le : ∀ a, Within root a → ∀ v ∈ vars, v.eval a ≤ top := fun a ha v hvm => ht2 v hvm _ (ha.poss v)
  split
  · rename_i h
    exact .pure (.nil fun a ha v h1 i w hw e => by have := le a ha w (List.mem_of_getElem? hw); omega)
  refine (ofSize_roo vars.length).bind fun N hN => ?_
  have hmost : ∃ k : Int, (if top < N then top else N) = k ∧ (1 ≤ N → 1 ≤ k) ∧ k ≤ N ∧ k ≤ top ∧ (top ≤ k ∨ k = N) := by
    refine ⟨_, rfl, ?_, ?_, ?_, ?_⟩ <;> split <;> omega
  obtain ⟨k, hk, k1, k2, k3, k4⟩ := hmost
  dsimp only
  rw [hk]
  have hn : 1 ≤ N := by
    have : vars.length ≠ 0 := fun h0 => hne (List.length_eq_zero_iff.1 h0)
    rw [hN.1]; omega
  have hk1 := k1 hn
  have hk64 : InI64 k := by have := hN.2; unfold InI64 i64Min i64Max at this ⊢; omega
  have bound : ∀ a, Within root a → Seq vars a → ∀ v ∈ vars, v.eval a ≤ k := fun a ha hc v hvm => by
    have h1 := le a ha v hvm
    have h2 := hc.le hvm
    rw [← hN.1] at h2
    omega
  have hb : RightOrOverflow (bounded (σ := σ) (μ := μ) root top k vars) (Inits root.length m R root (Seq vars) (fun a => ∀ v ∈ vars, v.eval a ≤ k)) := by
    unfold bounded
    split
    · exact clamp_roo ho hd hk64 vars hv bound
    · exact .pure (.nil fun a ha v hvm => by have := le a ha v hvm; omega)
  refine hb.bind fun is his => ?_
  have rest : ∀ a, Within root a → (∀ v ∈ vars, v.eval a ≤ k) → Chained (upTo k.toNat) vars a → Seq vars a := fun a _ h1 h2 v hv1 => by
    by_cases hvk : v + 1 ≤ k
    · exact chained_upTo.1 h2 v hv1 (by omega)
    · intro i w hw e
      have := h1 w (List.mem_of_getElem? hw)
      omega
  split
  · rename_i hk2
    refine .pure ?_
    have := Posts.append (xs := vars) his.posts ⟨[], rfl, by simp, fun a _ => by simp⟩ (D2 := fun _ => True) fun a ha => ⟨fun hc => ⟨bound a ha hc, trivial⟩, fun h => rest a ha h.1 (chained_upTo.2 fun v h1 h2 => by omega)⟩
    rwa [List.map_nil, List.append_nil] at this
  · refine .pure (Posts.append his.posts (ValuePrecede.pairs_ok ho hv (upTo k.toNat) (fun s hs => ?_) fun a ha hc => chained_upTo.2 fun v h1 _ => hc v h1) fun a ha => ⟨fun hc => ⟨bound a ha hc, chained_upTo.2 fun v h1 _ => hc v h1⟩, fun h => rest a ha h.1 h.2⟩)
    obtain ⟨j, hj⟩ := List.mem_iff_getElem?.1 hs
    obtain ⟨h1, rfl⟩ := upTo_at.1 hj
    unfold InI64 i64Min i64Max at hk64 ⊢
    omega

end SeqPrecedeChain
end
end Gcs
