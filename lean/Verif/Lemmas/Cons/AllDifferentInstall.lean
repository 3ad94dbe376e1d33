import Verif.Lemmas.Cons.ValueConsistent

/-!
# Posting AllDifferent
-/

namespace Gcs
open IntervalSet
namespace AllDifferent

theorem unassigned_ok {d : Doms} (hd : DomsOK d) : ∀ xs : List VarId, (∀ v ∈ xs, v.Valid d.length) → ∃ us, unassigned d xs = .ok us ∧ us.Sublist xs ∧ ∀ x, x ∈ us ↔ x ∈ xs ∧ ¬ Known d x
  | [], _ => ⟨[], rfl, .slnil, by simp⟩
  | x :: xs, hv => by
    obtain ⟨us, h1, h2, h3⟩ := unassigned_ok hd xs fun v h => hv v (by simp [h])
    obtain ⟨b, e, hb⟩ := hasSingleValue_spec hd (hv x (by simp))
    have hbk : b = true ↔ Known d x := by
      rw [hb]
      constructor
      · rintro ⟨y, hy⟩
        exact fun a b ha hb => ((hy _).1 (ha.poss x)).trans ((hy _).1 (hb.poss x)).symm
      · intro hk
        obtain ⟨a, ha⟩ := exists_within hd
        exact ⟨x.eval a, (pinned_iff hd _).2 (hk.pinned ha)⟩
    simp only [unassigned, bind, Except.bind, pure, Except.pure, e, h1]
    refine ⟨_, rfl, ?_, fun y => ?_⟩
    · split
      · exact h2.cons _
      · exact h2.cons₂ _
    · by_cases hbt : b = true
      · rw [if_pos hbt, h3, List.mem_cons]
        constructor
        · exact fun h => ⟨.inr h.1, h.2⟩
        · rintro ⟨rfl | h, h'⟩
          · exact absurd (hbk.1 hbt) h'
          · exact ⟨h, h'⟩
      · rw [if_neg hbt, List.mem_cons, h3, List.mem_cons]
        constructor
        · rintro (rfl | h)
          · exact ⟨.inl rfl, fun hk => hbt (hbk.2 hk)⟩
          · exact ⟨.inr h.1, h.2⟩
        · rintro ⟨rfl | h, h'⟩
          · exact .inl rfl
          · exact .inr ⟨h, h'⟩

section
variable {σ μ : Type} {n m : Nat} {R : Err → Prop} {root : Doms} {vars : List VarId} {vals : List Int} {old : Nat → List (Option Nat)} {C : Asg → Prop} {B : Kind σ (List VarId)} {h : Nat} {z0 : List σ} {level : Level}

/-- One propagator with an invariant. -/
theorem served_one {I : Doms → List σ → Prop} {own : Nat → Prop} {f : Prog σ μ PState} {t : Triggers} {e : Asg → Prop} {xs ys : List VarId} (hs : Serves n m R root I own f t C e ys) (hy : ∀ y ∈ ys, y ∈ xs)
    (hC : ∀ a, Within root a → (C a ↔ e a)) (h1 : ∀ d d' z, (∀ a, Within d' a → Within d a) → I d z → I d' z) (h2 : ∀ d z z', (∀ h, own h → z'[h]? = z[h]?) → I d z → I d z')
    (h3 : I root z0) : ∃ I es, es.map (·.1) = [Item.prop f t] ∧ Served n m R root z0 I own C xs es := by
  refine ⟨I, [(_, e)], rfl, ⟨?_, ?_, fun d d' z _ _ hs => h1 d d' z hs, h2, fun d _ _ hd => h1 root d z0 (fun a ha => (hd a ha).1) h3⟩⟩
  · intro p hp; rw [List.mem_singleton.1 hp]; exact ⟨ys, hy, hs⟩
  · intro a ha; rw [List.forall_mem_singleton]; exact hC a ha

theorem stored_only {vs : List VarId} {F : Prop} {d : Doms} {z z' : List σ} (hz : ∀ k, k = h → z'[k]? = z[k]?) (hi : Stored B h vs F d z) : Stored B h vs F d z' := by
  obtain ⟨u, h1, h2⟩ := hi
  exact ⟨u, (hz h rfl).trans h1, h2⟩

theorem install_ok (ho : R .overflow) (hd : DomsOK root) (hv : ∀ v ∈ vars, v.Valid root.length) (hold : ∀ k, Gac.Injective (old k)) (hz : ∀ l, stateOf level vars root = .ok (some l) → z0[h]? = some (B.put l))
    (hfix : level = .vc → ∀ x ∈ vars, ∀ y ∈ vars, x ≠ y → ∀ v, Pinned root x v → ¬ Poss root y v) :
    RightOrOverflow (install (σ := σ) (μ := μ) level vars B h old root) (fun items => ∃ I es, es.map (·.1) = items ∧ Served root.length m R root z0 I (· = h) (fun a => (vars.map (·.eval a)).Nodup) vars es) := by
  have hperm : (sortBy VarId.le vars).Perm vars := sortBy_perm _ _
  have hvs : ∀ v ∈ sortBy VarId.le vars, v.Valid root.length := fun v h => hv v (hperm.mem_iff.1 h)
  have hiff : ∀ a : Asg, (vars.map (·.eval a)).Nodup ↔ DifferExcept (sortBy VarId.le vars) [] a := fun a => by rw [← differExcept_nil, differExcept_perm hperm]
  unfold install
  unfold stateOf at hz
  dsimp only at hz ⊢
  by_cases hr : repeats (sortBy VarId.le vars) = true
  · rw [if_pos hr]
    refine .pure ⟨fun _ _ => True, [(refuse, fun _ => False)], rfl, ⟨?_, ?_, fun _ _ _ _ _ _ _ => trivial, fun _ _ _ _ _ => trivial, fun _ _ _ _ => trivial⟩⟩
    · intro p hp
      rw [List.mem_singleton.1 hp]
      exact fun d _ _ a _ hc => repeats_differ _ hr (differExcept_iff.1 ((hiff a).1 hc.2))
    · intro a _
      rw [List.forall_mem_singleton]
      exact ⟨fun hc => repeats_differ _ hr (differExcept_iff.1 ((hiff a).1 hc)), False.elim⟩
  · have hn : (sortBy VarId.le vars).Nodup := nodup_of_repeats _ (sortBy_sorted _) (by simpa using hr)
    rw [if_neg hr]
    rw [if_neg hr] at hz
    obtain ⟨us, hu1, hu2, hu3⟩ := unassigned_ok hd _ hvs
    have hinv : ∀ F : Prop, (F → ∀ x ∈ vars, ∀ y ∈ vars, x ≠ y → ∀ v, Pinned root x v → ¬ Poss root y v) → Inv (sortBy VarId.le vars) F root us [] := fun F hF =>
      ⟨fun x hx => hu2.subset hx, by simp, by simpa using hu2.nodup hn, by simp, fun hf x hx => by
        by_cases hxu : x ∈ us
        · exact .inl hxu
        · have hk : Known root x := Classical.byContradiction fun hk => hxu ((hu3 x).2 ⟨hx, hk⟩)
          obtain ⟨a, ha⟩ := exists_within hd
          exact .inr (.inr ⟨_, hk.pinned ha, fun y hy hne b hb e => hF hf x (hperm.mem_iff.1 hx) y (hperm.mem_iff.1 hy) (Ne.symm hne) _ (hk.pinned ha) (e ▸ hb.poss y)⟩)⟩
    cases level with
    | vc =>
      simp only [hu1, bind, Except.bind, pure, Except.pure] at hz ⊢
      refine .pure (served_one (vcProp_serves ho hn hvs fun a _ hc => (hiff a).1 hc) (fun y hy => hperm.mem_iff.1 hy) (fun a _ => hiff a) (fun d d' z hs hi => hi.sub hs) (fun d z z' hzz hi => stored_only hzz hi)
        ⟨us, hz us rfl, hinv True fun _ => hfix rfl⟩)
    | gac =>
      simp only at hz ⊢
      refine (compress_roo (ex := []) hd _ [] .nil (by simp) hvs).elim (fun e => .inl (by rw [e]; rfl)) fun ⟨vals, e, h1, h2, h3⟩ => ?_
      have hval : Values root (sortBy VarId.le vars) vals [] := values_of (by simp) h1 h2 fun y => by rw [h3]; simp
      simp only [e, hu1, bind, Except.bind, pure, Except.pure] at hz ⊢
      by_cases hst : isStaged (sortBy VarId.le vars) vals = true
      · rw [if_pos hst] at hz ⊢
        refine .pure (served_one (stagedProp_serves ho hn hval hvs hold fun a _ hc => (hiff a).1 hc) (fun y hy => hperm.mem_iff.1 hy) (fun a _ => hiff a) (fun d d' z hs hi => hi.sub hs) (fun d z z' hzz hi => stored_only hzz hi)
          ⟨us, hz us rfl, hinv False False.elim⟩)
      · rw [if_neg hst]
        refine .pure (served_one (I := fun _ _ => True) (e := DifferExcept (sortBy VarId.le vars) []) (ys := sortBy VarId.le vars) ⟨wakes_mem fun x hx => .inl hx, by simp, fun d z hd hl _ _ => ?_⟩ (fun y hy => hperm.mem_iff.1 hy) (fun a _ => hiff a) (fun _ _ _ _ _ => trivial) (fun _ _ _ _ _ => trivial) trivial)
        exact verS_own (J := { n := root.length, m, R, C := fun a => Within root a ∧ (vars.map (·.eval a)).Nodup }) (fun _ h => h.elim) _ d z
          (verS_mono (fun _ _ _ hq => ⟨hq.1, trivial⟩) _ _ _ (Ver.toS (J := { n := root.length, m, R, C := fun a => Within root a ∧ (vars.map (·.eval a)).Nodup }) (fun _ => id) _ d z
            (gacProp_ver ho hval hvs hold (fun a _ hc => (hiff a).1 hc) hd hl)))

end
end AllDifferent
end Gcs
