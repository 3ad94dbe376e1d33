import Verif.Lemmas.Cons.Tabulation
import Verif.Lemmas.Stateful
import Verif.Lemmas.Cons.ReifiedState
import Verif.Spec.Stateful

/-!
# Constraints that add a table
-/

namespace Gcs
open IntervalSet

namespace Tabulation

section
variable {σ μ : Type} {n m : Nat} {R : Err → Prop} {root : Doms} {vars xs : List VarId} {sel : VarId} {ts : List (List (Option Int))} {fresh : Nat → Bool} {cache : Nat → Nat → Int → Option Nat} {z0 : List σ}

/-- What a constraint without state installs, when there is more to the constraint, and something may be relied on that is not used. -/
theorem served_of_ok {C C' : Asg → Prop} {I : Doms → List σ → Prop} (hI : ∀ d d' z, DomsOK d' → d'.length = n → (∀ a, Within d' a → Within d a) → I d z → I d' z) (hC : ∀ a, Within root a → C' a → C a) {p : Item σ μ} {e : Asg → Prop}
    (h : p.OK n m R root C xs e) : p.Served n m R root I (fun _ => False) C' xs e := by
  cases p with
  | init _ f => exact fun d hd hl => ver_weaken (J := { n, m, R, C := fun a => Within root a ∧ C a, watch := False }) _ _ (fun a _ h => ⟨h.1, hC a h.1 h.2⟩) (h d hd hl)
  | prop f t =>
    obtain ⟨ys, k1, k2⟩ := h
    refine ⟨ys, k1, k2.wakes, k2.refined, fun d z hd hl _ hi => ?_⟩
    have := ver_facts _ _ hd hl (ver_weaken (J := { n, m, R, C := fun a => Within root a ∧ C a }) (C := fun a => Within root a ∧ C' a) _ _ (fun a _ h => ⟨h.1, hC a h.1 h.2⟩) (k2.ver d hd hl))
    exact verS_mono (fun _ _ _ hq => ⟨hq.1.2, hI d _ _ hq.1.1.1 hq.1.1.2.1 hq.1.1.2.2 (hq.2 ▸ hi)⟩) _ _ _ (Ver.toS (J := { n, m, R, C := fun a => Within root a ∧ C' a }) (fun _ => id) f d z this)

/-- The propagator for the table, with a selector it does not wake for. -/
theorem table_serves (ho : R .overflow) (hs : sel.Valid n) (hv : ∀ v ∈ vars, v.Valid n) (ht : Table.Shaped vars.length ts) (hoff : Table.Off sel vars) :
    Serves n m R root (fun d _ => Inverse.Inside d 0 ts.length [sel]) (fun _ => False) (Table.prop (σ := σ) (μ := μ) sel vars ts fresh cache) { onChange := vars } (Selected ts vars sel) (Selected ts vars sel) vars := by
  refine Inverse.serves_of_ver (I := fun d => Inverse.Inside d 0 ts.length [sel]) (wakes_mem fun z hz => .inl hz) rfl (fun d d' hs hi => hi.sub hs) fun d hd hl hi => ?_
  have hin : ∀ k, Poss d sel k → 0 ≤ k ∧ k < ts.length := fun k hk => by have := hi sel (by simp) k hk; omega
  refine ver_mono (fun ps d' hq => ?_) _ _ (ver_facts _ _ hd hl (Table.prop_ver (J := { n, m, R, C := fun a => Within root a ∧ Selected ts vars sel a }) ho hs hv ht (fun a h => h.2) fresh cache hd hl hin))
  obtain ⟨⟨-, -, k3⟩, rfl, h1, h2⟩ := hq
  have hin' : ∀ k, Poss d' sel k → 0 ≤ k ∧ k < ts.length := fun k hk => hin k (Inverse.Poss.mono k3 hk)
  refine ⟨fun hk a ha _ => ?_, fun hD _ hk a ha _ => ?_, fun e => nomatch e⟩
  · refine Table.selected_of hin' (fun k hp t ht' a ha => ?_) ha
    obtain ⟨t', e, hc⟩ := h1 k hp
    rw [ht'] at e; cases e
    exact Table.matches_of_can (known_all hk) hc (k3 a ha)
  · have hn : (vars.filterMap VarId.underlyingIndex).Nodup := by simpa [Triggers.Distinct] using hD
    have hsep : Table.Separate sel vars := ⟨hoff, fun p q v w hp hq hne => by
      rcases Nat.lt_or_gt_of_ne hne with hlt | hlt
      · exact Table.nodup_apart hn p q v w hp hq hlt
      · exact Table.apart_symm (Table.nodup_apart hn q p w v hq hp hlt)⟩
    refine Table.selected_of hin' (fun k hp t ht' a ha => ?_) ha
    obtain ⟨t', e, hc⟩ := (h2 hsep).1 k hp
    rw [ht'] at e; cases e
    exact Table.matches_of_can (known_all hk) hc ha

/-- A constraint and a table. -/
theorem items_serve {C : Asg → Prop} {its : List (Item σ μ)} (ho : R .overflow) (hb : Posts n m R root C xs its) (hs : sel.Valid n) (hv : ∀ v ∈ vars, v.Valid n) (hx : ∀ v ∈ vars, v ∈ xs)
    (ht : Table.Shaped vars.length ts) (hoff : Table.Off sel vars) (hsel : ts ≠ [] → ∀ a, Within root a → 0 ≤ sel.eval a ∧ sel.eval a < ts.length) :
    ∃ I es, es.map (·.1) = its ++ items sel vars ts fresh cache ∧ Served n m R root z0 I (fun _ => False) (fun a => C a ∧ Selected ts vars sel a) xs es := by
  obtain ⟨es, e1, h2, h3⟩ := hb
  by_cases h0 : ts = []
  · subst h0
    refine ⟨fun _ _ => True, es ++ [(.init .expensive (.tell .ff), fun _ => False)], by simp [items, e1], fun p hp => ?_, fun a ha => ?_, fun _ _ _ _ _ _ _ => trivial, fun _ _ _ _ _ => trivial, fun _ _ _ _ => trivial⟩
    · rcases List.mem_append.1 hp with hp | hp
      · exact served_of_ok (fun _ _ _ _ _ _ _ => trivial) (fun _ _ h => h.1) (h2 p hp)
      · rw [List.mem_singleton] at hp; subst hp
        intro d hd hl
        refine ver_tell (trivial : Lit.Valid _ .ff) (fun a _ ⟨_, _, k, t, _, h, _⟩ => by simp at h) fun d' _ _ hd' a ha _ => ?_
        exact ((hd' a).1 ha).2
    · constructor
      · rintro ⟨_, k, t, _, h, _⟩; simp at h
      · intro h; exact (h _ (List.mem_append_right _ (List.mem_singleton.2 rfl))).elim
  · refine ⟨fun d _ => Inverse.Inside d 0 ts.length [sel], es ++ [(.prop (Table.prop sel vars ts fresh cache) { onChange := vars }, Selected ts vars sel)], by simp [items, e1, h0], fun p hp => ?_, fun a ha => ?_,
      fun d d' z _ _ hs hi => hi.sub hs, fun _ _ _ _ h => h, fun d hd hl hq => ?_⟩
    · rcases List.mem_append.1 hp with hp | hp
      · exact served_of_ok (fun _ _ _ _ _ hs hi => hi.sub hs) (fun _ _ h => h.1) (h2 p hp)
      · rw [List.mem_singleton] at hp; subst hp
        have hb := table_serves (σ := σ) (μ := μ) (m := m) (R := R) (root := root) (fresh := fresh) (cache := cache) ho hs hv ht hoff
        refine ⟨vars, hx, hb.wakes, hb.refined, fun d z hd hl hz hi => ?_⟩
        exact verS_weaken (J := { n, m, R, C := fun a => Within root a ∧ Selected ts vars sel a, own := fun _ => False }) _ _ _ (fun a _ h => ⟨h.1, h.2.2⟩) (hb.ver d z hd hl hz hi)
    · rw [h3 a ha]
      constructor
      · rintro ⟨k1, k2⟩ p hp
        rcases List.mem_append.1 hp with hp | hp
        · exact k1 p hp
        · rw [List.mem_singleton] at hp; subst hp; exact k2
      · exact fun h => ⟨fun p hp => h p (List.mem_append_left _ hp), h _ (List.mem_append_right _ (List.mem_singleton.2 rfl))⟩
    · exact Inverse.inside_of fun a ha v hv => by
        rw [List.mem_singleton] at hv; subst hv
        have := hsel h0 a (hq a ha).1
        omega

end
end Tabulation
end Gcs
