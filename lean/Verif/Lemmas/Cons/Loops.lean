import Verif.Lemmas.Cons.Values
import Verif.Model.Cons.Counting

/-!
# Loops that only look at the state, and counting
-/

namespace Gcs
open IntervalSet

theorem wakes_mem {t : Triggers} {xs : List VarId} (h : ∀ x ∈ xs, x ∈ t.onChange ∨ x ∈ t.onBounds ∨ x ∈ t.onInstantiated) : Wakes t xs := fun x hx v hv => ⟨x, h x hx, hv⟩

/-- The number of members with a property. -/
noncomputable def cnt {α : Type} (P : α → Prop) (xs : List α) : Nat := by classical exact xs.countP (fun x => decide (P x))

section
variable {α : Type} {P Q : α → Prop}

theorem cnt_nil : cnt P [] = 0 := by simp [cnt]
theorem cnt_cons (x : α) (xs : List α) : cnt P (x :: xs) = cnt P xs + (by classical exact if P x then 1 else 0) := by
  classical
  simp [cnt, List.countP_cons]
theorem cnt_pos {x : α} {xs : List α} (h : P x) : cnt P (x :: xs) = cnt P xs + 1 := by simp [cnt_cons, h]
theorem cnt_neg {x : α} {xs : List α} (h : ¬ P x) : cnt P (x :: xs) = cnt P xs := by simp [cnt_cons, h]

theorem cnt_le : ∀ xs : List α, (∀ x ∈ xs, P x → Q x) → cnt P xs ≤ cnt Q xs
  | [], _ => by simp [cnt_nil]
  | x :: xs, h => by
    have ih := cnt_le xs fun y hy => h y (List.mem_cons_of_mem _ hy)
    by_cases hp : P x
    · rw [cnt_pos hp, cnt_pos (h x (by simp) hp)]; omega
    · rw [cnt_neg hp]
      by_cases hq : Q x
      · rw [cnt_pos hq]; omega
      · rw [cnt_neg hq]; exact ih

theorem cnt_congr (xs : List α) (h : ∀ x ∈ xs, P x ↔ Q x) : cnt P xs = cnt Q xs :=
  Nat.le_antisymm (cnt_le xs fun x hx => (h x hx).1) (cnt_le xs fun x hx => (h x hx).2)

/-- A member that has only one of the two properties makes a difference. -/
theorem cnt_lt : ∀ xs : List α, (∀ x ∈ xs, P x → Q x) → (∃ x ∈ xs, Q x ∧ ¬ P x) → cnt P xs < cnt Q xs
  | [], _, h => by simp at h
  | x :: xs, h, he => by
    have hm : ∀ y ∈ xs, P y → Q y := fun y hy => h y (List.mem_cons_of_mem _ hy)
    by_cases hp : P x
    · rw [cnt_pos hp, cnt_pos (h x (by simp) hp)]
      obtain ⟨y, hy, k⟩ := he
      rcases List.mem_cons.1 hy with rfl | hy
      · exact absurd hp k.2
      · have := cnt_lt xs hm ⟨y, hy, k⟩; omega
    · rw [cnt_neg hp]
      by_cases hq : Q x
      · rw [cnt_pos hq]; have := cnt_le xs hm; omega
      · rw [cnt_neg hq]
        obtain ⟨y, hy, k⟩ := he
        rcases List.mem_cons.1 hy with rfl | hy
        · exact absurd k.1 hq
        · exact cnt_lt xs hm ⟨y, hy, k⟩

theorem cnt_le_length : ∀ xs : List α, cnt P xs ≤ xs.length
  | [] => by simp [cnt_nil]
  | x :: xs => by
    have := cnt_le_length xs
    by_cases hp : P x
    · rw [cnt_pos hp, List.length_cons]; omega
    · rw [cnt_neg hp, List.length_cons]; omega

theorem countP_cnt (p : α → Bool) (xs : List α) (h : ∀ x ∈ xs, p x = true ↔ P x) : xs.countP p = cnt P xs := by
  classical
  unfold cnt
  exact List.countP_congr fun x hx => by simpa using h x hx

end

section
variable {α : Type} {p : α → Chk Bool} {P : α → Prop}

theorem anyOf_roo : ∀ xs : List α, (∀ x ∈ xs, RightOrOverflow (p x) (fun b => b = true ↔ P x)) → RightOrOverflow (anyOf p xs) (fun b => b = true ↔ ∃ x ∈ xs, P x)
  | [], _ => .pure (by simp)
  | x :: xs, h => by
    refine (h x (by simp)).bind fun b hb => ?_
    cases b with
    | true => exact .pure ⟨fun _ => ⟨x, by simp, hb.1 rfl⟩, fun _ => rfl⟩
    | false =>
      refine (anyOf_roo xs fun y hy => h y (List.mem_cons_of_mem _ hy)).mono fun c hc => ?_
      rw [hc, exists_cons]
      exact ⟨.inr, fun h => h.resolve_left fun h => by have := hb.2 h; cases this⟩

theorem anyOfGen_roo {p : Int → Chk Bool} {P Q : Int → Prop} {g : Gen Int} (hg : Lists Q g) (h : ∀ x, InI64 x → Q x → RightOrOverflow (p x) (fun b => b = true ↔ P x)) :
    RightOrOverflow (anyOfGen p g) (fun b => b = true ↔ ∃ x, Q x ∧ P x) := by
  refine (anyOf_roo g.1 fun x hx => h x (hg.1 x hx).1 (hg.1 x hx).2).bind fun b hb => ?_
  cases b with
  | true =>
    obtain ⟨x, hx, hp⟩ := hb.1 rfl
    exact .pure ⟨fun _ => ⟨x, (hg.1 x hx).2, hp⟩, fun _ => rfl⟩
  | false =>
    cases e : g.2 with
    | some e' => rw [hg.2.2 e' e]; exact .inl rfl
    | none =>
      exact .pure ⟨fun h => (nomatch h), fun ⟨x, hx, hp⟩ => hb.2 ⟨x, hg.2.1 e x hx, hp⟩⟩

theorem howMany_roo : ∀ xs : List α, (∀ x ∈ xs, RightOrOverflow (p x) (fun b => b = true ↔ P x)) → RightOrOverflow (howMany p xs) (fun k => k = cnt P xs)
  | [], _ => .pure cnt_nil.symm
  | x :: xs, h => by
    refine (h x (by simp)).bind fun b hb => ?_
    refine (howMany_roo xs fun y hy => h y (List.mem_cons_of_mem _ hy)).bind fun k hk => ?_
    refine .pure ?_
    cases b with
    | true => rw [cnt_pos (hb.1 rfl), hk]; rfl
    | false =>
      have : ¬ P x := fun h => by have := hb.2 h; cases this
      rw [cnt_neg this, hk]; rfl

theorem collect_roo {Q : Int → Prop} {g : Gen Int} (hg : Lists Q g) : RightOrOverflow (collect g) (fun L => (∀ x ∈ L, InI64 x) ∧ ∀ x, x ∈ L ↔ Q x) := by
  unfold collect
  cases e : g.2 with
  | some e' => rw [hg.2.2 e' e]; exact .inl rfl
  | none => exact .pure ⟨fun x hx => (hg.1 x hx).1, fun x => ⟨fun hx => (hg.1 x hx).2, hg.2.1 e x⟩⟩

theorem ofSize_roo (k : Nat) : RightOrOverflow (ofSize k) (fun r => r = k ∧ InI64 r) := by
  unfold ofSize
  split
  · rename_i h; exact .pure ⟨rfl, h⟩
  · exact .inl rfl

theorem loopUp_lists {i u : Int} (hi : InI64 i) (hu : InI64 u) : Lists (fun x => i ≤ x ∧ x ≤ u) (loopUp i u) := by
  obtain ⟨h1, h2⟩ := loopUp_spec i u hi hu
  refine ⟨fun x hx => ?_, fun _ x hx => (h1.2 x).2 hx, fun e he => ?_⟩
  · have := (h1.2 x).1 hx
    exact ⟨by unfold InI64 at *; omega, this⟩
  · rw [h2] at he; split at he
    · cases he; rfl
    · cases he

end

/-- `x` can only have the value `v`. -/
def Pinned (d : Doms) (x : VarId) (v : Int) : Prop := ∀ a, Within d a → x.eval a = v

section
variable {d : Doms} {x : VarId}

theorem pinned_iff (hd : DomsOK d) (v : Int) : (∀ z, Poss d x z ↔ z = v) ↔ Pinned d x v := by
  constructor
  · exact fun h a ha => (h _).1 (ha.poss x)
  · obtain ⟨b, hb⟩ := exists_within hd
    exact fun h z => ⟨fun ⟨a, ha, e⟩ => e ▸ h a ha, fun e => ⟨b, hb, e ▸ h b hb⟩⟩

theorem single_pin (hd : DomsOK d) (hv : x.Valid d.length) : RightOrOverflow (optionalSingleValue d x) (fun r => ∀ v, (r = some v ↔ Pinned d x v) ∧ (r = some v → InI64 v)) :=
  (single_roo hd hv).mono fun _ hr v => ⟨(hr v).1.trans (pinned_iff hd v), (hr v).2⟩

theorem Known.pinned (h : Known d x) {a : Asg} (ha : Within d a) : Pinned d x (x.eval a) := fun b hb => h b a hb ha

theorem Known.poss (h : Known d x) {a : Asg} (ha : Within d a) {v : Int} (hv : Poss d x v) : x.eval a = v := by
  obtain ⟨b, hb, rfl⟩ := hv; exact h a b ha hb

end
end Gcs
