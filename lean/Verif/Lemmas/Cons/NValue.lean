import Verif.Lemmas.Cons.Counting
import Verif.Spec.Counting

namespace Gcs
open IntervalSet

theorem distinct_le : ∀ (ys L : List Int), (∀ x ∈ ys, x ∈ L) → distinct ys ≤ L.length
  | [], _, _ => Nat.zero_le _
  | y :: ys, L, h => by
    have hy := h y (by simp)
    unfold distinct
    split
    · exact distinct_le ys L fun x hx => h x (List.mem_cons_of_mem _ hx)
    · rename_i hn
      have := distinct_le ys (L.erase y) fun x hx => (List.mem_erase_of_ne (fun e : x = y => hn (e ▸ hx))).2 (h x (List.mem_cons_of_mem _ hx))
      rw [List.length_erase_of_mem hy] at this
      have := List.length_pos_of_mem hy
      omega

theorem le_distinct : ∀ (ys L : List Int), L.Nodup → (∀ x ∈ L, x ∈ ys) → L.length ≤ distinct ys
  | [], L, _, h => by
    cases L with
    | nil => exact Nat.zero_le _
    | cons x L => exact absurd (h x (by simp)) (by simp)
  | y :: ys, L, hn, h => by
    unfold distinct
    split
    · rename_i hy
      exact le_distinct ys L hn fun x hx => (List.mem_cons.1 (h x hx)).elim (fun e => e ▸ hy) id
    · have := le_distinct ys (L.erase y) (hn.erase y) fun x hx => by
        have := hn.mem_erase_iff.1 hx
        exact (List.mem_cons.1 (h x this.2)).resolve_left this.1
      have h2 : L.length ≤ (L.erase y).length + 1 := by rw [List.length_erase]; split <;> omega
      omega

namespace NValue

section
variable {σ μ : Type} {n m : Nat} {R : Err → Prop} {root d : Doms} {vars : List VarId} {many : VarId}

theorem mem_insert {s : List Int} {x y : Int} : y ∈ insert s x ↔ y ∈ s ∨ y = x := by
  unfold insert; split
  · rename_i h; exact ⟨.inl, fun h' => h'.elim id fun e => e ▸ h⟩
  · rw [List.mem_cons]; exact Or.comm

theorem nodup_insert {s : List Int} {x : Int} (h : s.Nodup) : (insert s x).Nodup := by
  unfold insert; split
  · exact h
  · rename_i hn; exact List.nodup_cons.2 ⟨hn, h⟩

theorem foldl_insert : ∀ (xs s : List Int), s.Nodup → (xs.foldl insert s).Nodup ∧ ∀ y, y ∈ xs.foldl insert s ↔ y ∈ s ∨ y ∈ xs
  | [], s, h => ⟨h, by simp⟩
  | x :: xs, s, h => by
    obtain ⟨h1, h2⟩ := foldl_insert xs (insert s x) (nodup_insert h)
    refine ⟨h1, fun y => ?_⟩
    rw [List.foldl_cons, h2, mem_insert, List.mem_cons, or_assoc]

theorem possible_roo (hd : DomsOK d) : ∀ (vs : List VarId) (s : List Int), s.Nodup → (∀ v ∈ vs, v.Valid d.length) →
    RightOrOverflow (possible d s vs) (fun L => L.Nodup ∧ ∀ y, y ∈ L ↔ y ∈ s ∨ ∃ v ∈ vs, Poss d v y)
  | [], s, h, _ => .pure ⟨h, by simp⟩
  | v :: vs, s, h, hv => by
    refine (listed_roo hd (hv v (by simp))).bind fun g hg => (collect_roo hg).bind fun L hL => ?_
    obtain ⟨h1, h2⟩ := foldl_insert L s h
    refine (possible_roo hd vs _ h1 fun w hw => hv w (List.mem_cons_of_mem _ hw)).mono fun r hr => ⟨hr.1, fun y => ?_⟩
    rw [hr.2, h2, hL.2, exists_cons, or_assoc]

theorem definite_roo (hd : DomsOK d) : ∀ (vs : List VarId) (s : List Int), s.Nodup → (∀ v ∈ vs, v.Valid d.length) →
    RightOrOverflow (definite d s vs) (fun L => L.Nodup ∧ ∀ y, y ∈ L ↔ y ∈ s ∨ ∃ v ∈ vs, Pinned d v y)
  | [], s, h, _ => .pure ⟨h, by simp⟩
  | v :: vs, s, h, hv => by
    have hv' : ∀ w ∈ vs, w.Valid d.length := fun w hw => hv w (List.mem_cons_of_mem _ hw)
    refine (single_pin hd (hv v (by simp))).bind fun r hr => ?_
    cases r with
    | some x =>
      refine (definite_roo hd vs _ (nodup_insert h) hv').mono fun r hr' => ⟨hr'.1, fun y => ?_⟩
      rw [hr'.2, mem_insert, exists_cons, or_assoc, ← (hr y).1, Option.some.injEq, eq_comm (a := x)]
    | none =>
      refine (definite_roo hd vs _ h hv').mono fun r hr' => ⟨hr'.1, fun y => ?_⟩
      rw [hr'.2, exists_cons, ← (hr y).1]
      simp

/-- The number of different values is right. -/
abbrev Counted (many : VarId) (vars : List VarId) (a : Asg) : Prop := many.eval a = distinct (vars.map (·.eval a))

theorem prop_enforces (ho : R .overflow) (hv : ∀ v ∈ vars, v.Valid n) (hm : many.Valid n) : Enforces n m R root (Counted many vars) (many :: vars) (prop (σ := σ) (μ := μ) many vars) := by
  intro d hd hl
  subst hl
  refine ver_ask (f := (possible · [] vars)) ho (possible_roo hd vars [] .nil hv) fun p hp => ?_
  have hp2 : ∀ y, y ∈ p ↔ ∃ v ∈ vars, Poss d v y := fun y => by simpa using hp.2 y
  refine ver_lift (P := fun c => ∃ k, c = Cond.lt many k ∧ InI64 k ∧ k = (p.length : Int) + 1) ho ((ofSize_roo p.length).bind fun k hk => ?_) fun c hc => ?_
  · exact (add_roo hk.2 (by decide)).bind fun k' hk' => .pure ⟨k', rfl, hk'.2, by rw [hk'.1, hk.1]⟩
  obtain ⟨k, rfl, hk1, hk2⟩ := hc
  refine ver_tell (.lt hm hk1) (fun a ha hC => ?_) fun d1 hd1 hl1 h1 => ?_
  · have := distinct_le (vars.map (·.eval a)) p fun x hx => by
      obtain ⟨v, hv, rfl⟩ := List.mem_map.1 hx
      exact (hp2 _).2 ⟨v, hv, ha.poss v⟩
    have hc := hC.2
    rw [Lit.holds_lt, hk2, hc]; omega
  refine ver_ask (f := (definite · [] vars)) ho (definite_roo hd1 vars [] .nil fun v h => hl1.symm ▸ hv v h) fun s hs => ?_
  have hs2 : ∀ y, y ∈ s ↔ ∃ v ∈ vars, Pinned d1 v y := fun y => by simpa using hs.2 y
  refine ver_lift ho (ofSize_roo s.length) fun k hk => ?_
  have low : ∀ a, Within d1 a → s.length ≤ distinct (vars.map (·.eval a)) := fun a ha => le_distinct _ s hs.1 fun x hx => by
    obtain ⟨v, h1, h2⟩ := (hs2 x).1 hx
    exact List.mem_map.2 ⟨v, h1, h2 a ha⟩
  have floor : ∀ a : Asg, vars ≠ [] → 1 ≤ distinct (vars.map (·.eval a)) := fun a hne => by
    cases vars with
    | nil => exact absurd rfl hne
    | cons v vs => exact le_distinct _ [v.eval a] (by simp) (by simp)
  have hI : InI64 (if (if vars = [] then (0 : Int) else 1) < k then k else if vars = [] then 0 else 1) := by
    by_cases hne : vars = []
    · rw [if_pos hne]; split
      · exact hk.2
      · decide
    · rw [if_neg hne]; split
      · exact hk.2
      · decide
  refine ver_tell (.ge hm hI) (fun a ha hC => ?_) fun d2 hd2 hl2 h2 => ?_
  · have hc := hC.2
    have := low a ha
    have h0 := hk.1
    rw [Lit.holds_ge, hc]
    by_cases hne : vars = []
    · rw [if_pos hne]; split <;> omega
    · have := floor a hne
      rw [if_neg hne]; split <;> omega
  · refine .intro (fun hkn a ha _ => ?_) (fun h => nomatch h) fun h => nomatch h
    obtain ⟨k1, k2⟩ := (h2 a).1 ha
    obtain ⟨k3, k4⟩ := (h1 a).1 k1
    have h0 := hk.1
    rw [Lit.holds_lt] at k4
    rw [Lit.holds_ge] at k2
    have e1 : p.length ≤ distinct (vars.map (·.eval a)) := le_distinct _ p hp.1 fun x hx => by
      obtain ⟨v, h1, h2⟩ := (hp2 x).1 hx
      exact List.mem_map.2 ⟨v, h1, (hkn v (by simp [h1])).poss k3 h2⟩
    have e2 : distinct (vars.map (·.eval a)) ≤ s.length := distinct_le _ s fun x hx => by
      obtain ⟨v, hv, rfl⟩ := List.mem_map.1 hx
      exact (hs2 _).2 ⟨v, hv, ((hkn v (by simp [hv])).sub fun a ha => ((h1 a).1 ha).1).pinned k1⟩
    show many.eval a = _
    split at k2 <;> omega

theorem install_right (ho : R .overflow) (hd : DomsOK root) (hv : ∀ v ∈ vars, v.Valid root.length) (hm : many.Valid root.length) :
    (Posted.mk (install (σ := σ) (μ := μ) many vars) (Counted many vars) (many :: vars)).Right root.length m R root (· = .overflow) := by
  rcases possible_roo hd vars [] .nil hv with h | ⟨p, h, _⟩
  · refine ⟨fun items e => ?_, fun e he => ?_⟩
    · replace e : install many vars root = _ := e
      rw [install, h] at e; cases e
    · replace he : install many vars root = _ := he
      rw [install, h] at he; cases he; rfl
  · have := right_one (inst := install (σ := σ) (μ := μ) many vars) (by rw [install, h]; rfl) (prop_enforces (m := m) (root := root) ho hv hm) (wakes_mem fun x hx => by
      rcases List.mem_cons.1 hx with rfl | h <;> simp [*]) rfl
    exact ⟨this.1, fun e he => (this.2 e he).elim⟩

end
end NValue
end Gcs
