import Verif.Model.Cons.ArgSort
import Verif.Spec.ArgSort
import Verif.Lemmas.Cons.SortProp
import Verif.Lemmas.Cons.Inverse

/-!
# Ranks
-/

namespace Gcs.ArgSort

/-- Number `i` comes before number `k`. -/
def Prec (f : Nat → Int) (i k : Nat) : Prop := f i < f k ∨ f i = f k ∧ i < k

instance (f : Nat → Int) (i k : Nat) : Decidable (Prec f i k) := inferInstanceAs (Decidable (_ ∨ _))

variable {n : Nat} {f lo hi : Nat → Int}

theorem Prec.trans {i j k : Nat} (h1 : Prec f i j) (h2 : Prec f j k) : Prec f i k := by
  simp only [Prec] at *; omega

theorem Prec.asymm {i j : Nat} (h1 : Prec f i j) : ¬ Prec f j i := by
  simp only [Prec] at *; omega

theorem prec_total (i j : Nat) : Prec f i j ∨ i = j ∨ Prec f j i := by
  simp only [Prec]; omega

theorem before_iff {i k : Nat} (h : i ≠ k) : before i k (f i) (f k) = true ↔ Prec f i k := by
  unfold before Prec
  split <;> simp only [decide_eq_true_eq] <;> omega

/-- The number of those that come before. -/
theorem tally_eq (k : Nat) : tally n k f (f k) = (List.range n).countP fun i => Prec f i k := by
  rw [tally, others, List.countP_filter]
  refine List.countP_congr fun i _ => ?_
  by_cases h : i = k
  · subst h
    simp [Prec]
  · simp [h, before_iff h]

theorem tally_le {k : Nat} {f g : Nat → Int} (h : ∀ i < n, f i ≤ g i) (v : Int) : tally n k g v ≤ tally n k f v := by
  refine List.countP_mono_left fun i hi hb => ?_
  have := h i (List.mem_range.1 (List.mem_filter.1 hi).1)
  unfold before at *
  by_cases hik : i < k <;> simp only [hik, if_true, if_false, decide_eq_true_eq] at * <;> omega

/-- A number is at the place that is as many as come before it, if the numbers are in order. -/
theorem place_of_pairwise : ∀ (l : List Nat), l.Pairwise (Prec f) → ∀ (j b : Nat), l[j]? = some b → l.countP (fun i => Prec f i b) = j
  | [], _, j, b, h => by simp at h
  | c :: l, hp, j, b, h => by
    rw [List.pairwise_cons] at hp
    rw [List.countP_cons]
    cases j with
    | zero =>
      cases h
      have : l.countP (fun i => Prec f i c) = 0 := by
        rw [List.countP_eq_zero]
        intro i hi
        simpa using (hp.1 i hi).asymm
      rw [this]
      simp [Prec]
    | succ j =>
      rw [place_of_pairwise l hp.2 j b h, if_pos (by simpa using hp.1 b (List.mem_of_getElem? h))]

theorem exists_top (v : Int) : ∀ (vs : List Int), (∃ t ∈ vs, t ≤ v) → ∃ s ∈ vs, s ≤ v ∧ ∀ t ∈ vs, t ≤ v → t ≤ s
  | [], h => by obtain ⟨t, h, _⟩ := h; simp at h
  | c :: vs, h => by
    by_cases hv : ∃ t ∈ vs, t ≤ v
    · obtain ⟨s, h1, h2, h3⟩ := exists_top v vs hv
      by_cases hc : c ≤ v ∧ s ≤ c
      · exact ⟨c, List.mem_cons_self, hc.1, fun t ht htv => (List.mem_cons.1 ht).elim (fun e => e ▸ Int.le_refl _) fun ht => Int.le_trans (h3 t ht htv) hc.2⟩
      · refine ⟨s, List.mem_cons_of_mem _ h1, h2, fun t ht htv => (List.mem_cons.1 ht).elim (fun e => ?_) fun ht => h3 t ht htv⟩
        subst e; omega
    · obtain ⟨t, ht, htv⟩ := h
      rcases List.mem_cons.1 ht with rfl | ht
      · exact ⟨t, List.mem_cons_self, htv, fun t' ht' h' => (List.mem_cons.1 ht').elim (fun e => e ▸ Int.le_refl _) fun ht' => absurd ⟨t', ht', h'⟩ hv⟩
      · exact absurd ⟨t, ht, htv⟩ hv

/-- The values that are tried: those of number `k` where something may change. -/
structure Tries (n : Nat) (lo hi : Nat → Int) (k : Nat) (vs : List Int) : Prop where
  inside : lo k ≤ hi k → ∀ v ∈ vs, lo k ≤ v ∧ v ≤ hi k
  first : lo k ∈ vs
  all : ∀ i < n, i ≠ k → ∀ t, t = lo i ∨ t = hi i ∨ t = lo i + 1 ∨ t = hi i + 1 → lo k ≤ t → t ≤ hi k → t ∈ vs

/-- What is not at the end of the range can be counted up and down from. -/
abbrev Inner (v : Int) : Prop := i64Min < v ∧ v < i64Max

theorem around_ok {k i : Nat} (h1 : Inner (lo i)) (h2 : Inner (hi i)) : ∃ ts, around lo hi k i = .ok ts ∧ (∀ t ∈ ts, lo k ≤ t ∧ t ≤ hi k) ∧ ∀ t, t = lo i ∨ t = hi i ∨ t = lo i + 1 ∨ t = hi i + 1 → lo k ≤ t → t ≤ hi k → t ∈ ts := by
  have raw : ∀ v : Int, Inner v → rawAdd i64Max v 1 = .ok (v + 1) ∧ rawSub i64Max v 1 = .ok (v - 1) := fun v h => by
    have h1 := h.1
    have h2 := h.2
    simp only [i64Min, i64Max] at h1 h2
    exact ⟨rawOut_ok (by simp only [InW, i64Max]; omega), rawOut_ok (by simp only [InW, i64Max]; omega)⟩
  refine ⟨_, by rw [around, (raw _ h1).1, (raw _ h1).2, (raw _ h2).1, (raw _ h2).2]; rfl, fun t ht => by simpa using (List.mem_filter.1 ht).2, fun t ht k1 k2 => List.mem_filter.2 ⟨?_, by simp [k1, k2]⟩⟩
  simp only [List.mem_cons]
  rcases ht with h | h | h | h <;> simp [h]

theorem cands_ok {k : Nat} (h : ∀ i < n, Inner (lo i) ∧ Inner (hi i)) : ∃ vs, cands n lo hi k = .ok vs ∧ Tries n lo hi k vs := by
  have key : ∀ is : List Nat, (∀ i ∈ is, i < n) → ∃ tss, AllDifferent.mapAll (around lo hi k) is = .ok tss ∧ (∀ t ∈ tss.flatten, lo k ≤ t ∧ t ≤ hi k) ∧
      ∀ i ∈ is, ∀ t, t = lo i ∨ t = hi i ∨ t = lo i + 1 ∨ t = hi i + 1 → lo k ≤ t → t ≤ hi k → t ∈ tss.flatten := by
    intro is
    induction is with
    | nil => intro _; exact ⟨[], rfl, by simp, by simp⟩
    | cons i is ih =>
      intro hi'
      obtain ⟨ts, e1, h1, h2⟩ := around_ok (k := k) (h i (hi' i List.mem_cons_self)).1 (h i (hi' i List.mem_cons_self)).2
      obtain ⟨tss, e2, h3, h4⟩ := ih fun j hj => hi' j (List.mem_cons_of_mem _ hj)
      refine ⟨ts :: tss, by rw [AllDifferent.mapAll, e1, Knapsack.chk_ok_bind, e2, Knapsack.chk_ok_bind]; rfl, fun t ht => ?_, fun j hj t k1 k2 k3 => ?_⟩
      · rw [List.flatten_cons, List.mem_append] at ht
        exact ht.elim (h1 t) (h3 t)
      · rw [List.flatten_cons, List.mem_append]
        rcases List.mem_cons.1 hj with rfl | hj
        · exact .inl (h2 t k1 k2 k3)
        · exact .inr (h4 j hj t k1 k2 k3)
  obtain ⟨tss, e, h1, h2⟩ := key (others n k) fun i hi' => List.mem_range.1 (List.mem_filter.1 hi').1
  refine ⟨[lo k, hi k] ++ tss.flatten, by rw [cands, e]; rfl, ⟨fun hk v hv => ?_, by simp, fun i hi' hne t k1 k2 k3 => List.mem_append_right _ (h2 i (List.mem_filter.2 ⟨List.mem_range.2 hi', by simp [hne]⟩) t k1 k2 k3)⟩⟩
  rcases List.mem_append.1 hv with hv | hv
  · simp only [List.mem_cons, List.not_mem_nil, or_false] at hv
    rcases hv with rfl | rfl <;> omega
  · exact h1 v hv

/-- Counting is the same at the next lower value that is tried. -/
theorem Tries.same {k : Nat} {vs : List Int} (h : Tries n lo hi k vs) {v s : Int} (hv : v ≤ hi k) (hs : s ∈ vs) (hsv : s ≤ v) (htop : ∀ t ∈ vs, t ≤ v → t ≤ s) (hl : lo k ≤ s)
    {g : Nat → Int} (hg : ∀ i, g i = lo i ∨ g i = hi i) : tally n k g s = tally n k g v := by
  refine List.countP_congr fun i hi' => ?_
  obtain ⟨h1, h2⟩ := List.mem_filter.1 hi'
  have hne : i ≠ k := by simpa using h2
  have key : ∀ t, t = g i ∨ t = g i + 1 → lo k ≤ t → t ≤ v → t ≤ s := fun t ht k1 k2 => htop t (h.all i (List.mem_range.1 h1) hne t (by rcases hg i with e | e <;> rw [e] at ht <;> rcases ht with ht | ht <;> simp [ht]) k1 (by omega)) k2
  have a1 := key (g i) (.inl rfl)
  have a2 := key (g i + 1) (.inr rfl)
  unfold before
  split <;> simp only [decide_eq_true_eq] <;> omega

/-- No rank is left out. -/
theorem Tries.complete {k : Nat} {vs : List Int} (h : Tries n lo hi k vs) (hf : ∀ i, i < n ∨ i = k → lo i ≤ f i ∧ f i ≤ hi i) : reachable n lo hi k vs (tally n k f (f k)) = true := by
  have hk := hf k (.inr rfl)
  obtain ⟨s, h1, h2, h3⟩ := exists_top (f k) vs ⟨lo k, h.first, hk.1⟩
  have hl := (h.inside (by omega) s h1).1
  rw [reachable, List.any_eq_true]
  refine ⟨s, h1, ?_⟩
  rw [decide_eq_true_eq, h.same hk.2 h1 h2 h3 hl (g := hi) fun _ => .inr rfl, h.same hk.2 h1 h2 h3 hl (g := lo) fun _ => .inl rfl]
  exact ⟨tally_le (fun i hi' => (hf i (.inl hi')).2) _, tally_le (fun i hi' => (hf i (.inl hi')).1) _⟩

/-- There is only one rank if all values are known. -/
theorem Tries.exact {k : Nat} {vs : List Int} (h : Tries n lo hi k vs) (hf : ∀ i, i < n ∨ i = k → lo i = f i ∧ f i = hi i) {r : Nat} (hr : reachable n lo hi k vs r = true) : r = tally n k f (f k) := by
  have hk := hf k (.inr rfl)
  rw [reachable, List.any_eq_true] at hr
  obtain ⟨v, hv, hr⟩ := hr
  have := h.inside (by omega) v hv
  have e : v = f k := by omega
  subst e
  rw [decide_eq_true_eq] at hr
  have e1 := tally_le (n := n) (k := k) (f := f) (g := hi) (fun i hi' => Int.le_of_eq (hf i (.inl hi')).2) (f k)
  have e2 := tally_le (n := n) (k := k) (f := hi) (g := f) (fun i hi' => Int.le_of_eq (hf i (.inl hi')).2.symm) (f k)
  have e3 := tally_le (n := n) (k := k) (f := f) (g := lo) (fun i hi' => Int.le_of_eq (hf i (.inl hi')).1.symm) (f k)
  have e4 := tally_le (n := n) (k := k) (f := lo) (g := f) (fun i hi' => Int.le_of_eq (hf i (.inl hi')).1) (f k)
  omega

end Gcs.ArgSort
