import Verif.Lemmas.Heuristics

/-!
# Search heuristics (C33, C34, C35)

`BranchOK` is the partition the search relies on (`Spec/Search.lean`); `Open`, `Chosen` and `Picked` are in `Spec/Heuristics.lean`. A value ordering is only ever asked about a variable with at least two values
(gcs/search_heuristics.cc:44-62, with a variable order as in C34).

What is documented and does not hold: on a negated view, `smallest_first` goes from the largest to the smallest (`smallestFirst_not_smallest_first`), and the `split_*` orders give a branch with no values at all
(`split_empty_branch`) when there are two or three values. For the `split_*` orders C33 is therefore proved for variables that are not negated views, and for negated views with at least four values.
-/

namespace Gcs
open IntervalSet

section
variable {d : Doms} {v : VarId}

/-! ## Value orders -/

/-- C33: `smallest_in`. -/
theorem smallestIn_branches (hd : DomsOK d) (hv : v.Valid d.length) (ho : Open d v) :
    RightOrOverflow (smallestIn d v) (fun bs => BranchOK d.length d bs ∧ ∃ y, IsMin (Poss d v) y ∧ bs = [.eq v y, .ne v y]) := by
  unfold smallestIn
  refine (lower_roo hd hv).bind fun y hy => RightOrOverflow.pure ?_
  obtain ⟨z, pz, hz⟩ := ho.other y
  exact ⟨branch_eq_ne hv hy.1 hy.2.1 pz hz, y, hy.2, rfl⟩

/-- C33: `smallest_out`. -/
theorem smallestOut_branches (hd : DomsOK d) (hv : v.Valid d.length) (ho : Open d v) :
    RightOrOverflow (smallestOut d v) (fun bs => BranchOK d.length d bs ∧ ∃ y, IsMin (Poss d v) y ∧ bs = [.ne v y, .eq v y]) := by
  unfold smallestOut
  refine (lower_roo hd hv).bind fun y hy => RightOrOverflow.pure ?_
  obtain ⟨z, pz, hz⟩ := ho.other y
  exact ⟨(branch_eq_ne hv hy.1 hy.2.1 pz hz).swap, y, hy.2, rfl⟩

/-- C33: `largest_in`. -/
theorem largestIn_branches (hd : DomsOK d) (hv : v.Valid d.length) (ho : Open d v) :
    RightOrOverflow (largestIn d v) (fun bs => BranchOK d.length d bs ∧ ∃ y, IsMax (Poss d v) y ∧ bs = [.eq v y, .ne v y]) := by
  unfold largestIn
  refine (upper_roo hd hv).bind fun y hy => RightOrOverflow.pure ?_
  obtain ⟨z, pz, hz⟩ := ho.other y
  exact ⟨branch_eq_ne hv hy.1 hy.2.1 pz hz, y, hy.2, rfl⟩

/-- C33: `largest_out`. -/
theorem largestOut_branches (hd : DomsOK d) (hv : v.Valid d.length) (ho : Open d v) :
    RightOrOverflow (largestOut d v) (fun bs => BranchOK d.length d bs ∧ ∃ y, IsMax (Poss d v) y ∧ bs = [.ne v y, .eq v y]) := by
  unfold largestOut
  refine (upper_roo hd hv).bind fun y hy => RightOrOverflow.pure ?_
  obtain ⟨z, pz, hz⟩ := ho.other y
  exact ⟨(branch_eq_ne hv hy.1 hy.2.1 pz hz).swap, y, hy.2, rfl⟩

/-- C33 (part): `smallest_first`. The branches partition the domain whatever the variable is; they are in ascending order, as documented, unless it is a negated view. -/
theorem smallestFirst_branches_partial (hd : DomsOK d) (hv : v.Valid d.length) (ho : Open d v) :
    RightOrOverflow (smallestFirst d v) (fun bs => BranchOK d.length d bs ∧ ∃ L, bs = L.map (Cond.eq v) ∧
      if v.negated then ListsDescending (Poss d v) L else ListsAscending (Poss d v) L) := by
  unfold smallestFirst
  refine (values_roo hd hv).bind fun L hL => RightOrOverflow.pure ?_
  exact ⟨branch_each hv ho hL.2.1 hL.2.2.1 hL.2.2.2, L, rfl, hL.1⟩

/-- C33: `largest_first`. -/
theorem largestFirst_branches (hd : DomsOK d) (hv : v.Valid d.length) (ho : Open d v) :
    RightOrOverflow (largestFirst d v) (fun bs => BranchOK d.length d bs ∧ ∃ L, bs = L.map (Cond.eq v) ∧ ListsDescending (Poss d v) L) := by
  have h := reversed_roo hd hv
  unfold largestFirst
  rcases h with h | ⟨L, h, hL⟩
  · left
    cases e : eachValueReversed d v with
    | error k => rw [e] at h; cases h; rfl
    | ok g => rw [e] at h; simp only [bind, Except.bind] at h ⊢; rw [h]
  · right
    cases e : eachValueReversed d v with
    | error k => rw [e] at h; cases h
    | ok g =>
      rw [e] at h; simp only [bind, Except.bind] at h ⊢; rw [h]
      exact ⟨_, rfl, branch_each hv ho (ListsDescending.nodup hL.1) hL.1.2 hL.2, L, rfl, hL.1⟩

/-- C33: `median`. -/
theorem median_branches (hd : DomsOK d) (hv : v.Valid d.length) (ho : Open d v) :
    RightOrOverflow (median d v) (fun bs => BranchOK d.length d bs ∧ ∃ L y, (if v.negated then ListsDescending (Poss d v) L else ListsAscending (Poss d v) L) ∧
      L[L.length / 2]? = some y ∧ bs = [.eq v y, .ne v y]) := by
  unfold median
  refine (values_roo hd hv).bind fun L hL => ?_
  have hlen := open_length ho hL.2.1 hL.2.2.1
  have hi : L.length / 2 < L.length := by omega
  rw [List.getElem?_eq_getElem hi]
  obtain ⟨z, pz, hz⟩ := ho.other (L[L.length / 2])
  have hm := List.getElem_mem hi
  exact RightOrOverflow.pure ⟨branch_eq_ne hv (hL.2.2.2 _ hm) ((hL.2.2.1 _).1 hm) pz hz, L, _, hL.1, List.getElem?_eq_getElem hi, rfl⟩

/-- C33: `random`, for every shuffle. -/
theorem randomOrder_branches (hd : DomsOK d) (hv : v.Valid d.length) (ho : Open d v) (perm : List Int → List Int) (hp : ∀ l, (perm l).Perm l) :
    RightOrOverflow (randomOrder perm d v) (fun bs => BranchOK d.length d bs ∧ ∃ L : List Int, bs = L.map (Cond.eq v) ∧ L.Nodup ∧ ∀ y, y ∈ L ↔ Poss d v y) := by
  unfold randomOrder
  refine (values_roo hd hv).bind fun L hL => RightOrOverflow.pure ?_
  have nd := (hp L).nodup_iff.2 hL.2.1
  have hm : ∀ y, y ∈ perm L ↔ Poss d v y := fun y => (hp L).mem_iff.trans (hL.2.2.1 y)
  exact ⟨branch_each hv ho nd hm fun y hy => hL.2.2.2 y ((hp L).mem_iff.1 hy), perm L, rfl, nd, hm⟩

/-- C33: `random_out`, for every random number. -/
theorem randomOut_branches (hd : DomsOK d) (hv : v.Valid d.length) (ho : Open d v) (pick : Nat) :
    RightOrOverflow (randomOut pick d v) (fun bs => BranchOK d.length d bs ∧ ∃ y, Poss d v y ∧ bs = [.ne v y, .eq v y]) := by
  unfold randomOut
  refine (values_roo hd hv).bind fun L hL => ?_
  have hlen := open_length ho hL.2.1 hL.2.2.1
  have hi : pick % L.length < L.length := Nat.mod_lt _ (by omega)
  rw [List.getElem?_eq_getElem hi]
  obtain ⟨z, pz, hz⟩ := ho.other (L[pick % L.length])
  have hm := List.getElem_mem hi
  exact RightOrOverflow.pure ⟨(branch_eq_ne hv (hL.2.2.2 _ hm) ((hL.2.2.1 _).1 hm) pz hz).swap, _, (hL.2.2.1 _).1 hm, rfl⟩

/-- Every value can be the one `random_out` rejects. -/
theorem randomOut_any (hd : DomsOK d) (hv : v.Valid d.length) {y : Int} (hy : Poss d v y) :
    ∃ pick, RightOrOverflow (randomOut pick d v) (fun bs => bs = [.ne v y, .eq v y]) := by
  rcases values_roo hd hv with h | ⟨L, h, hL⟩
  · refine ⟨0, .inl ?_⟩
    unfold randomOut
    rw [h]; rfl
  · obtain ⟨k, hk, e⟩ := List.mem_iff_getElem.1 ((hL.2.2.1 y).2 hy)
    refine ⟨k, .inr ⟨[.ne v y, .eq v y], ?_, rfl⟩⟩
    unfold randomOut
    rw [h]
    simp only [bind, Except.bind]
    rw [Nat.mod_eq_of_lt hk, List.getElem?_eq_getElem hk, e]
    rfl

theorem range_branches (i : Nat) {lo hi x z : Int} (hi' : i < d.length) (h1 : InI64 lo) (h2 : InI64 hi) (h : lo ≤ hi)
    (px : Poss d (.simple i) x) (hx : lo ≤ x ∧ x ≤ hi) (pz : Poss d (.simple i) z) (hz : ¬ (lo ≤ z ∧ z ≤ hi)) :
    ∃ b c, Cond.notInRange (.simple i) lo hi = .ok b ∧ Cond.inRange (.simple i) lo hi = .ok c ∧ BranchOK d.length d [b, c] ∧
      (∀ a, c.holds a ↔ lo ≤ a i ∧ a i ≤ hi) := by
  unfold Cond.notInRange Cond.inRange
  rw [if_neg (by omega : ¬ lo > hi), if_neg (by omega : ¬ lo > hi)]
  by_cases e : lo = hi
  · rw [if_pos e, if_pos e]
    refine ⟨_, _, rfl, rfl, ?_, ?_⟩
    · refine (branch_eq_ne (v := .simple i) (y := lo) (z := z) hi' h1 ?_ pz ?_).swap
      · have : x = lo := by omega
        exact this ▸ px
      · omega
    · intro a; show a i = lo ↔ _; omega
  · rw [if_neg e, if_neg e]
    refine ⟨_, _, rfl, rfl, ?_, fun a => Iff.rfl⟩
    refine branch_two ⟨⟨hi', h1, h2⟩, fun _ => h⟩ ⟨⟨hi', h1, h2⟩, fun _ => h⟩ ?_ ?_ ?_
    · obtain ⟨a, ha, k⟩ := pz
      exact ⟨a, ha, show ¬ (lo ≤ VarId.eval a (.simple i) ∧ VarId.eval a (.simple i) ≤ hi) from k ▸ hz⟩
    · obtain ⟨a, ha, k⟩ := px
      exact ⟨a, ha, show lo ≤ VarId.eval a (.simple i) ∧ VarId.eval a (.simple i) ≤ hi from k ▸ hx⟩
    · intro a; exact Iff.rfl

/-- C33: `reject_random_interval`, for all random numbers: a partition; if the variable is not a view and has at least three values, the second branch is an interval that includes neither the smallest nor the largest. -/
theorem rejectInterval_branches (hd : DomsOK d) (hv : v.Valid d.length) (ho : Open d v) (pick1 pick2 : Nat) :
    RightOrOverflow (rejectInterval pick1 pick2 d v) (fun bs => BranchOK d.length d bs ∧
      ((∃ i, v = .simple i) → (∃ x y z, Poss d v x ∧ Poss d v y ∧ Poss d v z ∧ x < y ∧ y < z) →
        ∃ b c lo hi mn mx, bs = [b, c] ∧ (∀ a, c.holds a ↔ lo ≤ v.eval a ∧ v.eval a ≤ hi) ∧ IsMin (Poss d v) mn ∧ IsMax (Poss d v) mx ∧ mn < lo ∧ lo ≤ hi ∧ hi < mx)) := by
  unfold rejectInterval
  refine (values_roo hd hv).bind fun L hL => ?_
  cases v with
  | view i ng k => exact (randomOut_branches hd hv ho pick1).mono fun bs h => ⟨h.1, fun ⟨j, e⟩ => nomatch e⟩
  | const c => exact (randomOut_branches hd hv ho pick1).mono fun bs h => ⟨h.1, fun ⟨j, e⟩ => nomatch e⟩
  | simple i =>
    simp only [VarId.negated, Bool.false_eq_true, if_false] at hL
    obtain ⟨hasc, nd, hm, hI⟩ := hL
    by_cases h3 : 3 ≤ L.length
    · simp only [if_pos h3]
      have p1 := Nat.mod_lt pick1 (show 0 < L.length - 2 by omega)
      have p2 := Nat.mod_lt pick2 (show 0 < L.length - 2 by omega)
      generalize hp : 1 + pick1 % (L.length - 2) = p
      generalize hq : 1 + pick2 % (L.length - 2) = q
      have hlo : min p q < L.length := by omega
      have hhi : max p q < L.length := by omega
      rw [List.getElem?_eq_getElem hlo, List.getElem?_eq_getElem hhi]
      have mono : ∀ (a b : Nat) (ha : a < L.length) (hb : b < L.length), a < b → L[a] < L[b] := fun a b ha hb hab => List.pairwise_iff_getElem.1 hasc.1 a b ha hb hab
      have h0 : 0 < L.length := by omega
      have hl : L.length - 1 < L.length := by omega
      have le : L[min p q] ≤ L[max p q] := by
        by_cases e : min p q = max p q
        · simp only [e]; exact Int.le_refl _
        · exact Int.le_of_lt (mono _ _ hlo hhi (by omega))
      have m0 := mono 0 (min p q) h0 hlo (by omega)
      have m1 := mono (max p q) (L.length - 1) hhi hl (by omega)
      obtain ⟨b, c, e1, e2, hb, hc⟩ := range_branches (d := d) i (lo := L[min p q]) (hi := L[max p q]) (x := L[min p q]) (z := L[0]) hv (hI _ (List.getElem_mem hlo)) (hI _ (List.getElem_mem hhi)) le
        ((hm _).1 (List.getElem_mem hlo)) ⟨Int.le_refl _, le⟩ ((hm _).1 (List.getElem_mem h0)) (by omega)
      simp only [e1, e2, bind, Except.bind, pure, Except.pure]
      refine .inr ⟨_, rfl, hb, fun _ _ => ⟨b, c, _, _, L[0], L[L.length - 1], rfl, hc, ⟨(hm _).1 (List.getElem_mem h0), ?_⟩, ⟨(hm _).1 (List.getElem_mem hl), ?_⟩, m0, le, m1⟩⟩
      · intro y hy
        obtain ⟨k, hk, e⟩ := List.mem_iff_getElem.1 ((hm y).2 hy)
        by_cases k0 : k = 0
        · subst k0; omega
        · have := mono 0 k h0 hk (by omega); omega
      · intro y hy
        obtain ⟨k, hk, e⟩ := List.mem_iff_getElem.1 ((hm y).2 hy)
        by_cases k0 : k = L.length - 1
        · subst k0; omega
        · have := mono k (L.length - 1) hk hl (by omega); omega
    · simp only [if_neg h3]
      refine (randomOut_branches hd hv ho pick1).mono fun bs h => ⟨h.1, fun _ ⟨x, y, z, hx, hy, hz, h1, h2⟩ => absurd ?_ h3⟩
      have : [x, y, z].length ≤ L.length := by
        refine List.Nodup.length_le_of_subset (by simp; omega) ?_
        intro w hw
        simp only [List.mem_cons, List.not_mem_nil, or_false] at hw
        rcases hw with rfl | rfl | rfl
        · exact (hm _).2 hx
        · exact (hm _).2 hy
        · exact (hm _).2 hz
      exact this

theorem div_two_roo {k : Int} (h : InI64 k) (hk : 0 ≤ k) : RightOrOverflow (iDiv k 2) (fun r => r = k / 2 ∧ InI64 r) := by
  rw [iDiv_exact k 2 h (by decide), if_neg (by decide), Int.tdiv_eq_ediv_of_nonneg hk]
  exact exact_roo _

/-- The value at which the domain is split: the last of the first half of the values in the order of the underlying variable. -/
theorem splitPoint_spec (hd : DomsOK d) (hv : v.Valid d.length) (ho : Open d v) : RightOrOverflow (splitPoint d v) (fun y => InI64 y ∧ ∃ L,
    (if v.negated then ListsDescending (Poss d v) L else ListsAscending (Poss d v) L) ∧ 2 ≤ L.length ∧ L[L.length / 2 - 1]? = some y) := by
  unfold splitPoint
  refine (size_roo hd hv).bind fun k hk => ?_
  have h2 := hk.2.2.1.2 ho
  refine (div_two_roo hk.1 (by omega)).bind fun m hm => ?_
  refine (sub_roo hm.2 (by decide)).bind fun j hj => ?_
  obtain ⟨g, L, h, hL, hpre, hall, herr, -⟩ := eachValue_spec hd hv
  have hi := each_inI64 hd hv h
  have hmem : L.Nodup ∧ ∀ y, y ∈ L ↔ Poss d v y := by
    cases hn : v.negated
    · rw [hn] at hL; exact ⟨ListsAscending.nodup hL, hL.2⟩
    · rw [hn] at hL; exact ⟨ListsDescending.nodup hL, hL.2⟩
  have hkl := hk.2.2.2 L hmem.1 hmem.2
  have hjn : j.toNat = L.length / 2 - 1 := by omega
  rw [h]
  show RightOrOverflow (match g.1[j.toNat]? with | some v => pure v | none => _) _
  rw [hjn]
  cases e : g.1[L.length / 2 - 1]? with
  | some y =>
    refine .inr ⟨y, rfl, hi y (List.mem_of_getElem? e), L, hL, by omega, ?_⟩
    obtain ⟨t, ht⟩ := hpre
    have hlt := (List.getElem?_eq_some_iff.1 e).1
    have h1 := List.getElem?_append_left (l₂ := t) hlt
    rw [ht] at h1
    exact h1.trans e
  | none =>
    cases e' : g.2 with
    | some k => rw [herr k e']; exact .inl rfl
    | none =>
      have := hall e'
      rw [this] at e
      have := List.getElem?_eq_none_iff.1 e
      omega

/-- At least four values. -/
def FourValues (d : Doms) (v : VarId) : Prop := ∃ L : List Int, L.Nodup ∧ (∀ y ∈ L, Poss d v y) ∧ 4 ≤ L.length

theorem split_sides (hd : DomsOK d) (hv : v.Valid d.length) (ho : Open d v) (h4 : v.negated = true → FourValues d v) {y : Int} {L : List Int}
    (hL : if v.negated then ListsDescending (Poss d v) L else ListsAscending (Poss d v) L) (h2 : 2 ≤ L.length) (hy : L[L.length / 2 - 1]? = some y) :
    Poss d v y ∧ ∃ z, Poss d v z ∧ y < z := by
  obtain ⟨hk, rfl⟩ := List.getElem?_eq_some_iff.1 hy
  cases hn : v.negated
  · rw [hn] at hL
    have hL : ListsAscending (Poss d v) L := hL
    have hk' : L.length / 2 - 1 + 1 < L.length := by omega
    exact ⟨(hL.2 _).1 (List.getElem_mem hk), _, (hL.2 _).1 (List.getElem_mem hk'), List.pairwise_iff_getElem.1 hL.1 _ _ hk hk' (by omega)⟩
  · rw [hn] at hL
    have hL : ListsDescending (Poss d v) L := hL
    obtain ⟨M, nd, hM, hlen⟩ := h4 hn
    have := nd.length_le_of_subset fun x hx => (hL.2 x).2 (hM x hx)
    have h0 : 0 < L.length := by omega
    exact ⟨(hL.2 _).1 (List.getElem_mem hk), _, (hL.2 _).1 (List.getElem_mem h0), List.pairwise_iff_getElem.1 hL.1 0 _ h0 hk (by omega)⟩

/-- C33 (part): `split_smallest_first`. Missing: negated views with two or three values, for which it is false (`split_empty_branch`). For variables that are not negated views the lower branch has half the values, rounded down. -/
theorem splitSmallestFirst_branches_partial (hd : DomsOK d) (hv : v.Valid d.length) (ho : Open d v) (h4 : v.negated = true → FourValues d v) :
    RightOrOverflow (splitSmallestFirst d v) (fun bs => BranchOK d.length d bs ∧ ∃ L y b c,
      (if v.negated then ListsDescending (Poss d v) L else ListsAscending (Poss d v) L) ∧ L[L.length / 2 - 1]? = some y ∧ bs = [b, c] ∧
      (∀ a, b.holds a ↔ v.eval a ≤ y) ∧ ∀ a, c.holds a ↔ y < v.eval a) := by
  unfold splitSmallestFirst Cond.le Cond.gt
  refine (splitPoint_spec hd hv ho).bind fun y ⟨hi, L, hL, h2, hy⟩ => ?_
  refine RightOrOverflow.bind (R := fun b => b = ⟨v, .less, y + 1, 0⟩ ∧ InI64 (y + 1)) ?_ fun b hb => ?_
  · exact (add_roo hi (by decide)).bind fun r hr => RightOrOverflow.pure ⟨by rw [hr.1], hr.1 ▸ hr.2⟩
  refine RightOrOverflow.bind (R := fun c => c = ⟨v, .greaterEqual, y + 1, 0⟩) ?_ fun c hc => ?_
  · exact (add_roo hi (by decide)).bind fun r hr => RightOrOverflow.pure (by rw [hr.1])
  obtain ⟨py, z, pz, hz⟩ := split_sides hd hv ho h4 hL h2 hy
  refine RightOrOverflow.pure ⟨hb.1 ▸ hc ▸ branch_le_gt hv hb.2 py (Int.le_refl _) pz hz, L, y, b, c, hL, hy, rfl, ?_, ?_⟩
  · rw [hb.1]; intro a; show v.eval a < y + 1 ↔ _; omega
  · rw [hc]; intro a; show v.eval a ≥ y + 1 ↔ _; omega

/-- C33 (part): `split_largest_first`, as `split_smallest_first` with the branches the other way round. -/
theorem splitLargestFirst_branches_partial (hd : DomsOK d) (hv : v.Valid d.length) (ho : Open d v) (h4 : v.negated = true → FourValues d v) :
    RightOrOverflow (splitLargestFirst d v) (fun bs => BranchOK d.length d bs ∧ ∃ L y b c,
      (if v.negated then ListsDescending (Poss d v) L else ListsAscending (Poss d v) L) ∧ L[L.length / 2 - 1]? = some y ∧ bs = [c, b] ∧
      (∀ a, b.holds a ↔ v.eval a ≤ y) ∧ ∀ a, c.holds a ↔ y < v.eval a) := by
  unfold splitLargestFirst Cond.le Cond.gt
  refine (splitPoint_spec hd hv ho).bind fun y ⟨hi, L, hL, h2, hy⟩ => ?_
  refine RightOrOverflow.bind (R := fun c => c = ⟨v, .greaterEqual, y + 1, 0⟩ ∧ InI64 (y + 1)) ?_ fun c hc => ?_
  · exact (add_roo hi (by decide)).bind fun r hr => RightOrOverflow.pure ⟨by rw [hr.1], hr.1 ▸ hr.2⟩
  refine RightOrOverflow.bind (R := fun b => b = ⟨v, .less, y + 1, 0⟩) ?_ fun b hb => ?_
  · exact (add_roo hi (by decide)).bind fun r hr => RightOrOverflow.pure (by rw [hr.1])
  obtain ⟨py, z, pz, hz⟩ := split_sides hd hv ho h4 hL h2 hy
  refine RightOrOverflow.pure ⟨hc.1 ▸ hb ▸ (branch_le_gt hv hc.2 py (Int.le_refl _) pz hz).swap, L, y, b, c, hL, hy, rfl, ?_, ?_⟩
  · rw [hb]; intro a; show v.eval a < y + 1 ↔ _; omega
  · rw [hc.1]; intro a; show v.eval a ≥ y + 1 ↔ _; omega

/-- C33 (part): `split_random`, for either random choice. -/
theorem splitRandom_branches_partial (hd : DomsOK d) (hv : v.Valid d.length) (ho : Open d v) (h4 : v.negated = true → FourValues d v) (pick : Nat) :
    RightOrOverflow (splitRandom pick d v) (fun bs => BranchOK d.length d bs ∧ bs.length = 2) := by
  unfold splitRandom
  split
  · exact (splitSmallestFirst_branches_partial hd hv ho h4).mono fun bs ⟨h, _, _, _, _, _, _, e, _⟩ => ⟨h, by rw [e]; rfl⟩
  · exact (splitLargestFirst_branches_partial hd hv ho h4).mono fun bs ⟨h, _, _, _, _, _, _, e, _⟩ => ⟨h, by rw [e]; rfl⟩

/-! ## Variable orders -/

/-- C34: `random`: a listed variable with at least two values, or none if there is none; for every random number. -/
theorem randomVar_picks (hd : DomsOK d) {vars : List VarId} (hv : ∀ v ∈ vars, v.Valid d.length) (pick : Nat) :
    RightOrOverflow (randomVar pick vars d) (Picked d vars) := by
  have key : ∀ vars : List VarId, (∀ v ∈ vars, v.Valid d.length) → RightOrOverflow (openVars d vars) (fun f => ∀ v, v ∈ f ↔ v ∈ vars ∧ Open d v) := by
    intro vars
    induction vars with
    | nil => intro _; exact .inr ⟨[], rfl, by simp⟩
    | cons x xs ih =>
      intro hv
      unfold openVars
      refine (size_roo hd (hv x (by simp))).bind fun k hk => ?_
      refine (ih fun v h => hv v (by simp [h])).bind fun f hf => RightOrOverflow.pure ?_
      intro v
      split
      · rename_i h
        have := hk.2.2.1.1 (by omega)
        simp only [List.mem_cons, hf]
        constructor
        · rintro (rfl | h)
          · exact ⟨.inl rfl, this⟩
          · exact ⟨.inr h.1, h.2⟩
        · rintro ⟨rfl | h, o⟩
          · exact .inl rfl
          · exact .inr ⟨h, o⟩
      · rename_i h
        simp only [List.mem_cons, hf]
        constructor
        · exact fun h => ⟨.inr h.1, h.2⟩
        · rintro ⟨rfl | h', o⟩
          · exact absurd (hk.2.2.1.2 o) h
          · exact ⟨h', o⟩
  unfold randomVar
  refine (key vars hv).bind fun f hf => RightOrOverflow.pure ?_
  cases f with
  | nil => intro v hm ho; exact absurd ((hf v).2 ⟨hm, ho⟩) (by simp)
  | cons x xs =>
    have hi : pick % (x :: xs).length < (x :: xs).length := Nat.mod_lt _ (by simp)
    rw [List.getElem?_eq_getElem hi]
    exact (hf _).1 (List.getElem_mem hi)

/-- C34: `in_order_of` with any comparison that behaves like a weak order on the variables with at least two values: the first of the best. -/
theorem inOrderOf_chooses (hd : DomsOK d) {vars : List VarId} (hv : ∀ v ∈ vars, v.Valid d.length) {lt : VarId → VarId → Prop}
    {comp : Doms → VarId → VarId → Chk Bool} (hw : WeakOrder (fun v => v ∈ vars ∧ Open d v) lt)
    (hc : ∀ a ∈ vars, ∀ b ∈ vars, Open d a → Open d b → RightOrOverflow (comp d a b) (fun r => r = true ↔ lt a b)) :
    RightOrOverflow (inOrderOf comp vars d) (Chosen d vars lt) := by
  have key : ∀ (rest done : List VarId) (r : Option VarId), done ++ rest = vars → Chosen d done lt r →
      RightOrOverflow (inOrderOfLoop (comp d) d rest r) (Chosen d vars lt) := by
    intro rest
    induction rest with
    | nil => intro done r e h; rw [List.append_nil] at e; exact .inr ⟨r, rfl, e ▸ h⟩
    | cons x xs ih =>
      intro done r e h
      have hx : x ∈ vars := by rw [← e]; simp
      have e' : (done ++ [x]) ++ xs = vars := by rw [← e]; simp
      unfold inOrderOfLoop
      refine (size_roo hd (hv x hx)).bind fun k hk => ?_
      split
      · rename_i h2
        have hno : ¬ Open d x := fun o => by have := hk.2.2.1.2 o; omega
        refine ih (done ++ [x]) r e' ?_
        cases r with
        | none =>
          intro v hm
          rcases List.mem_append.1 hm with hm | hm
          · exact h v hm
          · rw [List.mem_singleton.1 hm]; exact hno
        | some y =>
          obtain ⟨pre, post, e1, o, h1, h3⟩ := h
          refine ⟨pre, post ++ [x], by rw [e1]; simp, o, h1, fun v hm ho => ?_⟩
          rcases List.mem_append.1 hm with hm | hm
          · exact h3 v hm ho
          · rw [List.mem_singleton.1 hm] at ho; exact absurd ho hno
      · rename_i h2
        have hox : Open d x := hk.2.2.1.1 (by omega)
        cases r with
        | none =>
          refine ih (done ++ [x]) (some x) e' ⟨done, [], rfl, hox, fun v hm ho => absurd ho (h v hm), by simp⟩
        | some y =>
          obtain ⟨pre, post, e1, o, h1, h3⟩ := h
          have hin : ∀ v ∈ pre ++ y :: post, v ∈ vars := fun v hm => by rw [← e, e1]; exact List.mem_append.2 (.inl hm)
          have hy : y ∈ vars := hin y (by simp)
          refine (hc x hx y hy hox o).bind fun b hb => ?_
          cases b with
          | true =>
            have hlt := hb.1 rfl
            refine ih (done ++ [x]) (some x) e' ⟨done, [], rfl, hox, fun v hm ho => ?_, by simp⟩
            rw [e1] at hm
            have hvv := hin v hm
            rcases List.mem_append.1 hm with hm | hm
            · have hyv := h1 v hm ho
              rcases hw.split x v y ⟨hx, hox⟩ ⟨hvv, ho⟩ ⟨hy, o⟩ hlt with k | k
              · exact k
              · exact absurd k (hw.asymm _ _ ⟨hy, o⟩ ⟨hvv, ho⟩ hyv)
            · rcases List.mem_cons.1 hm with rfl | hm
              · exact hlt
              · rcases hw.split x v y ⟨hx, hox⟩ ⟨hvv, ho⟩ ⟨hy, o⟩ hlt with k | k
                · exact k
                · exact absurd k (h3 v hm ho)
          | false =>
            have hnl : ¬ lt x y := fun k => by have := hb.2 k; cases this
            refine ih (done ++ [x]) (some y) e' ⟨pre, post ++ [x], by rw [e1]; simp, o, h1, fun v hm ho => ?_⟩
            rcases List.mem_append.1 hm with hm | hm
            · exact h3 v hm ho
            · rw [List.mem_singleton.1 hm]; exact hnl
  exact key vars [] none rfl (by simp [Chosen])

/-- C34: `in_order`: the first with at least two values. -/
theorem inOrder_chooses (hd : DomsOK d) : ∀ {vars : List VarId}, (∀ v ∈ vars, v.Valid d.length) →
    RightOrOverflow (inOrder vars d) (fun r => match r with
      | none => ∀ v ∈ vars, ¬ Open d v
      | some x => ∃ pre post, vars = pre ++ x :: post ∧ Open d x ∧ ∀ v ∈ pre, ¬ Open d v)
  | [], _ => .inr ⟨none, rfl, by simp⟩
  | x :: xs, hv => by
    unfold inOrder
    refine (size_roo hd (hv x (by simp))).bind fun k hk => ?_
    split
    · rename_i h2
      have hno : ¬ Open d x := fun o => by have := hk.2.2.1.2 o; omega
      refine (inOrder_chooses hd fun v h => hv v (by simp [h])).mono fun r hr => ?_
      cases r with
      | none =>
        intro v hm
        rcases List.mem_cons.1 hm with rfl | hm
        · exact hno
        · exact hr v hm
      | some y =>
        obtain ⟨pre, post, e, o, h⟩ := hr
        refine ⟨x :: pre, post, by rw [e]; rfl, o, fun v hm => ?_⟩
        rcases List.mem_cons.1 hm with rfl | hm
        · exact hno
        · exact h v hm
    · rename_i h2
      exact RightOrOverflow.pure ⟨[], xs, rfl, hk.2.2.1.1 (by omega), by simp⟩

/-- The number of possible values of `v` is `k`. -/
def Count (d : Doms) (v : VarId) (k : Nat) : Prop := ∃ A : List Int, A.Nodup ∧ (∀ y, y ∈ A ↔ Poss d v y) ∧ A.length = k

theorem count_exists (hd : DomsOK d) (hv : v.Valid d.length) : ∃ k, Count d v k := by
  obtain ⟨L, nd, hL, -⟩ := domainSize_spec hd hv
  exact ⟨_, L, nd, hL, rfl⟩

theorem count_unique {j k : Nat} (h : Count d v j) (h' : Count d v k) : j = k := by
  obtain ⟨A, na, ha, rfl⟩ := h
  obtain ⟨B, nb, hb, rfl⟩ := h'
  have h1 := na.length_le_of_subset (fun x hx => (hb x).2 ((ha x).1 hx))
  have h2 := nb.length_le_of_subset (fun x hx => (ha x).2 ((hb x).1 hx))
  omega

theorem size_count (hd : DomsOK d) (hv : v.Valid d.length) : RightOrOverflow (domainSize d v) (fun k => ∃ j, Count d v j ∧ k = (j : Int)) :=
  (size_roo hd hv).mono fun k hk => by
    obtain ⟨L, nd, hL, -⟩ := domainSize_spec hd hv
    exact ⟨_, ⟨L, nd, hL, rfl⟩, hk.2.2.2 L nd hL⟩

/-- C34: `dom`: fewest values. -/
theorem dom_chooses (hd : DomsOK d) {vars : List VarId} (hv : ∀ v ∈ vars, v.Valid d.length) :
    RightOrOverflow (dom vars d) (Chosen d vars fun a b => ∃ j k, Count d a j ∧ Count d b k ∧ j < k) := by
  refine inOrderOf_chooses hd hv ⟨?_, ?_⟩ ?_
  · rintro a b - - ⟨j, k, hj, hk, h⟩ ⟨k', j', hk', hj', h'⟩
    have := count_unique hj hj'; have := count_unique hk hk'; omega
  · rintro a b c ha hb hc ⟨j, k, hj, hk, h⟩
    obtain ⟨i, hi⟩ := count_exists hd (hv b hb.1)
    by_cases hji : j < i
    · exact .inl ⟨j, i, hj, hi, hji⟩
    · exact .inr ⟨i, k, hi, hk, by omega⟩
  · intro a ha b hb _ _
    unfold domComp
    refine (size_count hd (hv a ha)).bind fun x ⟨j, hj, ex⟩ => (size_count hd (hv b hb)).bind fun y ⟨k, hk, ey⟩ => RightOrOverflow.pure ?_
    rw [decide_eq_true_iff]
    constructor
    · intro h; exact ⟨j, k, hj, hk, by omega⟩
    · rintro ⟨j', k', hj', hk', h⟩
      have := count_unique hj hj'; have := count_unique hk hk'; omega

/-- C34: `dom_then_deg`: fewest values, then highest degree. -/
theorem domThenDeg_chooses (hd : DomsOK d) {vars : List VarId} (hv : ∀ v ∈ vars, v.Valid d.length) (deg : VarId → Int) :
    RightOrOverflow (domThenDeg deg vars d) (Chosen d vars fun a b => ∃ j k, Count d a j ∧ Count d b k ∧ (j < k ∨ j = k ∧ deg a > deg b)) := by
  refine inOrderOf_chooses hd hv ⟨?_, ?_⟩ ?_
  · rintro a b - - ⟨j, k, hj, hk, h⟩ ⟨k', j', hk', hj', h'⟩
    have := count_unique hj hj'; have := count_unique hk hk'; omega
  · rintro a b c ha hb hc ⟨j, k, hj, hk, h⟩
    obtain ⟨i, hi⟩ := count_exists hd (hv b hb.1)
    by_cases hji : j < i ∨ j = i ∧ deg a > deg b
    · exact .inl ⟨j, i, hj, hi, hji⟩
    · exact .inr ⟨i, k, hi, hk, by omega⟩
  · intro a ha b hb _ _
    unfold domDegComp
    refine (size_count hd (hv a ha)).bind fun x ⟨j, hj, ex⟩ => (size_count hd (hv b hb)).bind fun y ⟨k, hk, ey⟩ => RightOrOverflow.pure ?_
    rw [decide_eq_true_iff]
    constructor
    · intro h; exact ⟨j, k, hj, hk, by omega⟩
    · rintro ⟨j', k', hj', hk', h⟩
      have := count_unique hj hj'; have := count_unique hk hk'; omega

/-- C34: `with_smallest_value`: smallest lower bound. -/
theorem withSmallestValue_chooses (hd : DomsOK d) {vars : List VarId} (hv : ∀ v ∈ vars, v.Valid d.length) :
    RightOrOverflow (withSmallestValue vars d) (Chosen d vars fun a b => ∃ j k, IsMin (Poss d a) j ∧ IsMin (Poss d b) k ∧ j < k) := by
  have uniq : ∀ {P : Int → Prop} {j k : Int}, IsMin P j → IsMin P k → j = k := fun h h' => by have := h.2 _ h'.1; have := h'.2 _ h.1; omega
  have ex : ∀ v ∈ vars, ∃ y, IsMin (Poss d v) y := fun v hm => by
    have ok := rawOf_ok hd (hv v hm)
    obtain ⟨l, u, b⟩ := exists_bnd ok.wf ok.nonempty
    exact ⟨_, view_min hd (hv v hm) b⟩
  refine inOrderOf_chooses hd hv ⟨?_, ?_⟩ ?_
  · rintro a b - - ⟨j, k, hj, hk, h⟩ ⟨k', j', hk', hj', h'⟩
    have := uniq hj hj'; have := uniq hk hk'; omega
  · rintro a b c ha hb hc ⟨j, k, hj, hk, h⟩
    obtain ⟨i, hi⟩ := ex b hb.1
    by_cases hji : j < i
    · exact .inl ⟨j, i, hj, hi, hji⟩
    · exact .inr ⟨i, k, hi, hk, by omega⟩
  · intro a ha b hb _ _
    unfold smallestComp
    refine (lower_roo hd (hv a ha)).bind fun x hx => (lower_roo hd (hv b hb)).bind fun y hy => RightOrOverflow.pure ?_
    rw [decide_eq_true_iff]
    constructor
    · intro h; exact ⟨x, y, hx.2, hy.2, h⟩
    · rintro ⟨j', k', hj', hk', h⟩
      have := uniq hx.2 hj'; have := uniq hy.2 hk'; omega

theorem ratio_trans {a b c wa wb wc : Rat} (ha : 0 < a) (hb : 0 ≤ b) (hc : 0 ≤ c) (h1 : b * wa ≤ a * wb) (h2 : a * wc ≤ c * wa) : b * wc ≤ c * wb := by
  refine Rat.le_of_mul_le_mul_left (c := a) ?_ ha
  have e1 := Rat.mul_le_mul_of_nonneg_left h2 hb
  have e2 := Rat.mul_le_mul_of_nonneg_left h1 hc
  have x1 : a * (b * wc) = b * (a * wc) := by grind
  have x2 : b * (c * wa) = c * (b * wa) := by grind
  have x3 : c * (a * wb) = a * (c * wb) := by grind
  rw [x1]
  rw [x2] at e1
  rw [x3] at e2
  exact Rat.le_trans e1 e2

/-- C34: `dom_wdeg`: smallest number of values divided by weighted degree (infinite if the weighted degree is 0), then highest degree. -/
theorem domWdeg_chooses (hd : DomsOK d) {vars : List VarId} (hv : ∀ v ∈ vars, v.Valid d.length) (w : VarId → Rat) (deg : VarId → Int) :
    RightOrOverflow (domWdeg w deg vars d)
      (Chosen d vars fun a b => ∃ j k : Nat, Count d a j ∧ Count d b k ∧ ((j : Rat) * w b < (k : Rat) * w a ∨ (j : Rat) * w b = (k : Rat) * w a ∧ deg a > deg b)) := by
  have nn : ∀ i : Nat, (0 : Rat) ≤ (i : Rat) := fun i => Rat.natCast_nonneg
  refine inOrderOf_chooses hd hv ⟨?_, ?_⟩ ?_
  · rintro a b - - ⟨j, k, hj, hk, h⟩ ⟨k', j', hk', hj', h'⟩
    cases count_unique hj hj'; cases count_unique hk hk'
    grind
  · rintro a b c ha hb hc ⟨j, k, hj, hk, h⟩
    obtain ⟨i, hi⟩ := count_exists hd (hv b hb.1)
    have pos : ∀ {v} {i : Nat}, Open d v → Count d v i → (0 : Rat) < (i : Rat) := by
      rintro v i ho ⟨A, nd, hA, rfl⟩
      have := open_length ho nd hA
      exact Rat.natCast_pos.2 (by omega)
    have pi := pos hb.2 hi
    have pj := pos ha.2 hj
    have pk := pos hc.2 hk
    by_cases hji : (j : Rat) * w b < (i : Rat) * w a ∨ (j : Rat) * w b = (i : Rat) * w a ∧ deg a > deg b
    · exact .inl ⟨j, i, hj, hi, hji⟩
    · refine .inr ⟨i, k, hi, hk, ?_⟩
      have ac : (j : Rat) * w c ≤ (k : Rat) * w a := by grind
      have ba : (i : Rat) * w a ≤ (j : Rat) * w b := by grind
      have bc := ratio_trans pj (nn i) (nn k) ba ac
      by_cases hs : (i : Rat) * w c < (k : Rat) * w b
      · exact .inl hs
      · have cb : (k : Rat) * w b ≤ (i : Rat) * w c := by grind
        have ca := ratio_trans pi (nn k) (nn j) cb ba
        have ab := ratio_trans pk (nn j) (nn i) ac cb
        exact .inr ⟨by grind, by grind⟩
  · intro a ha b hb _ _
    unfold wdegComp
    refine (size_count hd (hv a ha)).bind fun x ⟨j, hj, ex⟩ => (size_count hd (hv b hb)).bind fun y ⟨k, hk, ey⟩ => ?_
    subst ex ey
    have key : (if (((j : Int) : Rat) * w b ≠ ((k : Int) : Rat) * w a) then decide (((j : Int) : Rat) * w b < ((k : Int) : Rat) * w a) else decide (deg a > deg b)) = true ↔
        ((j : Rat) * w b < (k : Rat) * w a ∨ (j : Rat) * w b = (k : Rat) * w a ∧ deg a > deg b) := by
      rw [Rat.intCast_natCast, Rat.intCast_natCast]
      split
      · rw [decide_eq_true_iff]; grind
      · rw [decide_eq_true_iff]; grind
    refine RightOrOverflow.pure (key.trans ⟨fun h => ⟨j, k, hj, hk, h⟩, ?_⟩)
    rintro ⟨j', k', hj', hk', h⟩
    cases count_unique hj hj'; cases count_unique hk hk'; exact h

/-- What is chosen is picked. -/
theorem Chosen.picked {vars : List VarId} {lt : VarId → VarId → Prop} {r : Option VarId} (h : Chosen d vars lt r) : Picked d vars r := by
  cases r with
  | none => exact h
  | some x =>
    obtain ⟨pre, post, e, o, -⟩ := h
    exact ⟨by rw [e]; simp, o⟩

theorem inOrder_picks (hd : DomsOK d) {vars : List VarId} (hv : ∀ v ∈ vars, v.Valid d.length) : RightOrOverflow (inOrder vars d) (Picked d vars) :=
  (inOrder_chooses hd hv).mono fun r hr => by
    cases r with
    | none => exact hr
    | some x =>
      obtain ⟨pre, post, e, o, -⟩ := hr
      exact ⟨by rw [e]; simp, o⟩

/-! ## Value orders only talk about the variable they are given -/

theorem guesses_bind {α : Type} {v : VarId} {x : Chk α} {f : α → Chk (List Cond)} (h : ∀ a bs, f a = .ok bs → ∀ b ∈ bs, b.var = v) (bs : List Cond) (e : (x >>= f) = .ok bs) :
    ∀ b ∈ bs, b.var = v := by
  cases x with
  | error e' => cases e
  | ok a => exact h a bs e

theorem guesses_two {v : VarId} {b c : Cond} (hb : b.var = v) (hc : c.var = v) (bs : List Cond) (e : (pure [b, c] : Chk (List Cond)) = .ok bs) : ∀ b ∈ bs, b.var = v := by
  cases e
  simp [hb, hc]

theorem guesses_map {v : VarId} (xs : List Int) (bs : List Cond) (e : (pure (xs.map (Cond.eq v)) : Chk (List Cond)) = .ok bs) : ∀ b ∈ bs, b.var = v := by
  cases e
  intro b hb
  obtain ⟨x, _, rfl⟩ := List.mem_map.1 hb
  rfl

theorem smallestIn_guesses : Guesses smallestIn d := fun _ => guesses_bind fun _ => guesses_two rfl rfl
theorem smallestOut_guesses : Guesses smallestOut d := fun _ => guesses_bind fun _ => guesses_two rfl rfl
theorem largestIn_guesses : Guesses largestIn d := fun _ => guesses_bind fun _ => guesses_two rfl rfl
theorem largestOut_guesses : Guesses largestOut d := fun _ => guesses_bind fun _ => guesses_two rfl rfl
theorem smallestFirst_guesses : Guesses smallestFirst d := fun _ => guesses_bind guesses_map
theorem largestFirst_guesses : Guesses largestFirst d := fun _ => guesses_bind fun _ => guesses_bind guesses_map
theorem randomOrder_guesses (perm : List Int → List Int) : Guesses (randomOrder perm) d := fun _ => guesses_bind fun _ => guesses_map _

theorem median_guesses : Guesses median d := fun v => guesses_bind fun vs bs e => by
  split at e
  · exact guesses_two (b := Cond.eq v _) (c := Cond.ne v _) rfl rfl bs e
  · cases e

theorem randomOut_guesses (pick : Nat) : Guesses (randomOut pick) d := fun v => guesses_bind fun vs bs e => by
  split at e
  · exact guesses_two (b := Cond.ne v _) (c := Cond.eq v _) rfl rfl bs e
  · cases e

theorem le_gt_var {v : VarId} {y : Int} {c : Cond} (h : Cond.le v y = .ok c ∨ Cond.gt v y = .ok c) : c.var = v := by
  unfold Cond.le Cond.gt at h
  rcases h with h | h <;> (cases e : iAdd y 1 with
    | error => simp [e, bind, Except.bind] at h
    | ok z => simp [e, bind, Except.bind, pure, Except.pure] at h; rw [← h])

theorem splitSmallestFirst_guesses : Guesses splitSmallestFirst d := fun v => guesses_bind fun y bs e => by
  cases h1 : Cond.le v y with
  | error => simp [h1, bind, Except.bind] at e
  | ok b =>
    cases h2 : Cond.gt v y with
    | error => simp [h1, h2, bind, Except.bind] at e
    | ok c =>
      simp [h1, h2, bind, Except.bind] at e
      exact guesses_two (le_gt_var (.inl h1)) (le_gt_var (.inr h2)) bs e

theorem splitLargestFirst_guesses : Guesses splitLargestFirst d := fun v => guesses_bind fun y bs e => by
  cases h2 : Cond.gt v y with
  | error => simp [h2, bind, Except.bind] at e
  | ok b =>
    cases h1 : Cond.le v y with
    | error => simp [h1, h2, bind, Except.bind] at e
    | ok c =>
      simp [h1, h2, bind, Except.bind] at e
      exact guesses_two (le_gt_var (.inr h2)) (le_gt_var (.inl h1)) bs e

theorem splitRandom_guesses (pick : Nat) : Guesses (splitRandom pick) d := by
  intro v bs e
  unfold splitRandom at e
  split at e
  · exact splitSmallestFirst_guesses v bs e
  · exact splitLargestFirst_guesses v bs e

theorem rejectInterval_guesses (pick1 pick2 : Nat) : Guesses (rejectInterval pick1 pick2) d := fun v => guesses_bind fun vs bs e => by
  cases v with
  | simple i =>
    simp only at e
    split at e
    · split at e
      · rename_i lo hi _ _
        cases h1 : Cond.notInRange (.simple i) lo hi with
        | error => simp [h1, bind, Except.bind] at e
        | ok b =>
          cases h2 : Cond.inRange (.simple i) lo hi with
          | error => simp [h1, h2, bind, Except.bind] at e
          | ok c =>
            simp [h1, h2, bind, Except.bind] at e
            refine guesses_two ?_ ?_ bs e
            · unfold Cond.notInRange at h1
              repeat' split at h1
              all_goals (cases h1; try rfl)
            · unfold Cond.inRange at h2
              repeat' split at h2
              all_goals (cases h2; try rfl)
      · cases e
    · exact randomOut_guesses pick1 _ bs e
  | view i ng k => exact randomOut_guesses pick1 _ bs e
  | const c => exact randomOut_guesses pick1 _ bs e

/-! ## Combining them -/

/-- C35: `branch_with` a right variable order and a right value order: no branches if and only if every listed variable has a single value, and otherwise a partition, by conditions on a listed variable. -/
theorem branchWith_spec (hd : DomsOK d) {vars : List VarId} {var : Doms → Chk (Option VarId)} {val : Doms → VarId → Chk (List Cond)}
    (hvar : RightOrOverflow (var d) (Picked d vars)) (hval : ∀ v ∈ vars, Open d v → RightOrOverflow (val d v) (BranchOK d.length d)) (hon : Guesses val d) :
    RightOrOverflow (branchWith var val d) (fun bs => (bs = [] ↔ ∀ v ∈ vars, ¬ Open d v) ∧ (bs ≠ [] → BranchOK d.length d bs ∧ ∃ v ∈ vars, Open d v ∧ ∀ b ∈ bs, b.var = v)) := by
  unfold branchWith
  refine hvar.bind fun r hr => ?_
  cases r with
  | none => exact RightOrOverflow.pure ⟨⟨fun _ => hr, fun _ => rfl⟩, fun h => absurd rfl h⟩
  | some v =>
    have hv : RightOrOverflow (val d v) (fun bs => BranchOK d.length d bs ∧ ∀ b ∈ bs, b.var = v) := by
      rcases hval v hr.1 hr.2 with e | ⟨bs, e, h⟩
      · exact .inl e
      · exact .inr ⟨bs, e, h, hon v bs e⟩
    refine hv.mono fun bs ⟨hb, hbv⟩ => ⟨⟨?_, fun h => absurd hr.2 (h v hr.1)⟩, fun _ => ⟨hb, v, hr.1, hr.2, hbv⟩⟩
    rintro rfl
    obtain ⟨a, ha⟩ := exists_within hd
    obtain ⟨b, hb', _⟩ := hb.covers a ha
    cases hb'

/-- C35: `branch_sequence(a, b)` gives what `a` gives if that is anything, and otherwise what `b` gives; so nothing if and only if neither gives anything. Exceptions are passed on. -/
theorem branchSequence_spec (a b : Doms → Chk (List Cond)) (d : Doms) :
    (∀ x xs, a d = .ok (x :: xs) → branchSequence a b d = .ok (x :: xs)) ∧ (a d = .ok [] → branchSequence a b d = b d) ∧
    (∀ e, a d = .error e → branchSequence a b d = .error e) ∧ (branchSequence a b d = .ok [] ↔ a d = .ok [] ∧ b d = .ok []) := by
  unfold branchSequence
  cases h : a d with
  | error e =>
    refine ⟨?_, ?_, ?_, ?_⟩
    · intro x xs h'; cases h'
    · intro h'; cases h'
    · intro e' h'; cases h'; rfl
    · constructor
      · intro h'; cases h'
      · rintro ⟨h', _⟩; cases h'
  | ok l =>
    simp only [bind, Except.bind, pure, Except.pure]
    cases l with
    | nil => simp
    | cons x xs => simp

/-- C35: sequencing keeps the partition, and offers nothing exactly when neither has an open variable. -/
theorem branchSequence_branches {a b : Doms → Chk (List Cond)} {P Q : Prop} {n : Nat}
    (ha : RightOrOverflow (a d) (fun bs => (bs = [] ↔ P) ∧ (bs ≠ [] → BranchOK n d bs))) (hb : RightOrOverflow (b d) (fun bs => (bs = [] ↔ Q) ∧ (bs ≠ [] → BranchOK n d bs))) :
    RightOrOverflow (branchSequence a b d) (fun bs => (bs = [] ↔ P ∧ Q) ∧ (bs ≠ [] → BranchOK n d bs)) := by
  unfold branchSequence
  refine ha.bind fun bs h => ?_
  split
  · rename_i e
    exact hb.mono fun cs k => ⟨⟨fun e' => ⟨h.1.1 e, k.1.1 e'⟩, fun q => k.1.2 q.2⟩, k.2⟩
  · rename_i e
    exact RightOrOverflow.pure ⟨⟨fun e' => absurd e' e, fun q => absurd (h.1.2 q.1) e⟩, h.2⟩

/-- What the search needs of a heuristic, for one made by `branch_with`. -/
theorem branchWith_clause {vars : List VarId} {B : List Nat} {var : Doms → Chk (Option VarId)} {val : Doms → VarId → Chk (List Cond)} (hd : DomsOK d)
    (hv : ∀ v ∈ vars, v.Valid d.length) (hB : ∀ i ∈ B, ∃ v ∈ vars, v.underlyingIndex = some i)
    (hvar : RightOrOverflow (var d) (Picked d vars)) (hval : ∀ v ∈ vars, Open d v → RightOrOverflow (val d v) (BranchOK d.length d)) (hon : Guesses val d) :
    branchWith var val d = .error .overflow ∨ ∃ bs, branchWith var val d = .ok bs ∧ if bs = [] then ∀ i ∈ B, Fixed d i else BranchOK d.length d bs ∧ ∃ v ∈ vars, ∀ b ∈ bs, b.var = v := by
  rcases branchWith_spec hd hvar hval hon with h | ⟨bs, h, hb⟩
  · exact .inl h
  · refine .inr ⟨bs, h, ?_⟩
    split
    · rename_i e
      intro i hi
      obtain ⟨v, hm, k⟩ := hB i hi
      exact not_open (hv v hm) (hb.1.1 e v hm) hd i k
    · rename_i e
      obtain ⟨h1, v, h2, _, h3⟩ := hb.2 e
      exact ⟨h1, v, h2, h3⟩

end

/-! ## Where the documentation is not followed, and examples -/

theorem demo_ok : DomsOK [[(0, 1)], [(1, 3), (5, 5)], [(4, 4)]] := by
  intro s hs
  simp only [List.mem_cons, List.not_mem_nil, or_false] at hs
  rcases hs with rfl | rfl | rfl
  · exact ⟨by simp [WF], by simp [InRange, InI64, i64Min, i64Max], 0, by simp [Mem]⟩
  · exact ⟨by simp [WF], by simp [InRange, InI64, i64Min, i64Max], 1, by simp [Mem]⟩
  · exact ⟨by simp [WF], by simp [InRange, InI64, i64Min, i64Max], 4, by simp [Mem]⟩

/-- The documented order of `smallest_first` is not followed on a negated view: with `x` in 0..1, branching on `-x` tries 0 first and -1 second. -/
theorem smallestFirst_not_smallest_first : smallestFirst [[(0, 1)], [(1, 3), (5, 5)], [(4, 4)]] (.view 0 true 0) = .ok [.eq (.view 0 true 0) 0, .eq (.view 0 true 0) (-1)] := by
  decide +kernel

/-- Splitting a negated view with two values: with `x` in 0..1, the branches on `-x` are `-x < 1`, which removes nothing, and `-x >= 1`, which cannot hold. -/
theorem split_empty_branch : splitSmallestFirst [[(0, 1)], [(1, 3), (5, 5)], [(4, 4)]] (.view 0 true 0) = .ok [.lt (.view 0 true 0) 1, .ge (.view 0 true 0) 1] ∧
    ¬ BranchOK 3 [[(0, 1)], [(1, 3), (5, 5)], [(4, 4)]] [.lt (.view 0 true 0) 1, .ge (.view 0 true 0) 1] := by
  refine ⟨by decide +kernel, fun h => ?_⟩
  obtain ⟨a, ha, hb⟩ := h.possible (.ge (.view 0 true 0) 1) (by simp)
  have := ha 0 _ rfl
  have hb : -(a 0) + 0 ≥ 1 := hb
  simp only [Mem, List.mem_singleton, exists_eq_left] at this
  omega

/-- An open variable, so that the theorems on value orders are about something; and their results on it. -/
example : Open [[(0, 1)], [(1, 3), (5, 5)], [(4, 4)]] (.simple 1) := by
  refine ⟨1, 5, ?_, ?_, by decide⟩
  · obtain ⟨a, ha, e⟩ := exists_within_at demo_ok (i := 1) rfl (x := 1) (by simp [Mem])
    exact ⟨a, ha, e⟩
  · obtain ⟨a, ha, e⟩ := exists_within_at demo_ok (i := 1) rfl (x := 5) (by simp [Mem])
    exact ⟨a, ha, e⟩

example : largestFirst [[(0, 1)], [(1, 3), (5, 5)], [(4, 4)]] (.simple 1) = .ok [.eq (.simple 1) 5, .eq (.simple 1) 3, .eq (.simple 1) 2, .eq (.simple 1) 1] := by decide +kernel
example : splitSmallestFirst [[(0, 1)], [(1, 3), (5, 5)], [(4, 4)]] (.simple 1) = .ok [.lt (.simple 1) 3, .ge (.simple 1) 3] := by decide +kernel
example : median [[(0, 1)], [(1, 3), (5, 5)], [(4, 4)]] (.simple 1) = .ok [.eq (.simple 1) 3, .ne (.simple 1) 3] := by decide +kernel
example : rejectInterval 0 1 [[(0, 1)], [(1, 3), (5, 5)], [(4, 4)]] (.simple 1) = .ok [⟨.simple 1, .notInRange, 2, 3⟩, ⟨.simple 1, .inRange, 2, 3⟩] := by decide +kernel
example : dom [.simple 2, .simple 1, .view 0 true 3] [[(0, 1)], [(1, 3), (5, 5)], [(4, 4)]] = .ok (some (.view 0 true 3)) := by decide +kernel
example : withSmallestValue [.simple 1, .view 0 true 2, .simple 2] [[(0, 1)], [(1, 3), (5, 5)], [(4, 4)]] = .ok (some (.simple 1)) := by decide +kernel
example : domWdeg (fun v => if v = .simple 1 then 5 else 2) (fun _ => 0) [.simple 0, .simple 1] [[(0, 1)], [(1, 3), (5, 5)], [(4, 4)]] = .ok (some (.simple 1)) := by decide +kernel
example : branchSequence (branchWith (inOrder [.simple 2]) smallestIn) (branchWith (inOrder [.simple 0]) smallestIn) [[(0, 1)], [(1, 3), (5, 5)], [(4, 4)]] =
    .ok [.eq (.simple 0) 0, .ne (.simple 0) 0] := by decide +kernel

end Gcs
