import Verif.Lemmas.Cons.ArgSort

/-!
# What ArgSort means, in terms of ranks
-/

namespace Gcs.ArgSort

variable {off : Int} {xs ps ys : List Int}

/-- The numbers of the elements, in the order in which `ps` puts them. -/
def nums (off : Int) (ps : List Int) : List Nat := ps.map fun v => (v - off).toNat

theorem nums_at {j k : Nat} (h : ps[j]? = some (off + k)) : (nums off ps)[j]? = some k := by
  rw [nums, List.getElem?_map, h]
  simp only [Option.map_some, Option.some.injEq]
  omega

theorem range_at {n j : Nat} {v : Int} (h : ∀ v ∈ ps, off ≤ v ∧ v < off + n) (hj : ps[j]? = some v) : ∃ k : Nat, k < n ∧ v = off + k := by
  have := h v (List.mem_of_getElem? hj)
  exact ⟨(v - off).toNat, by omega, by omega⟩

theorem _root_.Gcs.ArgSorts.range (h : ArgSorts off xs ps) : ∀ v ∈ ps, off ≤ v ∧ v < off + xs.length := by
  intro v hv
  obtain ⟨k, hk, rfl⟩ := List.mem_map.1 (h.perm.mem_iff.1 hv)
  have := List.mem_range.1 hk
  omega

theorem _root_.Gcs.ArgSorts.length (h : ArgSorts off xs ps) : ps.length = xs.length := by simpa using h.perm.length_eq

theorem _root_.Gcs.ArgSorts.nodup (h : ArgSorts off xs ps) : ps.Nodup := by
  rw [h.perm.nodup_iff, List.Nodup, List.pairwise_map]
  exact List.nodup_range.imp fun hne e => hne (by omega)

theorem _root_.Gcs.ArgSorts.nums_perm (h : ArgSorts off xs ps) : (nums off ps).Perm (List.range xs.length) := by
  have := h.perm.map fun v => (v - off).toNat
  rw [List.map_map] at this
  refine this.trans (.of_eq ?_)
  refine (List.map_congr_left fun k _ => ?_).trans (List.map_id _)
  simp only [Function.comp, id]
  omega

theorem getD_of {l : List Int} {k : Nat} {v : Int} (h : l[k]? = some v) : l.getD k 0 = v := by rw [List.getD_eq_getElem?_getD, h]; rfl

theorem at_of_lt {l : List Int} {k : Nat} (h : k < l.length) : l[k]? = some (l.getD k 0) := by rw [List.getD_eq_getElem?_getD, List.getElem?_eq_getElem h]; rfl

theorem _root_.Gcs.ArgSorts.ordered (h : ArgSorts off xs ps) : (nums off ps).Pairwise (Prec (xs.getD · 0)) := by
  have key : ∀ (m j k k' : Nat), ps[j]? = some (off + k) → ps[j + m + 1]? = some (off + k') → Prec (xs.getD · 0) k k' := by
    intro m
    induction m with
    | zero =>
      intro j k k' h1 h2
      have r1 := h.range _ (List.mem_of_getElem? h1)
      have r2 := h.range _ (List.mem_of_getElem? h2)
      obtain ⟨h3, h4⟩ := h.sorted j k k' h1 h2 _ _ (at_of_lt (by omega)) (at_of_lt (by omega))
      by_cases e : xs.getD k 0 = xs.getD k' 0
      · exact .inr ⟨e, h4 e⟩
      · exact .inl (Int.lt_iff_le_and_ne.2 ⟨h3, e⟩)
    | succ m ih =>
      intro j k k' h1 h2
      have hlt : j + m + 1 < ps.length := by have := (List.getElem?_eq_some_iff.1 h2).1; omega
      obtain ⟨k1, h5, h6⟩ := range_at h.range (List.getElem?_eq_getElem hlt)
      have e : ps[j + m + 1]? = some (off + k1) := by rw [List.getElem?_eq_getElem hlt, h6]
      have a1 := ih j k k1 h1 e
      have r1 := h.range _ (List.mem_of_getElem? e)
      have r2 := h.range _ (List.mem_of_getElem? h2)
      obtain ⟨h3, h4⟩ := h.sorted (j + m + 1) k1 k' e h2 _ _ (at_of_lt (by omega)) (at_of_lt (by omega))
      refine a1.trans ?_
      by_cases e : xs.getD k1 0 = xs.getD k' 0
      · exact .inr ⟨e, h4 e⟩
      · exact .inl (Int.lt_iff_le_and_ne.2 ⟨h3, e⟩)
  rw [List.pairwise_iff_getElem]
  intro i j hi hj hij
  have li : i < ps.length := by simpa [nums] using hi
  have lj : j < ps.length := by simpa [nums] using hj
  obtain ⟨a, _, ea⟩ := range_at h.range (List.getElem?_eq_getElem li)
  obtain ⟨b, _, eb⟩ := range_at h.range (List.getElem?_eq_getElem lj)
  have e1 : ps[i]? = some (off + a) := by rw [List.getElem?_eq_getElem li, ea]
  have e2 : ps[j]? = some (off + b) := by rw [List.getElem?_eq_getElem lj, eb]
  have f1 := nums_at e1
  have f2 := nums_at e2
  rw [List.getElem?_eq_getElem hi, Option.some.injEq] at f1
  rw [List.getElem?_eq_getElem hj, Option.some.injEq] at f2
  rw [f1, f2]
  exact key (j - i - 1) i a b e1 (by rw [show i + (j - i - 1) + 1 = j by omega]; exact e2)

theorem _root_.Gcs.ArgSorts.rank (h : ArgSorts off xs ps) {j k : Nat} (hj : ps[j]? = some (off + k)) : tally xs.length k (xs.getD · 0) (xs.getD k 0) = j := by
  rw [tally_eq (f := (xs.getD · 0)), ← h.nums_perm.countP_eq]
  exact place_of_pairwise _ h.ordered j k (nums_at hj)

/-- The places are the ranks. -/
structure Ranked (off : Int) (xs ps : List Int) : Prop where
  length : ps.length = xs.length
  range : ∀ v ∈ ps, off ≤ v ∧ v < off + xs.length
  nodup : ps.Nodup
  rank : ∀ (j k : Nat), ps[j]? = some (off + k) → tally xs.length k (xs.getD · 0) (xs.getD k 0) = j

theorem Ranked.perm (h : Ranked off xs ps) : ps.Perm ((List.range xs.length).map fun (k : Nat) => off + (k : Int)) := by
  have sub : ∀ v ∈ ps, v ∈ (List.range xs.length).map fun (k : Nat) => off + (k : Int) := fun v hv => by
    have := h.range v hv
    exact List.mem_map.2 ⟨(v - off).toNat, List.mem_range.2 (by omega), by omega⟩
  have nd : ((List.range xs.length).map fun (k : Nat) => off + (k : Int)).Nodup := by
    rw [List.Nodup, List.pairwise_map]
    exact List.nodup_range.imp fun hne e => hne (by omega)
  refine (List.perm_ext_iff_of_nodup h.nodup nd).2 fun v => ⟨sub v, fun hv => Classical.byContradiction fun hn => ?_⟩
  have := length_le_of_subset (v :: ps) _ (List.nodup_cons.2 ⟨hn, h.nodup⟩) fun w hw => (List.mem_cons.1 hw).elim (fun e => e ▸ hv) (sub w)
  rw [List.length_map, List.length_range, List.length_cons, h.length] at this
  omega

theorem argSorts_iff : ArgSorts off xs ps ↔ Ranked off xs ps := by
  refine ⟨fun h => ⟨h.length, h.range, h.nodup, fun j k => h.rank⟩, fun h => ⟨h.perm, fun j k k' h1 h2 v v' hv hv' => ?_⟩⟩
  have e1 := h.rank _ _ h1
  have e2 := h.rank _ _ h2
  rw [tally_eq (f := (xs.getD · 0))] at e1 e2
  have hk := (List.getElem?_eq_some_iff.1 hv).1
  have hk' := (List.getElem?_eq_some_iff.1 hv').1
  have key : Prec (xs.getD · 0) k k' := by
    rcases prec_total (f := (xs.getD · 0)) k k' with p | p | p
    · exact p
    · subst p; omega
    · have : (List.range xs.length).countP (fun i => Prec (xs.getD · 0) i k') ≤ (List.range xs.length).countP (fun i => Prec (xs.getD · 0) i k) :=
        List.countP_mono_left fun i _ hi => by simp only [decide_eq_true_eq] at *; exact hi.trans p
      omega
  simp only [Prec] at key
  rw [getD_of hv, getD_of hv'] at key
  omega

/-- What is put in order is sorted. -/
theorem _root_.Gcs.ArgSorts.sorts (h : ArgSorts off xs ps) (hl : ys.length = xs.length) (hy : ∀ (j k : Nat), ps[j]? = some (off + k) → ys[j]? = xs[k]?) : Sorts xs ys := by
  have e : ys = (nums off ps).map (xs.getD · 0) := by
    refine List.ext_getElem? fun j => ?_
    by_cases hj : j < ps.length
    · obtain ⟨k, hk, ek⟩ := range_at h.range (List.getElem?_eq_getElem hj)
      have e1 : ps[j]? = some (off + k) := by rw [List.getElem?_eq_getElem hj, ek]
      rw [hy j k e1, List.getElem?_map, nums_at e1, at_of_lt hk]
      rfl
    · rw [List.getElem?_eq_none (by rw [hl, ← h.length]; omega), List.getElem?_eq_none (by simp only [nums, List.length_map]; omega)]
  have e2 : xs = (List.range xs.length).map (xs.getD · 0) := by
    refine List.ext_getElem? fun j => ?_
    by_cases hj : j < xs.length
    · rw [at_of_lt hj, List.getElem?_map, List.getElem?_range hj]; rfl
    · rw [List.getElem?_eq_none (by omega), List.getElem?_eq_none (by simp; omega)]
  constructor
  · rw [e]
    exact (h.nums_perm.map _).trans (.of_eq e2.symm)
  · rw [e, List.pairwise_map]
    exact h.ordered.imp fun hp => by simp only [Prec] at hp; omega

end Gcs.ArgSort
