import Verif.Lemmas.Cons.BinPackingDag

namespace Gcs.BinPacking
open IntervalSet

/-- The nodes of a layer that are got to. -/
def stepF (nodes : List Int) (f : Bool × Bool) (s : Int) (ws : List Int) : List Int := nodes.filter fun v => decide (∃ w ∈ ws, (f.2 = true ∧ v = w) ∨ (f.1 = true ∧ v = w + s))

/-- The nodes of a layer that lead on. -/
def stepB (nodes : List Int) (f : Bool × Bool) (s : Int) (next : List Int) : List Int := nodes.filter fun w => decide ((f.2 = true ∧ w ∈ next) ∨ (f.1 = true ∧ w + s ∈ next))

/-- What the forward bitmaps are to be. -/
structure IsF (layers : List (List Int)) (sizes : List Int) (fs : List (Bool × Bool)) (F : List (List Int)) : Prop where
  length : F.length = fs.length + 1
  first : F.getD 0 [] = layers.headD []
  step : ∀ i, i < fs.length → F.getD (i + 1) [] = stepF (layers.getD (i + 1) []) (fs.getD i (false, false)) (sizes.getD i 0) (F.getD i [])

/-- What the backward bitmaps are to be. -/
structure IsB (layers : List (List Int)) (sizes : List Int) (fs : List (Bool × Bool)) (F B : List (List Int)) : Prop where
  length : B.length = fs.length + 1
  last : B.getD fs.length [] = F.getD fs.length []
  step : ∀ i, i < fs.length → B.getD i [] = stepB (layers.getD i []) (fs.getD i (false, false)) (sizes.getD i 0) (B.getD (i + 1) [])

theorem ext_getD {α : Type} {z : α} {l k : List α} (hl : l.length = k.length) (h : ∀ i, i < l.length → l.getD i z = k.getD i z) : l = k :=
  List.ext_getElem hl fun i h1 h2 => by
    have := h i h1
    simpa [h1, h2] using this

/-- There is only one way for the forward bitmaps to be. -/
theorem IsF.unique {layers : List (List Int)} {sizes : List Int} {fs : List (Bool × Bool)} {F G : List (List Int)} (h : IsF layers sizes fs F) (k : IsF layers sizes fs G) : F = G := by
  refine ext_getD (z := []) (h.length.trans k.length.symm) fun i => ?_
  induction i with
  | zero => intro _; rw [h.first, k.first]
  | succ i ih =>
    intro hi
    have := h.length
    rw [h.step i (by omega), k.step i (by omega), ih (by omega)]

theorem IsB.unique {layers : List (List Int)} {sizes : List Int} {fs : List (Bool × Bool)} {F B C : List (List Int)} (h : IsB layers sizes fs F B) (k : IsB layers sizes fs F C) : B = C := by
  refine ext_getD (z := []) (h.length.trans k.length.symm) fun i hi => ?_
  have hl := h.length
  have key : ∀ j, j ≤ fs.length → B.getD (fs.length - j) [] = C.getD (fs.length - j) [] := fun j => by
    induction j with
    | zero => intro _; rw [Nat.sub_zero, h.last, k.last]
    | succ j ih =>
      intro hj
      have e : fs.length - (j + 1) + 1 = fs.length - j := by omega
      rw [h.step _ (by omega), k.step _ (by omega), e, ih (by omega)]
  have := key (fs.length - i) (by omega)
  rwa [show fs.length - (fs.length - i) = i by omega] at this

theorem forward_get : ∀ (ps : List ((Bool × Bool) × Int)) (ls : List (List Int)) (ws : List Int), ps.length ≤ ls.length → (forward ls ps ws).length = ps.length ∧
    ∀ i, i < ps.length → (ws :: forward ls ps ws).getD (i + 1) [] = stepF (ls.getD i []) (ps.getD i ((false, false), 0)).1 (ps.getD i ((false, false), 0)).2 ((ws :: forward ls ps ws).getD i [])
  | [], ls, ws, _ => by cases ls <;> exact ⟨rfl, fun i hi => (nomatch hi)⟩
  | p :: ps, [], ws, h => by simp at h
  | (f, s) :: ps, nodes :: ls, ws, h => by
    have ih := forward_get ps ls (stepF nodes f s ws) (by simpa using h)
    have e : forward (nodes :: ls) ((f, s) :: ps) ws = stepF nodes f s ws :: forward ls ps (stepF nodes f s ws) := rfl
    rw [e]
    refine ⟨by rw [List.length_cons, ih.1, List.length_cons], fun i hi => ?_⟩
    cases i with
    | zero => rfl
    | succ i => exact ih.2 i (by simpa using hi)

theorem backward_get : ∀ (ps : List ((Bool × Bool) × Int)) (ls : List (List Int)) (last : List Int), ps.length ≤ ls.length → (backward ls ps last).length = ps.length + 1 ∧ (backward ls ps last).getD ps.length [] = last ∧
    ∀ i, i < ps.length → (backward ls ps last).getD i [] = stepB (ls.getD i []) (ps.getD i ((false, false), 0)).1 (ps.getD i ((false, false), 0)).2 ((backward ls ps last).getD (i + 1) [])
  | [], ls, last, _ => by cases ls <;> exact ⟨rfl, rfl, fun i hi => (nomatch hi)⟩
  | p :: ps, [], last, h => by simp at h
  | (f, s) :: ps, nodes :: ls, last, h => by
    have ih := backward_get ps ls last (by simpa using h)
    have e : backward (nodes :: ls) ((f, s) :: ps) last = stepB nodes f s ((backward ls ps last).headD []) :: backward ls ps last := rfl
    rw [e]
    refine ⟨by rw [List.length_cons, ih.1, List.length_cons], ih.2.1, fun i hi => ?_⟩
    cases i with
    | zero =>
      show stepB nodes f s ((backward ls ps last).headD []) = stepB nodes f s ((backward ls ps last).getD 0 [])
      cases backward ls ps last <;> rfl
    | succ i => exact ih.2.2 i (by simpa using hi)

section
variable {layers : List (List Int)} {sizes : List Int} {fs gs prev : List (Bool × Bool)} {F B : List (List Int)} {sc : Scratch}

theorem zip_getD (hs : fs.length = sizes.length) {i : Nat} (hi : i < fs.length) : (fs.zip sizes).getD i ((false, false), 0) = (fs.getD i (false, false), sizes.getD i 0) := by
  have h2 : i < sizes.length := by omega
  have h3 : i < (fs.zip sizes).length := by simp; omega
  rw [List.getD_eq_getElem?_getD, List.getElem?_eq_getElem h3]
  simp [hi, h2]

theorem full_F (hl : layers.length = fs.length + 1) (hs : fs.length = sizes.length) : IsF layers sizes fs (layers.headD [] :: forward layers.tail (fs.zip sizes) (layers.headD [])) := by
  have hz : (fs.zip sizes).length = fs.length := by simp; omega
  have h := forward_get (fs.zip sizes) layers.tail (layers.headD []) (by simp; omega)
  refine ⟨by rw [List.length_cons, h.1, hz], rfl, fun i hi => ?_⟩
  rw [h.2 i (hz.symm ▸ hi), zip_getD hs hi]
  have : layers.tail.getD i [] = layers.getD (i + 1) [] := by simp
  rw [this]

theorem full_B (hl : layers.length = fs.length + 1) (hs : fs.length = sizes.length) : IsB layers sizes fs F (backward layers (fs.zip sizes) (F.getD fs.length [])) := by
  have hz : (fs.zip sizes).length = fs.length := by simp; omega
  have h := backward_get (fs.zip sizes) layers (F.getD fs.length []) (by omega)
  refine ⟨by rw [h.1, hz], by have := h.2.1; rwa [hz] at this, fun i hi => ?_⟩
  rw [h.2.2 i (hz.symm ▸ hi), zip_getD hs hi]

/-- Nothing between changes has changed. -/
theorem changes_spec {first : Nat} {more : List Nat} (hl : prev.length = fs.length) (h : changes prev fs = first :: more) : first < fs.length ∧ (first :: more).getLastD 0 < fs.length ∧ first ≤ (first :: more).getLastD 0 ∧
    (∀ i, i < first → fs.getD i (false, false) = prev.getD i (false, false)) ∧ ∀ i, (first :: more).getLastD 0 < i → fs.getD i (false, false) = prev.getD i (false, false) := by
  have sorted : (first :: more).Pairwise (· < ·) := h ▸ List.Pairwise.filter _ List.pairwise_lt_range
  have mem : ∀ i, i ∈ first :: more ↔ i < fs.length ∧ fs[i]? ≠ prev[i]? := fun i => by rw [← h]; simp [changes]
  have hlast : (first :: more).getLastD 0 = (first :: more).getLast (by simp) := by simp [List.getLastD]
  have hlm : (first :: more).getLastD 0 ∈ first :: more := hlast ▸ List.getLast_mem _
  have last : ∀ i ∈ first :: more, i ≤ (first :: more).getLastD 0 := fun i hi => by
    rw [hlast]
    obtain ⟨j, hj, rfl⟩ := List.getElem_of_mem hi
    rw [List.getLast_eq_getElem]
    by_cases e : j = (first :: more).length - 1
    · subst e; exact Nat.le_refl _
    · exact Nat.le_of_lt (List.pairwise_iff_getElem.1 sorted _ _ hj (by simp) (by omega))
  have same : ∀ i, i ∉ first :: more → fs.getD i (false, false) = prev.getD i (false, false) := fun i hi => by
    by_cases hlt : i < fs.length
    · have : fs[i]? = prev[i]? := Classical.byContradiction fun hn => hi ((mem i).2 ⟨hlt, hn⟩)
      rw [List.getD_eq_getElem?_getD, List.getD_eq_getElem?_getD, this]
    · have h1 : fs[i]? = none := List.getElem?_eq_none (by omega)
      have h2 : prev[i]? = none := List.getElem?_eq_none (by omega)
      rw [List.getD_eq_getElem?_getD, List.getD_eq_getElem?_getD, h1, h2]
  refine ⟨((mem first).1 List.mem_cons_self).1, ((mem _).1 hlm).1, last first List.mem_cons_self, fun i hi => same i fun hm => ?_, fun i hi => same i fun hm => ?_⟩
  · rcases List.mem_cons.1 hm with rfl | hm
    · omega
    · have := (List.pairwise_cons.1 sorted).1 i hm; omega
  · have := last i hm; omega

theorem getD_append {α : Type} {z : α} {l k : List α} {i : Nat} : (l ++ k).getD i z = if i < l.length then l.getD i z else k.getD (i - l.length) z := by
  split
  · rename_i h; simp [List.getElem?_append_left h]
  · rename_i h; simp [List.getElem?_append_right (Nat.not_lt.1 h)]

/-- What is recomputed from the first change on. -/
theorem part_F {first : Nat} (hl : layers.length = fs.length + 1) (hs : fs.length = sizes.length) (hp : prev.length = fs.length) (hF : IsF layers sizes prev F) (hfirst : first < fs.length)
    (same : ∀ i, i < first → fs.getD i (false, false) = prev.getD i (false, false)) :
    IsF layers sizes fs (F.take (first + 1) ++ forward (layers.drop (first + 1)) ((fs.zip sizes).drop first) (F.getD first [])) := by
  have hz : (fs.zip sizes).length = fs.length := by simp; omega
  have hFl := hF.length
  have h := forward_get ((fs.zip sizes).drop first) (layers.drop (first + 1)) (F.getD first []) (by simp; omega)
  rw [List.length_drop, hz] at h
  have htl : (F.take first).length = first := by simp; omega
  have e : F.take (first + 1) ++ forward (layers.drop (first + 1)) ((fs.zip sizes).drop first) (F.getD first []) = F.take first ++ (F.getD first [] :: forward (layers.drop (first + 1)) ((fs.zip sizes).drop first) (F.getD first [])) := by
    have hlt : first < F.length := by omega
    rw [List.take_succ_eq_append_getElem hlt, List.append_assoc]
    simp [hlt]
  rw [e]
  have low : ∀ i, i < first → (F.take first ++ (F.getD first [] :: forward (layers.drop (first + 1)) ((fs.zip sizes).drop first) (F.getD first []))).getD i [] = F.getD i [] := fun i hi => by
    rw [getD_append, htl, if_pos hi]
    simp [List.getElem?_take, hi]
  have high : ∀ j, (F.take first ++ (F.getD first [] :: forward (layers.drop (first + 1)) ((fs.zip sizes).drop first) (F.getD first []))).getD (first + j) [] = (F.getD first [] :: forward (layers.drop (first + 1)) ((fs.zip sizes).drop first) (F.getD first [])).getD j [] := fun j => by
    rw [getD_append, htl, if_neg (by omega), Nat.add_sub_cancel_left]
  have upto : ∀ i, i ≤ first → (F.take first ++ (F.getD first [] :: forward (layers.drop (first + 1)) ((fs.zip sizes).drop first) (F.getD first []))).getD i [] = F.getD i [] := fun i hi => by
    by_cases hlt : i < first
    · exact low i hlt
    · have : i = first + 0 := by omega
      rw [this, high]; rfl
  refine ⟨by rw [List.length_append, List.length_cons, h.1, htl]; omega, (upto 0 (Nat.zero_le _)).trans hF.first, fun i hi => ?_⟩
  by_cases hlt : i < first
  · rw [upto (i + 1) hlt, upto i (by omega), hF.step i (by omega), same i hlt]
  · obtain ⟨j, rfl⟩ := Nat.exists_eq_add_of_le (Nat.not_lt.1 hlt)
    rw [Nat.add_assoc, high, high, h.2 j (by omega)]
    have e1 : ((fs.zip sizes).drop first).getD j ((false, false), 0) = (fs.zip sizes).getD (first + j) ((false, false), 0) := by simp
    have e2 : (layers.drop (first + 1)).getD j [] = layers.getD (first + (j + 1)) [] := by simp [Nat.add_comm, Nat.add_left_comm]
    rw [e1, e2, zip_getD hs hi]

/-- What is recomputed before the last change. -/
theorem part_B {G : List (List Int)} {last : Nat} (hl : layers.length = fs.length + 1) (hs : fs.length = sizes.length) (hp : prev.length = fs.length) (hB : IsB layers sizes prev F B) (hlast : last < fs.length)
    (hG : G.getD fs.length [] = F.getD fs.length []) (same : ∀ i, last < i → fs.getD i (false, false) = prev.getD i (false, false)) :
    IsB layers sizes fs G (backward layers ((fs.zip sizes).take (last + 1)) (B.getD (last + 1) []) ++ B.drop (last + 2)) := by
  have hz : (fs.zip sizes).length = fs.length := by simp; omega
  have hBl := hB.length
  have htake : ((fs.zip sizes).take (last + 1)).length = last + 1 := by rw [List.length_take]; omega
  have h := backward_get ((fs.zip sizes).take (last + 1)) layers (B.getD (last + 1) []) (by omega)
  rw [htake] at h
  have low : ∀ i, i ≤ last + 1 → (backward layers ((fs.zip sizes).take (last + 1)) (B.getD (last + 1) []) ++ B.drop (last + 2)).getD i [] = (backward layers ((fs.zip sizes).take (last + 1)) (B.getD (last + 1) [])).getD i [] := fun i hi => by
    rw [getD_append, h.1, if_pos (by omega)]
  have high : ∀ i, last + 1 ≤ i → (backward layers ((fs.zip sizes).take (last + 1)) (B.getD (last + 1) []) ++ B.drop (last + 2)).getD i [] = B.getD i [] := fun i hi => by
    by_cases e : i = last + 1
    · subst e; rw [low _ (Nat.le_refl _), h.2.1]
    · rw [getD_append, h.1, if_neg (by omega)]
      have : last + 2 + (i - (last + 1 + 1)) = i := by omega
      simp [this]
  refine ⟨by rw [List.length_append, h.1, List.length_drop]; omega, ?_, fun i hi => ?_⟩
  · rw [high _ (by omega), hG, ← hp, hB.last]
  · by_cases hlt : i < last + 1
    · rw [low i (by omega), low (i + 1) hlt, h.2.2 i hlt]
      have e1 : ((fs.zip sizes).take (last + 1)).getD i ((false, false), 0) = (fs.zip sizes).getD i ((false, false), 0) := by simp [List.getElem?_take, hlt]
      rw [e1, zip_getD hs hi]
    · rw [high i (by omega), high (i + 1) (by omega), hB.step i (by omega), same i (by omega)]

/-- Scratch that is either not used yet or as it should be for the flags that are in it. -/
def Sound (layers : List (List Int)) (sizes : List Int) (n : Nat) (sc : Scratch) : Prop := sc.warm = false ∨ (sc.prev.length = n ∧ IsF layers sizes sc.prev sc.fwd ∧ IsB layers sizes sc.prev sc.fwd sc.bwd)

/-- What a sweep leaves is as it should be for the flags of the sweep, and is marked as such. -/
theorem sweep_state (hl : layers.length = fs.length + 1) (hs : fs.length = sizes.length) (h : Sound layers sizes fs.length sc) :
    (sweep layers sizes fs sc).1.warm = true ∧ (sweep layers sizes fs sc).1.prev = fs ∧ IsF layers sizes fs (sweep layers sizes fs sc).1.fwd ∧ IsB layers sizes fs (sweep layers sizes fs sc).1.fwd (sweep layers sizes fs sc).1.bwd := by
  unfold sweep
  by_cases hw : sc.warm = false
  · simp only [hw, if_true]
    exact ⟨trivial, trivial, full_F hl hs, full_B hl hs⟩
  · simp only [if_neg hw]
    obtain ⟨hp, hF, hB⟩ := h.resolve_left hw
    cases hc : changes sc.prev fs with
    | nil =>
      have e : sc.prev = fs := by
        refine List.ext_getElem? fun i => ?_
        by_cases hi : i < fs.length
        · refine Classical.byContradiction fun hn => ?_
          have : i ∈ changes sc.prev fs := by exact List.mem_filter.2 ⟨List.mem_range.2 hi, decide_eq_true fun h => hn h.symm⟩
          rw [hc] at this; cases this
        · rw [List.getElem?_eq_none (by omega), List.getElem?_eq_none (by omega)]
      exact ⟨by simpa using hw, e, e ▸ hF, e ▸ hB⟩
    | cons first more =>
      obtain ⟨c1, c2, c3, c4, c5⟩ := changes_spec hp hc
      have hF' := part_F hl hs hp hF c1 c4
      refine ⟨rfl, rfl, hF', ?_⟩
      simp only
      split
      · exact full_B hl hs
      · rename_i he
        exact part_B hl hs hp hB c2 (Classical.not_not.1 he) c5

/-- Every layer has what can be got to from the one before it, by number. -/
structure ClosedAt (layers : List (List Int)) (sizes : List Int) (gs : List (Bool × Bool)) : Prop where
  first : layers.headD [] ≠ []
  step : ∀ i, i < gs.length → ∀ w ∈ layers.getD i [], ((gs.getD i (false, false)).2 = true → w ∈ layers.getD (i + 1) []) ∧ ((gs.getD i (false, false)).1 = true → w + sizes.getD i 0 ∈ layers.getD (i + 1) [])

/-- Nothing is ever without support. -/
theorem idle (hs : fs.length = sizes.length) (hg : fs.length = gs.length) (hc : ClosedAt layers sizes gs) (hF : IsF layers sizes fs F) (hB : IsB layers sizes fs F B)
    (hfew : ∀ i, i < fs.length → Fewer (fs.getD i (false, false)) (gs.getD i (false, false)) ∧ ((fs.getD i (false, false)).1 = true ∨ (fs.getD i (false, false)).2 = true)) : unsupported fs sizes F B = [] := by
  have node : ∀ i, i ≤ fs.length → ∀ w ∈ F.getD i [], w ∈ layers.getD i [] := fun i hi w hw => by
    cases i with
    | zero =>
      rw [hF.first] at hw
      cases layers <;> simpa using hw
    | succ i => rw [hF.step i hi] at hw; exact (List.mem_filter.1 hw).1
  have next : ∀ i, i < fs.length → ∀ w ∈ F.getD i [], ((fs.getD i (false, false)).2 = true → w ∈ F.getD (i + 1) []) ∧ ((fs.getD i (false, false)).1 = true → w + sizes.getD i 0 ∈ F.getD (i + 1) []) := fun i hi w hw => by
    have := hc.step i (hg ▸ hi) w (node i (by omega) w hw)
    rw [hF.step i hi]
    exact ⟨fun e => List.mem_filter.2 ⟨this.1 ((hfew i hi).1.2 e), decide_eq_true ⟨w, hw, .inl ⟨e, rfl⟩⟩⟩, fun e => List.mem_filter.2 ⟨this.2 ((hfew i hi).1.1 e), decide_eq_true ⟨w, hw, .inr ⟨e, rfl⟩⟩⟩⟩
  have some : ∀ i, i ≤ fs.length → ∃ w, w ∈ F.getD i [] := fun i => by
    induction i with
    | zero => intro _; rw [hF.first]; exact List.exists_mem_of_ne_nil _ hc.first
    | succ i ih =>
      intro hi
      obtain ⟨w, hw⟩ := ih (by omega)
      rcases (hfew i hi).2 with e | e
      · exact ⟨_, (next i hi w hw).2 e⟩
      · exact ⟨_, (next i hi w hw).1 e⟩
  have back : ∀ j, j ≤ fs.length → ∀ w ∈ F.getD (fs.length - j) [], w ∈ B.getD (fs.length - j) [] := fun j => by
    induction j with
    | zero => intro _ w hw; rw [Nat.sub_zero] at hw ⊢; rw [hB.last]; exact hw
    | succ j ih =>
      intro hj w hw
      have hi : fs.length - (j + 1) < fs.length := by omega
      have e : fs.length - (j + 1) + 1 = fs.length - j := by omega
      rw [hB.step _ hi]
      refine List.mem_filter.2 ⟨node _ (by omega) w hw, decide_eq_true ?_⟩
      have hn := next _ hi w hw
      rw [e] at hn ⊢
      rcases (hfew _ hi).2 with e | e
      · exact .inr ⟨e, ih (by omega) _ (hn.2 e)⟩
      · exact .inl ⟨e, ih (by omega) _ (hn.1 e)⟩
  have back' : ∀ i, i ≤ fs.length → ∀ w ∈ F.getD i [], w ∈ B.getD i [] := fun i hi w hw => by
    have := back (fs.length - i) (by omega)
    rw [show fs.length - (fs.length - i) = i by omega] at this
    exact this w hw
  unfold unsupported
  refine List.filter_eq_nil_iff.2 fun i hi => ?_
  have hi := List.mem_range.1 hi
  rw [decide_eq_true_eq]
  rintro ⟨h1, h2⟩
  obtain ⟨w, hw⟩ := some i (by omega)
  have := (next i hi w hw).2 h1
  exact h2 ⟨w, hw, back' i (by omega) w hw, this, back' (i + 1) hi _ this⟩

theorem sweep_prunes (hl : layers.length = fs.length + 1) (hs : fs.length = sizes.length) (h : Sound layers sizes fs.length sc) (hg : fs.length = gs.length) (hc : ClosedAt layers sizes gs)
    (hfew : ∀ i, i < fs.length → Fewer (fs.getD i (false, false)) (gs.getD i (false, false)) ∧ ((fs.getD i (false, false)).1 = true ∨ (fs.getD i (false, false)).2 = true)) : (sweep layers sizes fs sc).2 = [] := by
  have hst := sweep_state hl hs h
  unfold sweep at hst ⊢
  by_cases hw : sc.warm = false
  · simp only [hw, if_true] at hst ⊢
    exact idle hs hg hc hst.2.2.1 hst.2.2.2 hfew
  · simp only [if_neg hw] at hst ⊢
    cases hch : changes sc.prev fs with
    | nil => rfl
    | cons first more =>
      rw [hch] at hst
      exact idle hs hg hc hst.2.2.1 hst.2.2.2 hfew

theorem closed_length : ∀ {ws : List Int} {ls : List (List Int)} {ps : List ((Bool × Bool) × Int)}, Closed ws ls ps → ls.length = ps.length
  | _, [], [], _ => rfl
  | _, _ :: _, (_, _) :: _, h => by rw [List.length_cons, List.length_cons, closed_length h.2]
  | _, [], _ :: _, h => h.elim
  | _, _ :: _, [], h => h.elim

theorem closed_get : ∀ {ws : List Int} {ls : List (List Int)} {ps : List ((Bool × Bool) × Int)}, Closed ws ls ps → ∀ i, i < ps.length → ∀ w ∈ (ws :: ls).getD i [],
    ((ps.getD i ((false, false), 0)).1.2 = true → w ∈ (ws :: ls).getD (i + 1) []) ∧ ((ps.getD i ((false, false), 0)).1.1 = true → w + (ps.getD i ((false, false), 0)).2 ∈ (ws :: ls).getD (i + 1) [])
  | _, [], [], _, i, hi => (nomatch hi)
  | _, [], _ :: _, h, _, _ => h.elim
  | _, _ :: _, [], h, _, _ => h.elim
  | ws, next :: ls, (f, s) :: ps, h, i, hi => by
    cases i with
    | zero => exact h.1
    | succ i => exact closed_get h.2 i (by simpa using hi)

theorem Closed.at {ws : List Int} {ls : List (List Int)} (h : Closed ws ls (gs.zip sizes)) (hs : gs.length = sizes.length) (hw : ws ≠ []) : ClosedAt (ws :: ls) sizes gs ∧ (ws :: ls).length = gs.length + 1 := by
  have hz : (gs.zip sizes).length = gs.length := by simp; omega
  refine ⟨⟨hw, fun i hi => ?_⟩, by rw [List.length_cons, closed_length h, hz]⟩
  have := closed_get h i (hz.symm ▸ hi)
  rw [zip_getD hs hi] at this
  exact this

end
end Gcs.BinPacking
