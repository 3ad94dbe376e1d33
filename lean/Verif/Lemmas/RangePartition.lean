import Verif.Lemmas.RangeLiterals

/-!
# Lemmas on the partition kept for range literals
-/

namespace Gcs.Ranges

/-- Between neighbouring boundaries. -/
structure IsCell (bs : List Int) (c : Ivl) : Prop where
  lo : c.1 ∈ bs
  hi : c.2 + 1 ∈ bs
  le : c.1 ≤ c.2
  gap : ∀ z ∈ bs, z ≤ c.1 ∨ c.2 + 1 ≤ z

abbrev Sorted (bs : List Int) : Prop := bs.Pairwise (· < ·)

theorem mem_insertCut {p z : Int} : ∀ {bs : List Int}, z ∈ insertCut p bs ↔ z = p ∨ z ∈ bs
  | [] => by simp [insertCut]
  | x :: xs => by
    unfold insertCut
    split
    · simp
    · split
      · rename_i e; subst e; simp
      · simp only [List.mem_cons, mem_insertCut (bs := xs)]; grind

theorem sorted_insertCut {p : Int} : ∀ {bs : List Int}, Sorted bs → Sorted (insertCut p bs)
  | [], _ => by simp [insertCut, Sorted]
  | x :: xs, h => by
    obtain ⟨h1, h2⟩ := List.pairwise_cons.1 h
    unfold insertCut
    split
    · refine List.pairwise_cons.2 ⟨fun z hz => ?_, h⟩
      rcases List.mem_cons.1 hz with rfl | hz
      · assumption
      · have := h1 z hz; omega
    · split
      · exact h
      · refine List.pairwise_cons.2 ⟨fun z hz => ?_, sorted_insertCut h2⟩
        rcases mem_insertCut.1 hz with rfl | hz
        · omega
        · exact h1 z hz

theorem mem_cells : ∀ {bs : List Int}, Sorted bs → ∀ c, c ∈ cells bs ↔ IsCell bs c
  | [], _, c => by simp only [cells, List.not_mem_nil, false_iff]; intro h; simpa using h.lo
  | [x], _, c => by
    simp only [cells, List.not_mem_nil, false_iff]; intro h
    have h1 := h.lo; have h2 := h.hi; have := h.le; simp at h1 h2; omega
  | x :: y :: rest, hs, c => by
    obtain ⟨h1, h2⟩ := List.pairwise_cons.1 hs
    obtain ⟨h3, h4⟩ := List.pairwise_cons.1 h2
    have hxy := h1 y (by simp)
    rw [cells, List.mem_cons, mem_cells h2]
    constructor
    · rintro (rfl | h)
      · refine ⟨by simp, by simp, by simp; omega, fun z hz => ?_⟩
        rcases List.mem_cons.1 hz with rfl | hz
        · simp
        · rcases List.mem_cons.1 hz with rfl | hz
          · right; simp
          · have := h3 z hz; right; simp; omega
      · refine ⟨List.mem_cons_of_mem _ h.lo, List.mem_cons_of_mem _ h.hi, h.le, fun z hz => ?_⟩
        rcases List.mem_cons.1 hz with rfl | hz
        · left; have := h1 _ h.lo; omega
        · exact h.gap z hz
    · intro h
      rcases List.mem_cons.1 h.lo with e | hlo
      · left
        have hle := h.le
        have : c.2 + 1 = y := by
          rcases h.gap y (by simp) with k | k
          · omega
          · have hh := h.hi
            rcases List.mem_cons.1 hh with k' | k'
            · omega
            · rcases List.mem_cons.1 k' with k' | k'
              · exact k'
              · have := h3 _ k'; omega
        exact Prod.ext e (by simp; omega)
      · right
        refine ⟨hlo, ?_, h.le, fun z hz => h.gap z (List.mem_cons_of_mem _ hz)⟩
        rcases List.mem_cons.1 h.hi with k | k
        · have := h1 _ hlo; have := h.le; omega
        · exact k

theorem cells_sorted : ∀ {bs : List Int}, Sorted bs → (cells bs).Pairwise fun x y => x.1 < y.1
  | [], _ => by simp [cells]
  | [x], _ => by simp [cells]
  | x :: y :: rest, hs => by
    obtain ⟨h1, h2⟩ := List.pairwise_cons.1 hs
    rw [cells]
    refine List.pairwise_cons.2 ⟨fun z hz => ?_, cells_sorted h2⟩
    exact h1 _ ((mem_cells h2 z).1 hz).lo

/-- Every value between two boundaries is in a cell. -/
theorem cell_at {bs : List Int} (hs : Sorted bs) {u w x : Int} (hu : u ∈ bs) (hw : w ∈ bs) (h1 : u ≤ x) (h2 : x < w) : ∃ c, IsCell bs c ∧ c.1 ≤ x ∧ x ≤ c.2 := by
  have : ∀ {bs : List Int}, Sorted bs → (∃ u ∈ bs, u ≤ x) → (∃ w ∈ bs, x < w) → ∃ c ∈ cells bs, c.1 ≤ x ∧ x ≤ c.2 := by
    intro bs
    induction bs with
    | nil => rintro _ ⟨_, h, _⟩; simp at h
    | cons z rest ih =>
      intro hs ⟨u, hu, h1⟩ ⟨w, hw, h2⟩
      obtain ⟨k1, k2⟩ := List.pairwise_cons.1 hs
      have hz : z ≤ x := by
        rcases List.mem_cons.1 hu with rfl | hu
        · exact h1
        · have := k1 u hu; omega
      cases rest with
      | nil => simp at hw; omega
      | cons y more =>
        rw [cells]
        by_cases hy : y ≤ x
        · obtain ⟨c, hc, k⟩ := ih k2 ⟨y, by simp, hy⟩ ⟨w, by
            rcases List.mem_cons.1 hw with rfl | hw
            · omega
            · exact hw, h2⟩
          exact ⟨c, List.mem_cons_of_mem _ hc, k⟩
        · exact ⟨_, List.mem_cons_self, hz, by simp; omega⟩
  obtain ⟨c, hc, k⟩ := this hs ⟨u, hu, h1⟩ ⟨w, hw, h2⟩
  exact ⟨c, (mem_cells hs c).1 hc, k⟩

/-- The two sides of a cut. -/
theorem around {bs : List Int} (hs : Sorted bs) {p u w : Int} (hp : p ∉ bs) (hu : u ∈ bs) (hw : w ∈ bs) (h1 : u ≤ p) (h2 : p < w) :
    ∃ a b, (bs.takeWhile (· ≤ p)).getLast? = some a ∧ (bs.dropWhile (· ≤ p)).head? = some b ∧ IsCell bs (a, b - 1) ∧ a < p ∧ p < b := by
  induction bs generalizing u with
  | nil => simp at hu
  | cons z rest ih =>
    obtain ⟨k1, k2⟩ := List.pairwise_cons.1 hs
    have hz : z ≤ p := by
      rcases List.mem_cons.1 hu with rfl | hu
      · exact h1
      · have := k1 u hu; omega
    have hzp : z < p := by
      have : z ≠ p := by rintro rfl; exact hp (by simp)
      omega
    have hw' : w ∈ rest := by
      rcases List.mem_cons.1 hw with rfl | hw
      · omega
      · exact hw
    rw [List.takeWhile_cons_of_pos (by simpa using hz), List.dropWhile_cons_of_pos (by simpa using hz)]
    cases rest with
    | nil => simp at hw'
    | cons y more =>
      by_cases hy : y ≤ p
      · obtain ⟨a, b, e1, e2, c, k⟩ := ih k2 (fun h => hp (List.mem_cons_of_mem _ h)) (u := y) (by simp) hw' hy
        refine ⟨a, b, ?_, e2, ⟨List.mem_cons_of_mem _ c.lo, List.mem_cons_of_mem _ c.hi, c.le, fun x hx => ?_⟩, k⟩
        · rw [List.getLast?_cons, e1]; rfl
        · rcases List.mem_cons.1 hx with rfl | hx
          · left; have := k1 _ c.lo; omega
          · exact c.gap x hx
      · refine ⟨z, y, ?_, ?_, ⟨by simp, by simp, ?_, fun x hx => ?_⟩, hzp, by omega⟩
        · rw [List.takeWhile_cons_of_neg (by simpa using hy)]; rfl
        · rw [List.dropWhile_cons_of_neg (by simpa using hy)]; rfl
        · have := k1 y (by simp); simp; omega
        · rcases List.mem_cons.1 hx with rfl | hx
          · simp
          · right
            have := (List.pairwise_cons.1 k2).1
            rcases List.mem_cons.1 hx with rfl | hx
            · simp
            · have := this x hx; simp; omega

/-- What a walk from one boundary to another finds. -/
theorem walk_ok {bs : List Int} (hs : Sorted bs) {u w : Int} (hu : u ∈ bs) (hw : w ∈ bs) (huw : u < w) :
    (∃ y more, bs.dropWhile (· ≠ u) = u :: y :: more ∧ IsCell bs (u, y - 1)) ∧
    ∃ l, walk w (bs.dropWhile (· ≠ u)) = .ok l ∧ ∀ c, c ∈ l ↔ IsCell bs c ∧ u ≤ c.1 ∧ c.2 < w := by
  induction bs with
  | nil => simp at hu
  | cons z rest ih =>
    obtain ⟨k1, k2⟩ := List.pairwise_cons.1 hs
    by_cases e : z = u
    · subst e
      have hw' : w ∈ rest := by
        rcases List.mem_cons.1 hw with rfl | hw
        · omega
        · exact hw
      rw [List.dropWhile_cons_of_neg (by simp)]
      have cut : ∀ {bs : List Int} {z : Int}, Sorted (z :: bs) → w ∈ z :: bs → ∃ l, walk w (z :: bs) = .ok l ∧ ∀ c, c ∈ l ↔ c ∈ cells (z :: bs) ∧ c.2 < w := by
        intro bs
        induction bs with
        | nil => intro z _ hw; simp at hw; subst hw; exact ⟨[], by simp [walk], by simp [cells]⟩
        | cons y more ih =>
          intro z hs hw
          obtain ⟨k1, k2⟩ := List.pairwise_cons.1 hs
          unfold walk
          by_cases e : z = w
          · refine ⟨[], by simp [e], fun c => ?_⟩
            simp only [List.not_mem_nil, false_iff, not_and, Int.not_lt]
            intro hc
            have c' := (mem_cells hs c).1 hc
            have := c'.le
            rcases List.mem_cons.1 c'.lo with k | k
            · omega
            · have := k1 _ k; omega
          · have hw' : w ∈ y :: more := by
              rcases List.mem_cons.1 hw with k | k
              · exact absurd k.symm e
              · exact k
            obtain ⟨l, el, hl⟩ := ih k2 hw'
            refine ⟨(z, y - 1) :: l, by simp [e, el]; rfl, fun c => ?_⟩
            rw [cells, List.mem_cons, List.mem_cons, hl]
            have : y ≤ w := by
              rcases List.mem_cons.1 hw' with k | k
              · omega
              · have := (List.pairwise_cons.1 k2).1 w k; omega
            constructor
            · rintro (rfl | ⟨h, h'⟩)
              · exact ⟨.inl rfl, by simp; omega⟩
              · exact ⟨.inr h, h'⟩
            · rintro ⟨rfl | h, h'⟩
              · exact .inl rfl
              · exact .inr ⟨h, h'⟩
      refine ⟨?_, ?_⟩
      · cases rest with
        | nil => simp at hw'
        | cons y more => exact ⟨y, more, rfl, (mem_cells hs _).1 (by rw [cells]; simp)⟩
      · obtain ⟨l, el, hl⟩ := cut hs hw
        refine ⟨l, el, fun c => ?_⟩
        rw [hl, mem_cells hs]
        constructor
        · rintro ⟨h, h'⟩
          refine ⟨h, ?_, h'⟩
          rcases List.mem_cons.1 h.lo with k | k
          · omega
          · have := k1 _ k; omega
        · rintro ⟨h, _, h'⟩; exact ⟨h, h'⟩
    · have hu' : u ∈ rest := by
        rcases List.mem_cons.1 hu with k | k
        · exact absurd k.symm e
        · exact k
      have hzu := k1 u hu'
      have hw' : w ∈ rest := by
        rcases List.mem_cons.1 hw with k | k
        · omega
        · exact k
      rw [List.dropWhile_cons_of_pos (by simpa using e)]
      obtain ⟨⟨y, more, ey, cy⟩, l, el, hl⟩ := ih k2 hu' hw'
      refine ⟨⟨y, more, ey, List.mem_cons_of_mem _ cy.lo, List.mem_cons_of_mem _ cy.hi, cy.le, fun x hx => ?_⟩, l, el, fun c => ?_⟩
      · rcases List.mem_cons.1 hx with rfl | hx
        · left; simp; omega
        · exact cy.gap x hx
      · rw [hl]
        constructor
        · rintro ⟨h, h', h''⟩
          refine ⟨⟨List.mem_cons_of_mem _ h.lo, List.mem_cons_of_mem _ h.hi, h.le, fun x hx => ?_⟩, h', h''⟩
          rcases List.mem_cons.1 hx with rfl | hx
          · left; omega
          · exact h.gap x hx
        · rintro ⟨h, h', h''⟩
          have := h.le
          refine ⟨⟨?_, ?_, h.le, fun x hx => h.gap x (List.mem_cons_of_mem _ hx)⟩, h', h''⟩
          · rcases List.mem_cons.1 h.lo with k | k
            · omega
            · exact k
          · rcases List.mem_cons.1 h.hi with k | k
            · omega
            · exact k

/-- The cells after one more cut. -/
theorem cell_insert {bs : List Int} {p a b : Int} (hc : IsCell bs (a, b)) (h1 : a < p) (h2 : p ≤ b) (c : Ivl) :
    IsCell (insertCut p bs) c ↔ (IsCell bs c ∧ c ≠ (a, b)) ∨ c = (a, p - 1) ∨ c = (p, b) := by
  have ha := hc.lo; have hb := hc.hi; have hg := hc.gap
  simp only at ha hb hg
  constructor
  · intro h
    have hlo := mem_insertCut.1 h.lo
    have hhi := mem_insertCut.1 h.hi
    have hle := h.le
    have gp := h.gap p (mem_insertCut.2 (.inl rfl))
    have ga := h.gap a (mem_insertCut.2 (.inr ha))
    have gb := h.gap (b + 1) (mem_insertCut.2 (.inr hb))
    rcases hlo with hlo | hlo
    · right; right
      refine Prod.ext hlo ?_
      rcases hhi with k | k
      · omega
      · have := hg _ k; simp only; omega
    · rcases hhi with k | k
      · right; left
        have := hg _ hlo
        exact Prod.ext (by simp only; omega) (by simp only; omega)
      · left
        refine ⟨⟨hlo, k, hle, fun z hz => h.gap z (mem_insertCut.2 (.inr hz))⟩, ?_⟩
        rintro rfl
        simp only at gp; omega
  · rintro (⟨h, hne⟩ | rfl | rfl)
    · refine ⟨mem_insertCut.2 (.inr h.lo), mem_insertCut.2 (.inr h.hi), h.le, fun z hz => ?_⟩
      rcases mem_insertCut.1 hz with rfl | hz
      · have g1 := hg _ h.lo
        have g2 := hg _ h.hi
        have g3 := h.gap _ ha
        have g4 := h.gap _ hb
        have := h.le
        rcases g1 with g1 | g1
        · rcases g2 with g2 | g2
          · right; omega
          · exact absurd (Prod.ext (by simp only; omega) (by simp only; omega)) hne
        · left; omega
      · exact h.gap z hz
    · refine ⟨mem_insertCut.2 (.inr ha), mem_insertCut.2 (.inl (by simp)), by simp only; omega, fun z hz => ?_⟩
      rcases mem_insertCut.1 hz with rfl | hz
      · right; simp
      · have := hg z hz; simp only; omega
    · refine ⟨mem_insertCut.2 (.inl rfl), mem_insertCut.2 (.inr hb), by simp only; omega, fun z hz => ?_⟩
      rcases mem_insertCut.1 hz with rfl | hz
      · left; simp
      · have := hg z hz; simp only; omega

end Gcs.Ranges
