import Verif.Spec.OrderLiterals
import Verif.Lemmas.RangePartition

/-!
# Lemmas on order literals in proofs
-/

namespace Gcs.Ranges

theorem Propagated.mono {cs ds : List (List OLit)} {a : Atom → Option Bool} (h : Propagated ds a) (hs : ∀ c ∈ cs, c ∈ ds) : Propagated cs a :=
  fun c m => h c (hs c m)

theorem Propagated.first {cs : List (List OLit)} {a : Atom → Option Bool} (h : Propagated cs a) {l m : OLit} (k : [l, m] ∈ cs) (hm : a m.2 = some (!m.1)) : a l.2 = some l.1 :=
  h _ k [] l [m] rfl (by simpa using hm)

theorem Propagated.second {cs : List (List OLit)} {a : Atom → Option Bool} (h : Propagated cs a) {l m : OLit} (k : [l, m] ∈ cs) (hl : a l.2 = some (!l.1)) : a m.2 = some m.1 :=
  h _ k [l] m [] rfl (by simpa using hl)

theorem Propagated.unit {cs : List (List OLit)} {a : Atom → Option Bool} (h : Propagated cs a) {l : OLit} (k : [l] ∈ cs) : a l.2 = some l.1 :=
  h _ k [] l [] rfl (by simp)

/-- The next boundary below, where there is one. -/
theorem below {bs : List Int} (hs : Sorted bs) {v u : Int} (hu : u ∈ bs) (h : u < v) : ∃ l, (bs.takeWhile (· < v)).getLast? = some l ∧ u ≤ l := by
  induction bs generalizing u with
  | nil => simp at hu
  | cons z rest ih =>
    obtain ⟨k1, k2⟩ := List.pairwise_cons.1 hs
    have hz : z < v := by
      rcases List.mem_cons.1 hu with rfl | hu
      · exact h
      · have := k1 u hu; omega
    rw [List.takeWhile_cons_of_pos (by simpa using hz)]
    by_cases e : ∃ w ∈ rest, w < v
    · obtain ⟨w, hw, hwv⟩ := e
      by_cases hur : u ∈ rest
      · obtain ⟨l, e1, e2⟩ := ih k2 hur h
        exact ⟨l, by rw [List.getLast?_cons, e1]; rfl, e2⟩
      · obtain ⟨l, e1, e2⟩ := ih k2 hw hwv
        have := k1 w hw
        have : u = z := (List.mem_cons.1 hu).resolve_right hur
        exact ⟨l, by rw [List.getLast?_cons, e1]; rfl, by omega⟩
    · have : rest.takeWhile (· < v) = [] := by
        cases rest with
        | nil => rfl
        | cons y more =>
          rw [List.takeWhile_cons_of_neg]
          simpa using fun hy => e ⟨y, by simp, hy⟩
      rw [this]
      refine ⟨z, rfl, ?_⟩
      rcases List.mem_cons.1 hu with rfl | hu
      · exact Int.le_refl _
      · exact absurd ⟨u, hu, h⟩ e

theorem below_mem {bs : List Int} {v l : Int} (h : (bs.takeWhile (· < v)).getLast? = some l) : l ∈ bs ∧ l < v := by
  have m := List.mem_of_getLast? h
  refine ⟨(List.takeWhile_sublist _).mem m, ?_⟩
  have : ∀ {bs : List Int}, l ∈ bs.takeWhile (· < v) → l < v := by
    intro bs
    induction bs with
    | nil => simp
    | cons z rest ih =>
      intro h
      by_cases hz : z < v
      · rw [List.takeWhile_cons_of_pos (by simpa using hz)] at h
        rcases List.mem_cons.1 h with rfl | h
        · exact hz
        · exact ih h
      · rw [List.takeWhile_cons_of_neg (by simpa using hz)] at h; simp at h
  exact this m

/-- And above. -/
theorem above {bs : List Int} (hs : Sorted bs) {v w : Int} (hw : w ∈ bs) (h : v < w) : ∃ u, (bs.dropWhile (· ≤ v)).head? = some u ∧ u ≤ w := by
  induction bs with
  | nil => simp at hw
  | cons z rest ih =>
    obtain ⟨k1, k2⟩ := List.pairwise_cons.1 hs
    by_cases hz : z ≤ v
    · rw [List.dropWhile_cons_of_pos (by simpa using hz)]
      refine ih k2 ?_
      rcases List.mem_cons.1 hw with rfl | hw
      · omega
      · exact hw
    · rw [List.dropWhile_cons_of_neg (by simpa using hz)]
      refine ⟨z, rfl, ?_⟩
      rcases List.mem_cons.1 hw with rfl | hw
      · exact Int.le_refl _
      · have := k1 w hw; omega

theorem above_mem {bs : List Int} {v u : Int} (h : (bs.dropWhile (· ≤ v)).head? = some u) : u ∈ bs ∧ v < u := by
  induction bs with
  | nil => simp at h
  | cons z rest ih =>
    by_cases hz : z ≤ v
    · rw [List.dropWhile_cons_of_pos (by simpa using hz)] at h
      exact ⟨List.mem_cons_of_mem _ (ih h).1, (ih h).2⟩
    · rw [List.dropWhile_cons_of_neg (by simpa using hz)] at h
      simp at h; subst h; exact ⟨by simp, by omega⟩

/-- What is true of order literals and definitions. -/
structure Ordered (lb ub : Int) (st : OSt) : Prop where
  sorted : Sorted st.ges
  nodup : st.ivls.Nodup
  holds : ∀ c ∈ st.lines, ∀ x, lb ≤ x → x ≤ ub → HoldsAt x c
  up : ∀ a, Propagated st.lines a → ∀ u ∈ st.ges, ∀ w ∈ st.ges, u ≤ w → a (.ge u) = some false → a (.ge w) = some false
  down : ∀ a, Propagated st.lines a → ∀ u ∈ st.ges, ∀ w ∈ st.ges, u ≤ w → a (.ge w) = some true → a (.ge u) = some true
  low : ∀ a, Propagated st.lines a → ∀ v ∈ st.ges, v ≤ lb → a (.ge v) = some true
  high : ∀ a, Propagated st.lines a → ∀ v ∈ st.ges, ub < v → a (.ge v) = some false
  ends : ∀ i ∈ st.ivls, i.1 ∈ st.ges ∧ i.2 + 1 ∈ st.ges
  defs : ∀ i ∈ st.ivls, [(false, Atom.ivl i), (true, Atom.ge i.1)] ∈ st.lines ∧ [(false, Atom.ivl i), (false, Atom.ge (i.2 + 1))] ∈ st.lines ∧
    [(true, Atom.ivl i), (false, Atom.ge i.1), (true, Atom.ge (i.2 + 1))] ∈ st.lines

theorem needGe_ok {lb ub : Int} {st : OSt} (h : Ordered lb ub st) (v : Int) :
    Ordered lb ub (needGe lb ub v st) ∧ v ∈ (needGe lb ub v st).ges ∧ (∀ z ∈ st.ges, z ∈ (needGe lb ub v st).ges) ∧ (needGe lb ub v st).ivls = st.ivls ∧
      ∀ c ∈ st.lines, c ∈ (needGe lb ub v st).lines := by
  unfold needGe
  split
  · rename_i m; exact ⟨h, m, fun _ k => k, rfl, fun _ k => k⟩
  rename_i m
  dsimp only
  generalize hp : (if lb ≥ v then [[(true, Atom.ge v)]] else []) ++ (if ub < v then [[(false, Atom.ge v)]] else []) = pins
  generalize hh : fromHigher v (insertCut v st.ges) = higher
  generalize hl : toLower v (insertCut v st.ges) = lower
  unfold fromHigher at hh
  unfold toLower at hl
  have ss := sorted_insertCut (p := v) h.sorted
  have sub : ∀ c ∈ st.lines, c ∈ st.lines ++ (pins ++ higher ++ lower) := fun c k => List.mem_append_left _ k
  -- the neighbours
  have lo : ∀ a, Propagated (st.lines ++ (pins ++ higher ++ lower)) a → ∀ u ∈ st.ges, u < v → ∃ l ∈ st.ges, u ≤ l ∧
      (a (.ge v) = some true → a (.ge l) = some true) ∧ (a (.ge l) = some false → a (.ge v) = some false) := by
    intro a ha u hu huv
    obtain ⟨l, e, k⟩ := below ss (mem_insertCut.2 (.inr hu)) huv
    have ml := below_mem e
    rw [e] at hl
    have line : [(true, Atom.ge l), (false, Atom.ge v)] ∈ st.lines ++ (pins ++ higher ++ lower) := by rw [← hl]; simp
    refine ⟨l, (mem_insertCut.1 ml.1).resolve_left (by omega), k, fun t => ?_, fun t => ?_⟩
    · exact ha.first line (by simpa using t)
    · exact ha.second line (by simpa using t)
  have hi : ∀ a, Propagated (st.lines ++ (pins ++ higher ++ lower)) a → ∀ w ∈ st.ges, v < w → ∃ l ∈ st.ges, l ≤ w ∧
      (a (.ge l) = some true → a (.ge v) = some true) ∧ (a (.ge v) = some false → a (.ge l) = some false) := by
    intro a ha w hw hvw
    obtain ⟨l, e, k⟩ := above ss (mem_insertCut.2 (.inr hw)) hvw
    have ml := above_mem e
    rw [e] at hh
    have line : [(true, Atom.ge v), (false, Atom.ge l)] ∈ st.lines ++ (pins ++ higher ++ lower) := by rw [← hh]; simp
    refine ⟨l, (mem_insertCut.1 ml.1).resolve_left (by omega), k, fun t => ?_, fun t => ?_⟩
    · exact ha.first line (by simpa using t)
    · exact ha.second line (by simpa using t)
  refine ⟨⟨ss, h.nodup, ?_, ?_, ?_, ?_, ?_, fun i k => ?_, fun i k => ?_⟩, mem_insertCut.2 (.inl rfl), fun z k => mem_insertCut.2 (.inr k), rfl, sub⟩
  · intro c hc x h1 h2
    rcases List.mem_append.1 hc with k | k
    · exact h.holds c k x h1 h2
    · rcases List.mem_append.1 k with k | k
      · rcases List.mem_append.1 k with k | k
        · rw [← hp] at k
          rcases List.mem_append.1 k with k | k <;> split at k <;> simp at k <;> subst k
          · exact ⟨_, List.mem_cons_self, by simp [Atom.Holds]; omega⟩
          · exact ⟨_, List.mem_cons_self, by simp [Atom.Holds]; omega⟩
        · rw [← hh] at k
          split at k <;> simp at k
          rename_i u e
          subst k
          have := (above_mem e).2
          by_cases q : v ≤ x
          · exact ⟨_, List.mem_cons_self, by simpa [Atom.Holds] using q⟩
          · exact ⟨_, List.mem_cons_of_mem _ List.mem_cons_self, by simp [Atom.Holds]; omega⟩
      · rw [← hl] at k
        split at k <;> simp at k
        rename_i u e
        subst k
        have := (below_mem e).2
        by_cases q : u ≤ x
        · exact ⟨_, List.mem_cons_self, by simpa [Atom.Holds] using q⟩
        · exact ⟨_, List.mem_cons_of_mem _ List.mem_cons_self, by simp [Atom.Holds]; omega⟩
  · intro a ha u hu w hw huw hf
    have ha' := ha.mono sub
    rcases mem_insertCut.1 hu with rfl | hu'
    · rcases mem_insertCut.1 hw with rfl | hw'
      · exact hf
      · by_cases e : u = w
        · rw [← e]; exact hf
        obtain ⟨l, ml, k, _, k'⟩ := hi a ha w hw' (by omega)
        exact h.up a ha' l ml w hw' k (k' hf)
    · rcases mem_insertCut.1 hw with rfl | hw'
      · by_cases e : u = w
        · rw [← e]; exact hf
        obtain ⟨l, ml, k, _, k'⟩ := lo a ha u hu' (by omega)
        exact k' (h.up a ha' u hu' l ml k hf)
      · exact h.up a ha' u hu' w hw' huw hf
  · intro a ha u hu w hw huw hf
    have ha' := ha.mono sub
    rcases mem_insertCut.1 hu with rfl | hu'
    · rcases mem_insertCut.1 hw with rfl | hw'
      · exact hf
      · by_cases e : u = w
        · rw [e]; exact hf
        obtain ⟨l, ml, k, k', _⟩ := hi a ha w hw' (by omega)
        exact k' (h.down a ha' l ml w hw' k hf)
    · rcases mem_insertCut.1 hw with rfl | hw'
      · by_cases e : u = w
        · rw [e]; exact hf
        obtain ⟨l, ml, k, k', _⟩ := lo a ha u hu' (by omega)
        exact h.down a ha' u hu' l ml k (k' hf)
      · exact h.down a ha' u hu' w hw' huw hf
  · intro a ha z hz hzl
    rcases mem_insertCut.1 hz with rfl | hz
    · refine ha.unit (l := (true, Atom.ge z)) ?_
      rw [← hp, if_pos hzl]; simp
    · exact h.low a (ha.mono sub) z hz hzl
  · intro a ha z hz hzl
    rcases mem_insertCut.1 hz with rfl | hz
    · refine ha.unit (l := (false, Atom.ge z)) ?_
      rw [← hp, if_pos hzl]; simp
    · exact h.high a (ha.mono sub) z hz hzl
  · have := h.ends i k
    exact ⟨mem_insertCut.2 (.inr this.1), mem_insertCut.2 (.inr this.2)⟩
  · have := h.defs i k
    exact ⟨sub _ this.1, sub _ this.2.1, sub _ this.2.2⟩

theorem needAtom_ok {lb ub : Int} {st : OSt} (h : Ordered lb ub st) (a : Atom) :
    Ordered lb ub (needAtom lb ub a st) ∧ (∀ i ∈ st.ivls, i ∈ (needAtom lb ub a st).ivls) ∧ (∀ v ∈ st.ges, v ∈ (needAtom lb ub a st).ges) ∧
      (∀ i, a = .ivl i → i ∈ (needAtom lb ub a st).ivls) ∧ ∀ v, a = .ge v → v ∈ (needAtom lb ub a st).ges := by
  cases a with
  | ge v =>
    obtain ⟨k1, k2, k3, k4, _⟩ := needGe_ok h v
    exact ⟨k1, fun i hi => by unfold needAtom; rw [k4]; exact hi, k3, fun i e => by simp at e, fun w e => by cases e; exact k2⟩
  | ivl i =>
    unfold needAtom
    by_cases mem : i ∈ st.ivls
    · simp only [mem, if_true]
      exact ⟨h, fun _ k => k, fun _ k => k, fun j e => by cases e; exact mem, fun v e => by simp at e⟩
    simp only [mem, if_false]
    obtain ⟨k1, k2, k3, k4, k5⟩ := needGe_ok h i.1
    obtain ⟨q1, q2, q3, q4, q5⟩ := needGe_ok k1 (i.2 + 1)
    unfold defineIvl
    dsimp only
    generalize needGe lb ub (i.2 + 1) (needGe lb ub i.1 st) = s at *
    rw [k4] at q4
    refine ⟨⟨q1.sorted, ?_, ?_, fun a ha => q1.up a (ha.mono fun _ k => List.mem_append_left _ k), fun a ha => q1.down a (ha.mono fun _ k => List.mem_append_left _ k),
      fun a ha => q1.low a (ha.mono fun _ k => List.mem_append_left _ k), fun a ha => q1.high a (ha.mono fun _ k => List.mem_append_left _ k), ?_, ?_⟩,
      fun j k => List.mem_append_left _ (by rw [q4]; exact k), fun v k => q3 v (k3 v k), fun j e => by cases e; simp, fun v e => by simp at e⟩
    · rw [q4]
      refine List.nodup_append.2 ⟨h.nodup, by simp, ?_⟩
      intro x hx y hy; simp at hy; subst hy; rintro rfl; exact mem hx
    · intro c hc x h1 h2
      rcases List.mem_append.1 hc with k | k
      · exact q1.holds c k x h1 h2
      · simp only [List.mem_cons, List.not_mem_nil, or_false] at k
        by_cases a1 : i.1 ≤ x
        · by_cases a2 : x ≤ i.2
          · rcases k with rfl | rfl | rfl
            · exact ⟨(true, .ge i.1), by simp, by simpa [Atom.Holds] using a1⟩
            · exact ⟨(false, .ge (i.2 + 1)), by simp, by simp [Atom.Holds]; omega⟩
            · exact ⟨(true, .ivl i), by simp, by simp [Atom.Holds, a1, a2]⟩
          · rcases k with rfl | rfl | rfl
            · exact ⟨(false, .ivl i), by simp, by simp [Atom.Holds]; omega⟩
            · exact ⟨(false, .ivl i), by simp, by simp [Atom.Holds]; omega⟩
            · exact ⟨(true, .ge (i.2 + 1)), by simp, by simp [Atom.Holds]; omega⟩
        · rcases k with rfl | rfl | rfl
          · exact ⟨(false, .ivl i), by simp, by simp [Atom.Holds]; omega⟩
          · exact ⟨(false, .ivl i), by simp, by simp [Atom.Holds]; omega⟩
          · exact ⟨(false, .ge i.1), by simp, by simp [Atom.Holds]; omega⟩
    · intro j hj
      rcases List.mem_append.1 hj with k | k
      · exact q1.ends j k
      · simp at k; subst k; exact ⟨q3 _ k2, q2⟩
    · intro j hj
      rcases List.mem_append.1 hj with k | k
      · have := q1.defs j k
        exact ⟨List.mem_append_left _ this.1, List.mem_append_left _ this.2.1, List.mem_append_left _ this.2.2⟩
      · simp at k; subst k
        exact ⟨List.mem_append_right _ (by simp), List.mem_append_right _ (by simp), List.mem_append_right _ (by simp)⟩

theorem needAtoms_ok {lb ub : Int} (as : List Atom) : Ordered lb ub (needAtoms lb ub as) ∧ (∀ i, .ivl i ∈ as → i ∈ (needAtoms lb ub as).ivls) ∧
    ∀ v, .ge v ∈ as → v ∈ (needAtoms lb ub as).ges := by
  have : ∀ (as : List Atom) (st : OSt), Ordered lb ub st → Ordered lb ub (as.foldl (fun st a => needAtom lb ub a st) st) ∧
      (∀ i, i ∈ st.ivls ∨ .ivl i ∈ as → i ∈ (as.foldl (fun st a => needAtom lb ub a st) st).ivls) ∧
      ∀ v, v ∈ st.ges ∨ .ge v ∈ as → v ∈ (as.foldl (fun st a => needAtom lb ub a st) st).ges := by
    intro as
    induction as with
    | nil => intro st h; exact ⟨h, fun i k => by simpa using k, fun i k => by simpa using k⟩
    | cons a as ih =>
      intro st h
      obtain ⟨k1, k2, k3, k4, k5⟩ := needAtom_ok h a
      obtain ⟨q1, q2, q3⟩ := ih _ k1
      refine ⟨q1, fun i k => q2 i ?_, fun v k => q3 v ?_⟩
      · rcases k with k | k
        · exact .inl (k2 i k)
        · rcases List.mem_cons.1 k with k | k
          · exact .inl (k4 i k.symm)
          · exact .inr k
      · rcases k with k | k
        · exact .inl (k3 v k)
        · rcases List.mem_cons.1 k with k | k
          · exact .inl (k5 v k.symm)
          · exact .inr k
  have h0 : Ordered lb ub {} := ⟨List.Pairwise.nil, by simp, by simp, by simp, by simp, by simp, by simp, by simp, by simp⟩
  obtain ⟨k1, k2, k3⟩ := this as {} h0
  exact ⟨k1, fun i k => k2 i (.inr k), fun v k => k3 v (.inr k)⟩

/-- The greatest value the variable is known to reach, or the lower bound. -/
theorem greatest (lb : Int) (a : Atom → Option Bool) : ∀ ges : List Int, ∃ x, lb ≤ x ∧ (x = lb ∨ (x ∈ ges ∧ a (.ge x) = some true)) ∧ ∀ v ∈ ges, a (.ge v) = some true → v ≤ x
  | [] => ⟨lb, Int.le_refl _, .inl rfl, by simp⟩
  | z :: ges => by
    obtain ⟨x, h1, h2, h3⟩ := greatest lb a ges
    by_cases k : a (.ge z) = some true ∧ x < z
    · refine ⟨z, by omega, .inr ⟨by simp, k.1⟩, fun v hv t => ?_⟩
      rcases List.mem_cons.1 hv with rfl | hv
      · exact Int.le_refl _
      · have := h3 v hv t; omega
    · refine ⟨x, h1, ?_, fun v hv t => ?_⟩
      · rcases h2 with h2 | h2
        · exact .inl h2
        · exact .inr ⟨List.mem_cons_of_mem _ h2.1, h2.2⟩
      · rcases List.mem_cons.1 hv with rfl | hv
        · apply Decidable.byContradiction; intro q; exact k ⟨t, by omega⟩
        · exact h3 v hv t

theorem rup_of_true {lb ub : Int} (hb : lb ≤ ub) {st : OSt} (h : Ordered lb ub st) {c : List OLit}
    (hc : ∀ l ∈ c, (∀ i, l.2 = .ivl i → i ∈ st.ivls) ∧ ∀ v, l.2 = .ge v → v ∈ st.ges) (ht : ∀ x, lb ≤ x → x ≤ ub → HoldsAt x c) : Rup st.lines c := by
  intro a ha all
  obtain ⟨x, h1, h2, h3⟩ := greatest lb a st.ges
  have hxu : x ≤ ub := by
    rcases h2 with h2 | ⟨m, t⟩
    · omega
    · apply Decidable.byContradiction; intro q
      have := h.high a ha x m (by omega)
      rw [this] at t; simp at t
  -- what is known to be false is above
  have hf : ∀ v ∈ st.ges, a (.ge v) = some false → x < v := by
    intro v hv f
    apply Decidable.byContradiction; intro q
    rcases h2 with h2 | ⟨m, t⟩
    · have := h.low a ha v hv (by omega); rw [f] at this; simp at this
    · have := h.up a ha v hv x m (by omega) f; rw [t] at this; simp at this
  have htr : ∀ v ∈ st.ges, v ≤ x → a (.ge v) = some true := by
    intro v hv q
    rcases h2 with h2 | ⟨m, t⟩
    · exact h.low a ha v hv (by omega)
    · exact h.down a ha v hv x m q t
  obtain ⟨l, hl, hol⟩ := ht x h1 hxu
  have out := all l hl
  have kc := hc l hl
  obtain ⟨pos, atom⟩ := l
  cases atom with
  | ge v =>
    have hv := kc.2 v rfl
    cases pos with
    | true =>
      have := hf v hv (by simpa using out)
      simp [Atom.Holds] at hol; omega
    | false =>
      have := h3 v hv (by simpa using out)
      simp [Atom.Holds] at hol; omega
  | ivl i =>
    have hi := kc.1 i rfl
    have e := h.ends i hi
    obtain ⟨d1, d2, d3⟩ := h.defs i hi
    cases pos with
    | true =>
      simp [Atom.Holds] at hol
      have f : a (.ivl i) = some false := by simpa using out
      have t := htr _ e.1 hol.1
      have := ha _ d3 [(true, Atom.ivl i), (false, Atom.ge i.1)] (true, Atom.ge (i.2 + 1)) [] rfl (by
        intro m hm; simp at hm; rcases hm with rfl | rfl
        · simpa using f
        · simpa using t)
      have := h3 _ e.2 this
      omega
    | false =>
      have t : a (.ivl i) = some true := by simpa using out
      have a1 := ha.second d1 (by simpa using t)
      have a2 := ha.second d2 (by simpa using t)
      have b1 := h3 _ e.1 a1
      have b2 := hf _ e.2 a2
      simp [Atom.Holds] at hol; omega

end Gcs.Ranges
