import Verif.Lemmas.Cons.RegexNfa

/-!
# The reference matcher
-/

namespace Gcs.Regex
open IntervalSet

theorem mem_merge {x : Nat} : ∀ {xs ys : List Nat}, x ∈ merge xs ys ↔ x ∈ xs ∨ x ∈ ys
  | [], ys => by simp [merge]
  | z :: xs, ys => by
    have := mem_merge (x := x) (xs := xs) (ys := setInsert z ys)
    unfold merge at this ⊢
    rw [List.foldl_cons, this, mem_setInsert, List.mem_cons]
    constructor
    · rintro (h | h | h)
      · exact .inl (.inr h)
      · exact .inl (.inl h)
      · exact .inr h
    · rintro ((h | h) | h)
      · exact .inr (.inl h)
      · exact .inl h
      · exact .inr (.inr h)

/-- A word of the language is in `w` from `i` to `j`. -/
def Seg (L : List Int → Prop) (w : List Int) (i j : Nat) : Prop := ∃ u, L u ∧ u <+: w.drop i ∧ j = i + u.length

theorem Seg.le {L : List Int → Prop} {w : List Int} {i j : Nat} (h : Seg L w i j) (hi : i ≤ w.length) : j ≤ w.length := by
  obtain ⟨u, _, h, rfl⟩ := h
  have := h.length_le
  rw [List.length_drop] at this
  omega

theorem prefix_append {w u v : List Int} {i : Nat} : u ++ v <+: w.drop i ↔ u <+: w.drop i ∧ v <+: w.drop (i + u.length) := by
  constructor
  · rintro ⟨r, h⟩
    refine ⟨⟨v ++ r, by rw [← h]; simp⟩, ⟨r, ?_⟩⟩
    rw [← List.drop_drop, ← h]
    simp
  · rintro ⟨⟨r, h⟩, ⟨r', h'⟩⟩
    refine ⟨r', ?_⟩
    rw [← List.drop_drop, ← h, List.drop_left] at h'
    rw [← h, ← h', List.append_assoc]

theorem concatLoop_spec {step : Nat → Chk (List Nat)} {next : Nat → List Nat} : ∀ (mids ends : List Nat), (∀ i ∈ mids, step i = .ok (next i)) →
    ∃ r, concatLoop step mids ends = .ok r ∧ ∀ j, j ∈ r ↔ j ∈ ends ∨ ∃ i ∈ mids, j ∈ next i
  | [], ends, _ => ⟨ends, rfl, fun j => by simp⟩
  | i :: mids, ends, h => by
    rw [concatLoop, h i (.head _), Knapsack.chk_ok_bind]
    obtain ⟨r, h1, h2⟩ := concatLoop_spec mids (merge (next i) ends) fun k hk => h k (.tail _ hk)
    refine ⟨r, h1, fun j => ?_⟩
    rw [h2, mem_merge]
    constructor
    · rintro ((h | h) | ⟨k, hk, h⟩)
      · exact .inr ⟨i, .head _, h⟩
      · exact .inl h
      · exact .inr ⟨k, .tail _ hk, h⟩
    · rintro (h' | ⟨k, hk, h'⟩)
      · exact .inl (.inr h')
      · rcases List.mem_cons.1 hk with rfl | hk
        · exact .inl (.inl h')
        · exact .inr ⟨k, hk, h'⟩

theorem times_snoc {L : List Int → Prop} {u v : List Int} {k : Nat} (h : Times L k u) (hv : L v) : Times L (k + 1) (u ++ v) :=
  h.append (n := 1) ⟨v, [], by simp, hv, rfl⟩

theorem steps_seg {L : List Int → Prop} {w : List Int} {next : Nat → List Nat} (hnext : ∀ i, i ≤ w.length → ∀ j, j ∈ next i ↔ Seg L w i j) {i : Nat} (hi : i ≤ w.length) (j : Nat) :
    Steps next i j ↔ Seg (fun u => ∃ k, Times L k u) w i j := by
  constructor
  · intro h
    induction h with
    | refl => exact ⟨[], ⟨0, rfl⟩, List.nil_prefix, rfl⟩
    | @snoc p r _ h ih =>
      obtain ⟨u, ⟨k, hu⟩, hp, rfl⟩ := ih
      have hle : i + u.length ≤ w.length := (show Seg (fun u => ∃ k, Times L k u) w i (i + u.length) from ⟨u, ⟨k, hu⟩, hp, rfl⟩).le hi
      obtain ⟨v, hv, hp', rfl⟩ := (hnext _ hle r).1 h
      exact ⟨u ++ v, ⟨k + 1, times_snoc hu hv⟩, prefix_append.2 ⟨hp, hp'⟩, by simp; omega⟩
  · have : ∀ (k : Nat) (u : List Int) (p : Nat), p ≤ w.length → Steps next i p → Times L k u → u <+: w.drop p → Steps next i (p + u.length) := by
      intro k
      induction k with
      | zero => intro u p _ h hu _; cases (show u = [] from hu); exact h
      | succ k ih =>
        rintro u p hpl h ⟨x, y, rfl, hx, hy⟩ hp
        obtain ⟨h1, h2⟩ := prefix_append.1 hp
        have hseg : Seg L w p (p + x.length) := ⟨x, hx, h1, rfl⟩
        have := ih y (p + x.length) (hseg.le hpl) (.snoc h ((hnext p hpl _).2 hseg)) hy h2
        rwa [List.length_append, ← Nat.add_assoc]
    rintro ⟨u, ⟨k, hu⟩, hp, rfl⟩
    exact this k u i hi .refl hu hp

/-- The ends that are found are those of the words in the language. -/
theorem matchEnds_spec : ∀ (c : Core) (w : List Int) (i : Nat), i ≤ w.length → ∃ r, matchEnds c w i = .ok r ∧ ∀ j, j ∈ r ↔ Seg (Lang c) w i j
  | .empty, w, i, _ => ⟨[i], rfl, fun j => by
    rw [List.mem_singleton]
    exact ⟨fun h => ⟨[], rfl, List.nil_prefix, h⟩, fun ⟨u, hu, _, h⟩ => by cases (show u = [] from hu); exact h⟩⟩
  | .symbols xs, w, i, _ => by
    refine ⟨_, rfl, fun j => ?_⟩
    constructor
    · intro h
      split at h
      · rename_i x hx
        split at h
        · rename_i hm
          cases List.mem_singleton.1 h
          obtain ⟨hl, he⟩ := List.getElem?_eq_some_iff.1 hx
          exact ⟨[x], ⟨x, rfl, hm⟩, ⟨w.drop (i + 1), by rw [List.drop_eq_getElem_cons hl, he]; rfl⟩, rfl⟩
        · cases h
      · cases h
    · rintro ⟨u, ⟨x, rfl, hm⟩, ⟨r, hr⟩, rfl⟩
      have : w[i]? = some x := by
        have := congrArg (·[0]?) hr
        simpa using this.symm
      rw [this]
      simp [hm]
  | .concat a b, w, i, hi => by
    obtain ⟨mids, h1, h2⟩ := matchEnds_spec a w i hi
    have hb := matchEnds_spec b w
    rw [matchEnds, h1, Knapsack.chk_ok_bind]
    have hmid : ∀ k ∈ mids, matchEnds b w k = .ok ((matchEnds b w k).toOption.getD []) := fun k hk => by
      obtain ⟨r, hr, _⟩ := hb k (((h2 k).1 hk).le hi)
      rw [hr]; rfl
    obtain ⟨r, h3, h4⟩ := concatLoop_spec mids [] hmid
    refine ⟨r, h3, fun j => ?_⟩
    rw [h4]
    constructor
    · rintro (h | ⟨k, hk, hj⟩)
      · cases h
      · have hs := (h2 k).1 hk
        obtain ⟨r', hr', hr''⟩ := hb k (hs.le hi)
        rw [hr'] at hj
        obtain ⟨v, hv, hp', rfl⟩ := (hr'' j).1 hj
        obtain ⟨u, hu, hp, rfl⟩ := hs
        exact ⟨u ++ v, ⟨u, v, rfl, hu, hv⟩, prefix_append.2 ⟨hp, hp'⟩, by simp; omega⟩
    · rintro ⟨_, ⟨u, v, rfl, hu, hv⟩, hp, rfl⟩
      obtain ⟨hp1, hp2⟩ := prefix_append.1 hp
      have hs : Seg (Lang a) w i (i + u.length) := ⟨u, hu, hp1, rfl⟩
      obtain ⟨r', hr', hr''⟩ := hb _ (hs.le hi)
      refine .inr ⟨i + u.length, (h2 _).2 hs, ?_⟩
      rw [hr']
      exact (hr'' _).2 ⟨v, hv, hp2, by simp; omega⟩
  | .union a b, w, i, hi => by
    obtain ⟨xs, h1, h2⟩ := matchEnds_spec a w i hi
    obtain ⟨ys, h3, h4⟩ := matchEnds_spec b w i hi
    rw [matchEnds, h1, Knapsack.chk_ok_bind, h3, Knapsack.chk_ok_bind]
    refine ⟨_, rfl, fun j => ?_⟩
    rw [mem_merge, h2, h4]
    constructor
    · rintro (⟨u, hu, h⟩ | ⟨u, hu, h⟩)
      · exact ⟨u, .inr hu, h⟩
      · exact ⟨u, .inl hu, h⟩
    · rintro ⟨u, hu | hu, h⟩
      · exact .inr ⟨u, hu, h⟩
      · exact .inl ⟨u, hu, h⟩
  | .star a, w, i, hi => by
    have ha := matchEnds_spec a w
    rw [matchEnds]
    have hstep : ∀ x, x < w.length + 1 → matchEnds a w x = .ok ((matchEnds a w x).toOption.getD []) := fun x hx => by
      obtain ⟨r, hr, _⟩ := ha x (by omega)
      rw [hr]; rfl
    have hnext : ∀ x, x ≤ w.length → ∀ j, j ∈ (matchEnds a w x).toOption.getD [] ↔ Seg (Lang a) w x j := fun x hx j => by
      obtain ⟨r, hr, hr'⟩ := ha x hx
      rw [hr]; exact hr' j
    obtain ⟨r, h1, h2⟩ := starLoop_right (N := w.length + 1) (f := w.length + 1) (q := i) hstep (fun x hx y hy => by
      have := ((hnext x (by omega) y).1 hy).le (by omega)
      omega) (by omega) (Nat.le_refl _)
    exact ⟨r, h1, fun j => (h2 j).trans (steps_seg hnext hi j)⟩

theorem matchEnds_whole (c : Core) (w : List Int) : ∃ r, matchEnds c w 0 = .ok r ∧ (w.length ∈ r ↔ Lang c w) := by
  obtain ⟨r, h1, h2⟩ := matchEnds_spec c w 0 (Nat.zero_le _)
  refine ⟨r, h1, ?_⟩
  rw [h2]
  constructor
  · rintro ⟨u, hu, hp, hl⟩
    rw [List.drop_zero] at hp
    have := hp.eq_of_length (by omega)
    rwa [← this]
  · exact fun h => ⟨w, h, by simp, by simp⟩

end Gcs.Regex
