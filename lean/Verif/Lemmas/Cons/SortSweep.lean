import Verif.Lemmas.Cons.Matching
import Verif.Model.Cons.Sort

/-!
# Matching intervals, from one end to the other

A number of items are each to be put in one of as many positions, no earlier than `lo` and before `hi`.
-/

namespace Gcs.Sort
open Gac

variable {n : Nat} {lo hi : Nat → Nat}

/-- All items in positions of their own, where they may be. -/
structure Places (n : Nat) (lo hi p : Nat → Nat) : Prop where
  fits : ∀ i < n, lo i ≤ p i ∧ p i < hi i
  apart : ∀ i < n, ∀ k < n, p i = p k → i = k

theorem mem_inside {a c i : Nat} : i ∈ inside n lo hi a c ↔ i < n ∧ a ≤ lo i ∧ hi i ≤ c := by simp [inside]

theorem nodup_inside {a c : Nat} : (inside n lo hi a c).Nodup := List.nodup_range.sublist List.filter_sublist

/-- There are no more items that have to be in a stretch than it has positions. -/
theorem Places.few {p : Nat → Nat} (h : Places n lo hi p) (a c : Nat) : (inside n lo hi a c).length ≤ c - a := by
  have h1 : ((inside n lo hi a c).map p).length ≤ (List.range' a (c - a)).length := by
    refine length_le_of_subset _ _ ?_ fun y hy => ?_
    · exact List.pairwise_map.2 (nodup_inside.imp_of_mem fun {i k} hi' hk hne e => hne (h.apart i (mem_inside.1 hi').1 k (mem_inside.1 hk).1 e))
    · obtain ⟨i, hi', rfl⟩ := List.mem_map.1 hy
      obtain ⟨hl, h1, h2⟩ := mem_inside.1 hi'
      have := h.fits i hl
      rw [List.mem_range'_1]
      omega
  simpa using h1

theorem findBand_some {S : List Nat} (h : findBand n lo hi = some S) : ∃ a c, a ≤ c ∧ c ≤ n ∧ S = inside n lo hi a c ∧ c - a < S.length := by
  obtain ⟨a, _, h⟩ := List.exists_of_findSome?_eq_some h
  obtain ⟨c, hc, h⟩ := List.exists_of_findSome?_eq_some h
  split at h
  · rename_i hlt
    cases h
    rw [List.mem_range'_1] at hc
    exact ⟨a, c, hc.1, by omega, rfl, hlt⟩
  · cases h

theorem findBand_isSome {a c : Nat} (h1 : a ≤ c) (h2 : c ≤ n) (h : c - a < (inside n lo hi a c).length) : (findBand n lo hi).isSome = true := by
  rw [findBand, List.findSome?_isSome_iff]
  refine ⟨a, List.mem_range.2 (by omega), ?_⟩
  rw [List.findSome?_isSome_iff]
  exact ⟨c, by rw [List.mem_range'_1]; omega, by rw [if_pos h]; rfl⟩

theorem Places.no_band {p : Nat → Nat} (h : Places n lo hi p) : findBand n lo hi = none := by
  cases e : findBand n lo hi with
  | none => rfl
  | some S =>
    obtain ⟨a, c, _, _, rfl, hl⟩ := findBand_some e
    have := h.few a c
    omega

/-! ## The sweep -/

variable {key : Nat → Int} {before : Nat → Nat → Bool}

theorem foldl_top (h1 : ∀ a b, before a b = true → key a ≤ key b) (h2 : ∀ a b, before a b = false → key b ≤ key a) : ∀ (is : List Nat) (i : Nat),
    (is.foldl (fun t k => if before k t then k else t) i ∈ i :: is) ∧ ∀ b ∈ i :: is, key (is.foldl (fun t k => if before k t then k else t) i) ≤ key b
  | [], i => by simp
  | k :: is, i => by
    have ih := foldl_top h1 h2 is (if before k i then k else i)
    rw [List.foldl_cons]
    have hk : (if before k i then k else i) = k ∧ key k ≤ key i ∨ (if before k i then k else i) = i ∧ key i ≤ key k := by
      cases e : before k i with
      | true => exact .inl ⟨by simp, h1 _ _ e⟩
      | false => exact .inr ⟨by simp, h2 _ _ e⟩
    rcases hk with ⟨hk, hle⟩ | ⟨hk, hle⟩
    all_goals
      rw [hk] at ih ⊢
      refine ⟨?_, fun b hb => ?_⟩
      · have := ih.1
        simp only [List.mem_cons] at this ⊢
        rcases this with h | h
        · first | exact .inl h | exact .inr (.inl h)
        · exact .inr (.inr h)
      · simp only [List.mem_cons] at hb
        rcases hb with rfl | rfl | hb
        · first | exact ih.2 _ List.mem_cons_self | exact Int.le_trans (ih.2 _ (List.mem_cons_self ..)) hle
        · first | exact ih.2 _ List.mem_cons_self | exact Int.le_trans (ih.2 _ (List.mem_cons_self ..)) hle
        · exact ih.2 b (by simp [hb])

theorem top_spec (h1 : ∀ a b, before a b = true → key a ≤ key b) (h2 : ∀ a b, before a b = false → key b ≤ key a) {q : List Nat} {i : Nat} (h : top before q = some i) : i ∈ q ∧ ∀ b ∈ q, key i ≤ key b := by
  cases q with
  | nil => cases h
  | cons k is => cases h; exact foldl_top h1 h2 is k

/-- What was picked, step by step: none before it may be, each the first of those that are there. -/
structure Chain (n : Nat) (lo : Nat → Nat) (key : Nat → Int) (D : List Nat) : Prop where
  nodup : D.Nodup
  lt : ∀ k i, D[k]? = some i → i < n ∧ lo i ≤ k
  first : ∀ k i, D[k]? = some i → ∀ b < n, lo b ≤ k → b ∉ D.take k → key i ≤ key b

theorem Chain.nil : Chain n lo key [] := ⟨.nil, nofun, nofun⟩

theorem Chain.snoc {D : List Nat} (h : Chain n lo key D) {i : Nat} (hi' : i < n) (hD : i ∉ D) (hl : lo i ≤ D.length) (hf : ∀ b < n, lo b ≤ D.length → b ∉ D → key i ≤ key b) : Chain n lo key (D ++ [i]) := by
  have at' : ∀ k j, (D ++ [i])[k]? = some j → D[k]? = some j ∧ k < D.length ∨ k = D.length ∧ j = i := fun k j e => by
    by_cases hk : k < D.length
    · rw [List.getElem?_append_left hk] at e
      exact .inl ⟨e, hk⟩
    · rw [List.getElem?_append_right (Nat.le_of_not_lt hk)] at e
      cases hx : k - D.length with
      | zero =>
        rw [hx] at e
        exact .inr ⟨by omega, by simpa using e.symm⟩
      | succ m => rw [hx] at e; simp at e
  refine ⟨?_, fun k j e => ?_, fun k j e b hb hlb hnb => ?_⟩
  · rw [List.nodup_append]
    exact ⟨h.nodup, by simp, fun a ha b hb => by rw [List.mem_singleton.1 hb]; exact fun e => hD (e ▸ ha)⟩
  · rcases at' k j e with ⟨e, _⟩ | ⟨rfl, rfl⟩
    · exact h.lt k j e
    · exact ⟨hi', hl⟩
  · rcases at' k j e with ⟨e, hk⟩ | ⟨rfl, rfl⟩
    · rw [List.take_append_of_le_length (Nat.le_of_lt hk)] at hnb
      exact h.first k j e b hb hlb hnb
    · exact hf b hb hlb (by simpa using hnb)

/-- The last stretch of steps that all picked something no later than this. -/
theorem stretch {P : Nat → Prop} : ∀ j, P j → ∃ a, a ≤ j ∧ (∀ k, a ≤ k → k ≤ j → P k) ∧ (a = 0 ∨ ¬ P (a - 1))
  | 0, h => ⟨0, Nat.le_refl _, fun k _ h2 => (Nat.le_zero.1 h2) ▸ h, .inl rfl⟩
  | j + 1, h => by
    by_cases hp : P j
    · obtain ⟨a, h1, h2, h3⟩ := stretch j hp
      refine ⟨a, by omega, fun k hk hj => ?_, h3⟩
      rcases Nat.lt_or_ge j k with hlt | hge
      · exact (by omega : k = j + 1) ▸ h
      · exact h2 k hk hge
    · exact ⟨j + 1, Nat.le_refl _, fun k hk hj => (by omega : k = j + 1) ▸ h, .inr hp⟩

theorem Chain.band {D : List Nat} (h : Chain n lo key D) {j i : Nat} (hj : D[j]? = some i) : ∃ a, a ≤ j ∧ ∀ k b, a ≤ k → k ≤ j → D[k]? = some b → a ≤ lo b ∧ key b ≤ key i := by
  obtain ⟨a, h1, h2, h3⟩ := stretch (P := fun k => ∀ b, D[k]? = some b → key b ≤ key i) j (fun b hb => by rw [hj] at hb; cases hb; exact Int.le_refl _)
  refine ⟨a, h1, fun k b hk hkj hb => ⟨?_, h2 k hk hkj b hb⟩⟩
  rcases h3 with rfl | h3
  · exact Nat.zero_le _
  rcases Nat.lt_or_ge (lo b) a with hlt | hge
  · exfalso
    refine h3 fun c hc => ?_
    refine Int.le_trans (h.first (a - 1) c hc b (h.lt k b hb).1 (by omega) fun hm => ?_) (h2 k hk hkj b hb)
    obtain ⟨m, hm, e⟩ := List.getElem_of_mem hm
    rw [List.getElem_take] at e
    rw [List.length_take] at hm
    have hk' := (List.getElem?_eq_some_iff.1 hb)
    obtain ⟨hkl, e'⟩ := hk'
    have := (List.getElem_inj (h₀ := by omega) (h₁ := hkl) h.nodup).1 (e.trans e'.symm)
    omega
  · exact hge

/-- That many different items at these steps. -/
theorem steps_le {D S : List Nat} (hn : D.Nodup) {a j : Nat} (ha : a ≤ j) (hj : j < D.length) (hS : ∀ k b, a ≤ k → k ≤ j → D[k]? = some b → b ∈ S) : j + 1 - a ≤ S.length := by
  have h := length_le_of_subset ((D.drop a).take (j + 1 - a)) S (hn.sublist ((List.take_sublist _ _).trans (List.drop_sublist _ _))) fun b hb => by
    obtain ⟨k, hk, e⟩ := List.getElem_of_mem hb
    rw [List.length_take, List.length_drop] at hk
    rw [List.getElem_take, List.getElem_drop] at e
    exact hS (a + k) b (by omega) (by omega) (by rw [← e]; exact List.getElem?_eq_getElem _)
  rw [List.length_take, List.length_drop] at h
  omega

/-- What makes the sweep stop: nothing is there, or the first of what is there is too late. -/
structure Stuck (n : Nat) (lo hi : Nat → Nat) (key : Nat → Int) (D : List Nat) : Prop where
  chain : Chain n lo key D
  lt : D.length < n
  stop : (∀ i < n, lo i ≤ D.length → i ∈ D) ∨ ∃ i < n, i ∉ D ∧ lo i ≤ D.length ∧ hi i ≤ D.length ∧ ∀ b < n, lo b ≤ D.length → b ∉ D → key i ≤ key b

theorem Stuck.band {D : List Nat} (h : Stuck n lo hi key D) (hkey : ∀ a b, key a ≤ key b → hi a ≤ hi b) (hh : ∀ i < n, hi i ≤ n) : ∃ a c, a ≤ c ∧ c ≤ n ∧ c - a < (inside n lo hi a c).length := by
  rcases h.stop with hs | ⟨i, hi', hD, hl, hle, hf⟩
  · refine ⟨D.length + 1, n, h.lt, Nat.le_refl _, ?_⟩
    have h1 := length_le_of_subset (List.range n) (D ++ inside n lo hi (D.length + 1) n) List.nodup_range fun i hi' => by
      rw [List.mem_range] at hi'
      rw [List.mem_append, mem_inside]
      by_cases hl : lo i ≤ D.length
      · exact .inl (hs i hi' hl)
      · exact .inr ⟨hi', by omega, hh i hi'⟩
    rw [List.length_range, List.length_append] at h1
    have := h.lt
    omega
  · have hc := h.chain.snoc hi' hD hl hf
    have hj : (D ++ [i])[D.length]? = some i := by simp
    obtain ⟨a, ha, hb⟩ := hc.band hj
    refine ⟨a, D.length, ha, Nat.le_of_lt h.lt, ?_⟩
    have := steps_le (S := inside n lo hi a D.length) hc.nodup ha (by simp) fun k b h1 h2 h3 => by
      obtain ⟨h4, h5⟩ := hb k b h1 h2 h3
      exact mem_inside.2 ⟨(hc.lt k b h3).1, h4, Nat.le_trans (hkey _ _ h5) hle⟩
    omega

variable {enters fits : Nat → Nat → Bool} {pos : Nat → Nat}

theorem sweep_spec (h1 : ∀ a b, before a b = true → key a ≤ key b) (h2 : ∀ a b, before a b = false → key b ≤ key a) (he : ∀ k < n, ∀ i < n, enters (pos k) i = true ↔ lo i ≤ k) (hf : ∀ k < n, ∀ i < n, fits (pos k) i = true ↔ k < hi i) :
    ∀ (m : Nat) (D waiting queue : List Nat), D.length + m = n → Chain n lo key D → (∀ k i, D[k]? = some i → k < hi i) → queue.Nodup → waiting.Nodup → (∀ i, i ∈ waiting ↔ i < n ∧ D.length ≤ lo i) → (∀ i, i ∈ queue ↔ i < n ∧ lo i < D.length ∧ i ∉ D) →
    match sweep enters fits before ((List.range' D.length m).map pos) waiting queue with
    | some phi => Chain n lo key (D ++ phi) ∧ (D ++ phi).length = n ∧ ∀ k i, (D ++ phi)[k]? = some i → k < hi i
    | none => ∃ E, Stuck n lo hi key E := by
  intro m
  induction m with
  | zero =>
    intro D waiting queue hm hc hd _ _ _ _
    simp only [List.range'_zero, List.map_nil, sweep, List.append_nil]
    exact ⟨hc, hm, hd⟩
  | succ m ih =>
    intro D waiting queue hm hc hd hq hwn hw hqm
    have hlt : D.length < n := by omega
    simp only [List.range'_succ, List.map_cons, sweep]
    have hq' : ∀ i, i ∈ queue ++ waiting.filter (enters (pos D.length)) ↔ i < n ∧ lo i ≤ D.length ∧ i ∉ D := fun i => by
      rw [List.mem_append, List.mem_filter, hqm, hw]
      constructor
      · rintro (⟨a, b, c⟩ | ⟨⟨a, b⟩, c⟩)
        · exact ⟨a, by omega, c⟩
        · refine ⟨a, (he _ hlt i a).1 c, fun hD => ?_⟩
          obtain ⟨k, hk, e⟩ := List.getElem_of_mem hD
          have := (hc.lt k i (by rw [← e]; exact List.getElem?_eq_getElem hk)).2
          omega
      · rintro ⟨a, b, c⟩
        rcases Nat.lt_or_ge (lo i) D.length with hl | hl
        · exact .inl ⟨a, hl, c⟩
        · exact .inr ⟨⟨a, hl⟩, (he _ hlt i a).2 b⟩
    have hqn : (queue ++ waiting.filter (enters (pos D.length))).Nodup := by
      rw [List.nodup_append]
      refine ⟨hq, hwn.sublist List.filter_sublist, fun a ha b hb e => ?_⟩
      have := (hqm a).1 ha
      have := (hw b).1 (List.mem_filter.1 hb).1
      subst e
      omega
    cases ht : top before (queue ++ waiting.filter (enters (pos D.length))) with
    | none =>
      refine ⟨D, hc, hlt, .inl fun i hi' hl => Classical.byContradiction fun hD => ?_⟩
      have hm := (hq' i).2 ⟨hi', hl, hD⟩
      revert ht hm
      cases queue ++ waiting.filter (enters (pos D.length)) with
      | nil => exact fun _ hm => nomatch hm
      | cons _ _ => exact fun ht => nomatch ht
    | some i =>
      obtain ⟨hm', hmin⟩ := top_spec h1 h2 ht
      obtain ⟨hi', hl, hD⟩ := (hq' i).1 hm'
      have hfirst : ∀ b < n, lo b ≤ D.length → b ∉ D → key i ≤ key b := fun b hb hlb hnb => hmin b ((hq' b).2 ⟨hb, hlb, hnb⟩)
      dsimp only
      by_cases hfit : fits (pos D.length) i = true
      · rw [if_pos hfit]
        have key' := ih (D ++ [i]) (waiting.filter fun i => !enters (pos D.length) i) ((queue ++ waiting.filter (enters (pos D.length))).erase i) (by simp; omega) (hc.snoc hi' hD hl hfirst) (fun k b e => by
            by_cases hk : k < D.length
            · rw [List.getElem?_append_left hk] at e
              exact hd k b e
            · rw [List.getElem?_append_right (Nat.le_of_not_lt hk)] at e
              cases hx : k - D.length with
              | zero =>
                rw [hx] at e
                have : b = i := by simpa using e.symm
                subst this
                have := (hf _ hlt b hi').1 hfit
                omega
              | succ m => rw [hx] at e; simp at e) (hqn.erase _) (hwn.sublist List.filter_sublist) (fun b => by
            rw [List.mem_filter, hw, List.length_append]
            constructor
            · rintro ⟨⟨a, c⟩, e⟩
              refine ⟨a, ?_⟩
              have : ¬ lo b ≤ D.length := fun h => by rw [(he _ hlt b a).2 h] at e; cases e
              simp; omega
            · rintro ⟨a, c⟩
              simp at c
              refine ⟨⟨a, by omega⟩, ?_⟩
              cases e : enters (pos D.length) b with
              | false => rfl
              | true => have := (he _ hlt b a).1 e; omega) (fun b => by
            rw [hqn.mem_erase_iff, hq']
            simp only [List.length_append, List.length_singleton, List.mem_append, List.mem_singleton]
            constructor
            · rintro ⟨a, b1, b2, b3⟩
              exact ⟨b1, by omega, by simp [a, b3]⟩
            · rintro ⟨b1, b2, b3⟩
              exact ⟨fun e => b3 (.inr e), b1, by omega, fun e => b3 (.inl e)⟩)
        have e2 : (D ++ [i]).length = D.length + 1 := by simp
        rw [e2] at key'
        revert key'
        cases sweep enters fits before ((List.range' (D.length + 1) m).map pos) (waiting.filter fun i => !enters (pos D.length) i) ((queue ++ waiting.filter (enters (pos D.length))).erase i) with
        | none => exact id
        | some phi =>
          dsimp only [Option.map_some]
          rw [show D ++ i :: phi = D ++ [i] ++ phi by simp]
          exact id
      · rw [if_neg hfit]
        refine ⟨D, hc, hlt, .inr ⟨i, hi', hD, hl, ?_, hfirst⟩⟩
        have : ¬ D.length < hi i := fun h => hfit ((hf _ hlt i hi').2 h)
        omega

/-- A sweep from the start. -/
theorem sweep_all (h1 : ∀ a b, before a b = true → key a ≤ key b) (h2 : ∀ a b, before a b = false → key b ≤ key a) (he : ∀ k < n, ∀ i < n, enters (pos k) i = true ↔ lo i ≤ k) (hf : ∀ k < n, ∀ i < n, fits (pos k) i = true ↔ k < hi i) :
    match sweep enters fits before ((List.range n).map pos) (List.range n) [] with
    | some phi => Chain n lo key phi ∧ phi.length = n ∧ ∀ k i, phi[k]? = some i → k < hi i
    | none => ∃ E, Stuck n lo hi key E := by
  have := sweep_spec h1 h2 he hf n [] (List.range n) [] (by simp) .nil nofun .nil List.nodup_range (by simp) (by simp)
  rw [List.range_eq_range'] at *
  exact this

/-- What was picked, once everything is. -/
theorem Chain.all {D : List Nat} (h : Chain n lo key D) (hl : D.length = n) {i : Nat} (hi' : i < n) : i ∈ D := Classical.byContradiction fun hD => by
  have := length_le_of_subset (i :: D) (List.range n) (List.nodup_cons.2 ⟨hD, h.nodup⟩) fun b hb => by
    rcases List.mem_cons.1 hb with rfl | hb
    · exact List.mem_range.2 hi'
    · obtain ⟨k, hk, e⟩ := List.getElem_of_mem hb
      exact List.mem_range.2 (h.lt k b (by rw [← e]; exact List.getElem?_eq_getElem hk)).1
  simp only [List.length_cons, List.length_range] at this
  omega

theorem Chain.places {D : List Nat} (h : Chain n lo key D) (hl : D.length = n) (hh : ∀ k i, D[k]? = some i → k < hi i) : Places n lo hi (D.idxOf ·) := by
  have at' : ∀ i < n, D[D.idxOf i]? = some i := fun i hi' => by
    have := List.idxOf_lt_length_of_mem (h.all hl hi')
    rw [List.getElem?_eq_getElem this, List.getElem_idxOf]
  refine ⟨fun i hi' => ⟨(h.lt _ _ (at' i hi')).2, hh _ _ (at' i hi')⟩, fun i hi' k hk e => ?_⟩
  have h1 := at' i hi'
  rw [show D.idxOf i = D.idxOf k from e, at' k hk] at h1
  exact (Option.some.inj h1).symm

/-- If there is no stretch with too many items that have to be in it, then all of them can be placed. -/
theorem places_or_band (hh : ∀ i < n, hi i ≤ n) : (∃ p, Places n lo hi p) ∨ (findBand n lo hi).isSome = true := by
  have h := sweep_all (n := n) (lo := lo) (hi := hi) (key := fun i => (hi i : Int)) (before := fun a b => decide (hi a < hi b)) (enters := fun k i => decide (lo i ≤ k)) (fits := fun k i => decide (k < hi i)) (pos := id)
    (fun a b e => by have := of_decide_eq_true e; omega) (fun a b e => by have := of_decide_eq_false e; omega) (fun _ _ _ _ => by simp) (fun _ _ _ _ => by simp)
  revert h
  split
  · rintro ⟨h1, h2, h3⟩
    exact .inl ⟨_, h1.places h2 h3⟩
  · rintro ⟨E, hE⟩
    obtain ⟨a, c, h1, h2, h3⟩ := hE.band (fun a b e => by omega) hh
    exact .inr (findBand_isSome h1 h2 h3)

end Gcs.Sort
