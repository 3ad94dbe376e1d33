import Verif.Spec.Automaton
import Verif.Lemmas.Cons.Layered
import Verif.Props.Cons.LinearIncremental

/-!
# C50: Regular and MDD

The graph that is kept in a constraint state is changed by every call, and restored on backtracking. The theorems are for every order in which an `unordered_map` may be visited, and for the graph that any calls have left.
-/

namespace Gcs
open IntervalSet Layered

/-! Helpers: the words for which the model has a run are those that are accepted. -/

namespace Layered

theorem accepts_iff {step : Nat → Nat → Int → Nat → Prop} {final : List Int} : ∀ (xs : List Int) (i q : Nat), Accepts step final i q xs ↔
    ∃ p : Nat → Nat, p i = q ∧ (∀ (j : Nat) x, xs[j]? = some x → step (i + j) (p (i + j)) x (p (i + j + 1))) ∧ (p (i + xs.length) : Int) ∈ final
  | [], i, q => by
    simp only [Accepts, List.length_nil, Nat.add_zero]
    exact ⟨fun h => ⟨fun _ => q, rfl, (fun _ _ h => nomatch h), h⟩, fun ⟨p, h1, _, h3⟩ => h1 ▸ h3⟩
  | x :: xs, i, q => by
    simp only [Accepts]
    constructor
    · rintro ⟨q', h1, h2⟩
      obtain ⟨p, p1, p2, p3⟩ := (accepts_iff xs (i + 1) q').1 h2
      refine ⟨fun j => if j ≤ i then q else p j, if_pos (Nat.le_refl _), fun j y hj => ?_, ?_⟩
      · cases j with
        | zero =>
          cases hj
          simp only [Nat.add_zero, Nat.le_refl, if_true]
          rw [if_neg (by omega), p1]; exact h1
        | succ j =>
          have := p2 j y (by simpa using hj)
          rw [show i + 1 + j = i + (j + 1) by omega] at this
          dsimp only; rw [if_neg (by omega), if_neg (by omega)]; exact this
      · simp only [List.length_cons]
        rw [if_neg (by omega)]
        rw [show i + 1 + xs.length = i + (xs.length + 1) by omega] at p3; exact p3
    · rintro ⟨p, p1, p2, p3⟩
      refine ⟨p (i + 1), p1 ▸ p2 0 x rfl, (accepts_iff xs (i + 1) _).2 ⟨p, rfl, fun j y hj => ?_, ?_⟩⟩
      · have := p2 (j + 1) y (by simpa using hj)
        rw [show i + (j + 1) = i + 1 + j by omega] at this; exact this
      · rw [List.length_cons, show i + (xs.length + 1) = i + 1 + xs.length by omega] at p3; exact p3

theorem accepted_iff {A : Auto} {step : Nat → Nat → Int → Nat → Prop} {vars : List VarId} (h : ∀ i q x q', q' ∈ A.next i q x ↔ step i q x q') (a : Asg) :
    Accepted A vars a ↔ Accepts step A.final 0 0 (vars.map (·.eval a)) := by
  rw [accepts_iff]
  unfold Accepted Run
  simp only [Nat.zero_add, List.length_map, List.getElem?_map]
  constructor
  · rintro ⟨p, h1, h2, h3⟩
    refine ⟨p, h1, fun j x hj => ?_, h3⟩
    obtain ⟨v, hv, rfl⟩ := Option.map_eq_some_iff.1 hj
    have := (h _ _ _ _).1 (h2 j (List.getElem?_eq_some_iff.1 hv).1)
    rwa [word_eq hv] at this
  · rintro ⟨p, h1, h2, h3⟩
    refine ⟨p, h1, fun j hj => ?_, h3⟩
    obtain ⟨v, hv⟩ : ∃ v, vars[j]? = some v := ⟨_, List.getElem?_eq_getElem hj⟩
    rw [word_eq hv]
    exact (h _ _ _ _).2 (h2 j _ (by rw [hv]; rfl))

theorem lookup_iff {β : Type} {x : Int} {y : β} : ∀ {m : List (Int × β)}, IsMap m → (m.lookup x = some y ↔ (x, y) ∈ m)
  | [], _ => by simp
  | (x', y') :: m, h => by
    have h' := List.nodup_cons.1 (show ((x' :: m.map (·.1)).Nodup) from h)
    simp only [List.lookup_cons]
    by_cases e : x = x'
    · subst e
      simp only [beq_self_eq_true, Option.some.injEq, List.mem_cons, Prod.mk.injEq, true_and]
      exact ⟨fun h => .inl h.symm, fun h => h.elim Eq.symm fun h => absurd (List.mem_map.2 ⟨_, h, rfl⟩) h'.1⟩
    · have : (x == x') = false := by simpa using e
      simp only [this, List.mem_cons, Prod.mk.injEq, e, false_and, false_or]
      exact lookup_iff h'.2

end Layered

namespace Regular

theorem next_iff {numStates : Nat} {t : List (List (Int × List Int))} {final : List Int} (hr : inRange numStates t = true) (hm : ∀ m ∈ t, IsMap m) (i q : Nat) (x : Int) (q' : Nat) : q' ∈ (auto t final).next i q x ↔ Moves t i q x q' := by
  simp only [inRange, Bool.and_eq_true, List.all_eq_true, decide_eq_true_eq] at hr
  unfold auto Moves
  dsimp only
  cases ht : t[q]? with
  | none => simp
  | some m =>
    have hmm := List.mem_of_getElem? ht
    simp only [mem_toSet, List.mem_map]
    rw [show (∃ m' s, some m = some m' ∧ (x, s) ∈ m' ∧ (q' : Int) ∈ s) ↔ ∃ s, (x, s) ∈ m ∧ (q' : Int) ∈ s from ⟨fun ⟨_, s, e, h⟩ => by cases e; exact ⟨s, h⟩, fun ⟨s, h⟩ => ⟨m, s, rfl, h⟩⟩]
    constructor
    · rintro ⟨z, hz, rfl⟩
      cases hl : m.lookup x with
      | none => rw [hl] at hz; cases hz
      | some s =>
        rw [hl] at hz
        have hz : z ∈ s := hz
        have hs := (lookup_iff (hm m hmm)).1 hl
        have := (hr.2 m hmm _ hs z hz).1
        exact ⟨s, hs, by rwa [show ((z.toNat : Nat) : Int) = z by omega]⟩
    · rintro ⟨s, hs, hq⟩
      exact ⟨q', by rw [(lookup_iff (hm m hmm)).2 hs]; exact hq, by simp⟩

theorem next_nodup (t : List (List (Int × List Int))) (final : List Int) (i q : Nat) (x : Int) : ((auto t final).next i q x).Nodup := by
  unfold auto
  dsimp only
  split
  · exact nodup_toSet _
  · exact List.nodup_nil

theorem mem_ofMap {m : List (Int × Int)} {x : Int} {s : List Int} : (x, s) ∈ ((m.filter fun p => decide (p.2 ≠ -1)).map fun p => (p.1, [p.2])) ↔ ∃ y, s = [y] ∧ y ≠ -1 ∧ (x, y) ∈ m := by
  simp only [List.mem_map, List.mem_filter, decide_eq_true_eq, Prod.mk.injEq]
  constructor
  · rintro ⟨⟨x', y⟩, ⟨h1, h2⟩, rfl, rfl⟩; exact ⟨y, rfl, h2, h1⟩
  · rintro ⟨y, rfl, h2, h1⟩; exact ⟨(x, y), ⟨h1, h2⟩, rfl, rfl⟩

theorem isMap_ofMaps {t : List (List (Int × Int))} (h : ∀ m ∈ t, IsMap m) : ∀ m ∈ ofMaps t, IsMap m := by
  intro m hm
  obtain ⟨m', h', rfl⟩ := List.mem_map.1 hm
  unfold IsMap
  rw [List.map_map]
  exact List.Nodup.sublist (List.Sublist.map _ List.filter_sublist) (h m' h')

theorem moves_ofMaps (t : List (List (Int × Int))) (i q : Nat) (x : Int) (q' : Nat) : Moves (ofMaps t) i q x q' ↔ MapMoves t i q x q' := by
  unfold Moves MapMoves ofMaps
  simp only [List.getElem?_map, Option.map_eq_some_iff]
  constructor
  · rintro ⟨_, s, ⟨m, hm, rfl⟩, hs, hq⟩
    obtain ⟨y, rfl, _, h⟩ := mem_ofMap.1 hs
    rw [List.mem_singleton.1 hq]; exact ⟨m, hm, h⟩
  · rintro ⟨m, hm, h⟩
    exact ⟨_, [(q' : Int)], ⟨m, hm, rfl⟩, mem_ofMap.2 ⟨_, rfl, by omega, h⟩, by simp⟩

theorem mem_ofRow {x : Int} {s : List Int} : ∀ (row : List Int) (k : Nat), (x, s) ∈ ofRow k row ↔ ∃ (j : Nat) (y : Int), x = ((k + j : Nat) : Int) ∧ s = [y] ∧ y ≠ -1 ∧ row[j]? = some y
  | [], k => by simp [ofRow]
  | t :: ts, k => by
    have key : (∃ (j : Nat) (y : Int), x = ((k + j : Nat) : Int) ∧ s = [y] ∧ y ≠ -1 ∧ (t :: ts)[j]? = some y) ↔ (x = (k : Int) ∧ s = [t] ∧ t ≠ -1) ∨ (x, s) ∈ ofRow (k + 1) ts := by
      rw [mem_ofRow ts (k + 1)]
      constructor
      · rintro ⟨j, y, h1, h2, h3, h4⟩
        cases j with
        | zero => cases h4; exact .inl ⟨h1, h2, h3⟩
        | succ j => exact .inr ⟨j, y, by omega, h2, h3, by simpa using h4⟩
      · rintro (⟨h1, h2, h3⟩ | ⟨j, y, h1, h2, h3, h4⟩)
        · exact ⟨0, t, h1, h2, h3, rfl⟩
        · exact ⟨j + 1, y, by omega, h2, h3, by simpa using h4⟩
    rw [key, ofRow]
    by_cases h : t ≠ -1
    · rw [if_pos h]; simp only [List.mem_cons, Prod.mk.injEq]
      exact ⟨fun h' => h'.imp (fun h' => ⟨h'.1, h'.2, h⟩) id, fun h' => h'.imp (fun h' => ⟨h'.1, h'.2.1⟩) id⟩
    · rw [if_neg h]; exact ⟨.inr, fun h' => h'.resolve_left fun h' => h h'.2.2⟩

theorem ofRow_keys : ∀ (row : List Int) (k : Nat), IsMap (ofRow k row)
  | [], _ => List.nodup_nil
  | t :: ts, k => by
    unfold ofRow
    split
    · refine List.nodup_cons.2 ⟨fun h => ?_, ofRow_keys ts (k + 1)⟩
      obtain ⟨⟨x, s⟩, hp, e⟩ := List.mem_map.1 h
      obtain ⟨j, y, h1, _⟩ := (mem_ofRow ts (k + 1)).1 hp
      dsimp only at e; omega
    · exact ofRow_keys ts (k + 1)

theorem ofRows_spec {numStates : Nat} {t : List (List Int)} {u : List (List (Int × List Int))} (h : ofRows numStates t = .ok u) :
    (∀ m ∈ u, IsMap m) ∧ ∀ i q x q', Moves u i q x q' ↔ RowMoves t i q x q' := by
  unfold ofRows at h
  split at h
  · cases h
    refine ⟨fun m hm => ?_, fun i q x q' => ?_⟩
    · rcases List.mem_append.1 hm with hm | hm
      · obtain ⟨row, _, rfl⟩ := List.mem_map.1 hm
        exact ofRow_keys _ _
      · rw [List.eq_of_mem_replicate hm]; exact List.nodup_nil
    · unfold Moves RowMoves
      constructor
      · rintro ⟨m, s, hm, hs, hq⟩
        by_cases hlt : q < t.length
        · rw [List.getElem?_append_left (by simpa using hlt), List.getElem?_map, Option.map_eq_some_iff] at hm
          obtain ⟨row, hr, rfl⟩ := hm
          obtain ⟨j, y, h1, rfl, _, h4⟩ := (mem_ofRow row 0).1 hs
          rw [Nat.zero_add] at h1
          rw [List.mem_singleton.1 hq]; exact ⟨row, j, hr, h1, h4⟩
        · rw [List.getElem?_append_right (by simpa using hlt)] at hm
          rw [List.eq_of_mem_replicate (List.mem_of_getElem? hm)] at hs; cases hs
      · rintro ⟨row, j, hr, h1, h4⟩
        refine ⟨ofRow 0 row, [(q' : Int)], ?_, (mem_ofRow row 0).2 ⟨j, _, by simpa using h1, rfl, by omega, h4⟩, by simp⟩
        rw [List.getElem?_append_left (by simpa using (List.getElem?_eq_some_iff.1 hr).1), List.getElem?_map, hr]; rfl
  · cases h

end Regular

namespace MDD

theorem next_iff {layers : List (List (List (Int × Int)))} {nodes : List Nat} {final : List Int} (hr : inRange layers nodes = true) (hm : ∀ l ∈ layers, ∀ m ∈ l, IsMap m) (i q : Nat) (x : Int) (q' : Nat) :
    q' ∈ (auto layers final).next i q x ↔ Moves layers i q x q' := by
  simp only [inRange, List.all_eq_true, decide_eq_true_eq, List.mem_range] at hr
  unfold auto Moves
  dsimp only
  cases hl : layers[i]? with
  | none => simp
  | some l =>
    have hli : i < layers.length := (List.getElem?_eq_some_iff.1 hl).1
    simp only [Option.getD_some]
    rw [show (∃ l' m, some l = some l' ∧ l'[q]? = some m ∧ (x, (q' : Int)) ∈ m) ↔ ∃ m, l[q]? = some m ∧ (x, (q' : Int)) ∈ m from ⟨fun ⟨_, s, e, h⟩ => by cases e; exact ⟨s, h⟩, fun ⟨s, h⟩ => ⟨l, s, rfl, h⟩⟩]
    cases ht : l[q]? with
    | none => simp
    | some m =>
      have hmm := List.mem_of_getElem? ht
      have hmap := hm l (List.mem_of_getElem? hl) m hmm
      rw [show (∃ m', some m = some m' ∧ (x, (q' : Int)) ∈ m') ↔ (x, (q' : Int)) ∈ m from ⟨fun ⟨_, e, h⟩ => by cases e; exact h, fun h => ⟨m, rfl, h⟩⟩]
      dsimp only
      cases hk : m.lookup x with
      | none =>
        dsimp only
        refine ⟨(fun h => nomatch h), fun h => ?_⟩
        rw [(lookup_iff hmap).2 h] at hk; cases hk
      | some z =>
        have hz := (lookup_iff hmap).1 hk
        have hrz := hr i hli m (by rw [hl]; exact hmm) _ hz
        dsimp only at hrz ⊢
        constructor
        · intro h
          split at h
          · cases h
          · rw [List.mem_singleton.1 h, show ((z.toNat : Nat) : Int) = z by omega]; exact hz
        · intro h
          rw [(lookup_iff hmap).2 h] at hk
          cases hk
          rw [if_neg (by omega)]; simp

theorem next_length (layers : List (List (List (Int × Int)))) (final : List Int) (i q : Nat) (x : Int) : ((auto layers final).next i q x).length ≤ 1 := by
  unfold auto
  dsimp only
  split
  · split
    · split <;> simp
    · simp
  · simp

theorem nodup_of_length {α : Type} : ∀ {l : List α}, l.length ≤ 1 → l.Nodup
  | [], _ => List.nodup_nil
  | [_], _ => by simp
  | _ :: _ :: _, h => by simp at h

end MDD

/-! ## Regular -/

section
variable {σ μ : Type} {n m : Nat} {R : Err → Prop} {root : Doms} {vars : List VarId} {st : Store σ} {z0 : List σ} {final : List Int} {numStates : Nat}

theorem Regular.serves {t : List (List (Int × List Int))} (ho : R .overflow) (hv : ∀ v ∈ vars, v.Valid n) (hm : ∀ m ∈ t, IsMap m) (hst : st.OK) (hz : z0[st.handle]? = some (st.kind.put .fresh)) {items : List (Item σ μ)}
    (h : Regular.install numStates t final st vars = .ok items) :
    ∃ I es, es.map (·.1) = items ∧ Served n m R root z0 I (· = st.handle) (fun a => Accepts (Regular.Moves t) final 0 0 (vars.map (·.eval a))) vars es := by
  unfold Regular.install at h
  split at h
  · rename_i hr
    cases h
    have hacc := fun a => accepted_iff (A := Regular.auto t final) (vars := vars) (Regular.next_iff hr hm) a
    have enf : EnforcesS n m R root (Has (Regular.auto t final) vars st) (· = st.handle) (Accepted (Regular.auto t final) vars) vars (Regular.prop (μ := μ) (Regular.auto t final) st vars) := by
      unfold Regular.prop
      by_cases hne : vars = []
      · rw [if_pos hne]
        subst hne
        have h0 : ∀ a, Accepted (Regular.auto t final) [] a ↔ (0 : Int) ∈ final := fun a => (hacc a).trans (by simp [Accepts, Regular.auto])
        intro d z hd hl hz hI
        by_cases hf : (0 : Int) ∈ (Regular.auto t final).final
        · rw [if_pos hf]
          exact ⟨Enforced.intro (fun _ a _ _ => (h0 a).2 hf) (by rintro ⟨⟩) (by rintro ⟨⟩), hI⟩
        · rw [if_neg hf]
          exact fun a _ h => hf ((h0 a).1 h.2)
      · rw [if_neg hne]
        exact prop_enforces (Regular.next_nodup t final) (.inl rfl) hst ho hv hne
    exact ⟨_, _, rfl, Linear.served_prop (fun a _ => (hacc a).symm) enf (fun _ h => h) (fun x hx v hv => ⟨x, .inl hx, hv⟩) rfl (fun _ _ _ hs hi => hi.sub hs) (fun _ _ _ hz hi => hi.only hz) fun _ => .start hz⟩
  · cases h

/-- C50: `Regular`, given sets of targets: what is installed is right, if all states that occur exist. -/
theorem regular_right {t : List (List (Int × List Int))} (ho : R .overflow) (hv : ∀ v ∈ vars, v.Valid n) (hm : ∀ m ∈ t, IsMap m) (hst : st.OK) (hz : z0[st.handle]? = some (st.kind.put .fresh)) :
    (Posted.mk (fun _ => Regular.install (μ := μ) numStates t final st vars) (fun a => Accepts (Regular.Moves t) final 0 0 (vars.map (·.eval a))) vars).Serves n m R root z0 (· = st.handle) :=
  fun _ h => Regular.serves ho hv hm hst hz h

/-- C50: `Regular`, given a map from values to states for each state. -/
theorem regularMaps_right {t : List (List (Int × Int))} (ho : R .overflow) (hv : ∀ v ∈ vars, v.Valid n) (hm : ∀ m ∈ t, IsMap m) (hst : st.OK) (hz : z0[st.handle]? = some (st.kind.put .fresh)) :
    (Posted.mk (fun _ => Regular.install (μ := μ) numStates (Regular.ofMaps t) final st vars) (fun a => Accepts (Regular.MapMoves t) final 0 0 (vars.map (·.eval a))) vars).Serves n m R root z0 (· = st.handle) := by
  intro items h
  rw [← show Regular.Moves (Regular.ofMaps t) = Regular.MapMoves t from funext fun i => funext fun q => funext fun x => funext fun q' => propext (Regular.moves_ofMaps t i q x q')]
  exact Regular.serves ho hv (Regular.isMap_ofMaps hm) hst hz h

/-- C50: `Regular`, given a matrix. -/
theorem regularRows_right {t : List (List Int)} (ho : R .overflow) (hv : ∀ v ∈ vars, v.Valid n) (hst : st.OK) (hz : z0[st.handle]? = some (st.kind.put .fresh)) :
    (Posted.mk (fun _ => do Regular.install (μ := μ) numStates (← Regular.ofRows numStates t) final st vars) (fun a => Accepts (Regular.RowMoves t) final 0 0 (vars.map (·.eval a))) vars).Serves n m R root z0 (· = st.handle) := by
  intro items h
  obtain ⟨u, hu, h⟩ := bind_ok h
  obtain ⟨h1, h2⟩ := Regular.ofRows_spec hu
  dsimp only
  rw [← show Regular.Moves u = Regular.RowMoves t from funext fun i => funext fun q => funext fun x => funext fun q' => propext (h2 i q x q')]
  exact Regular.serves ho hv h1 hst hz h

/-- C50: posting never throws, if the states exist. -/
theorem regular_posts {t : List (List (Int × List Int))} (h0 : 0 < numStates) (hn : numStates ≤ t.length) (ht : ∀ m ∈ t, ∀ p ∈ m, ∀ q ∈ p.2, 0 ≤ q ∧ q < numStates) :
    ∃ items, Regular.install (μ := μ) numStates t final st vars = .ok items := by
  unfold Regular.install
  rw [if_pos (by simp only [Regular.inRange, Bool.and_eq_true, List.all_eq_true, decide_eq_true_eq]; exact ⟨⟨h0, hn⟩, ht⟩)]
  exact ⟨_, rfl⟩

/-! ## MDD -/

/-- C50: `MDD`. Missing: a diagram for no variables at all; for those this is false, see `mdd_empty_wrong`. -/
theorem mdd_right_partial {layers : List (List (List (Int × Int)))} {nodes : List Nat} (ho : R .overflow) (hv : ∀ v ∈ vars, v.Valid n) (hm : ∀ l ∈ layers, ∀ m ∈ l, IsMap m) (hst : st.OK)
    (hz : z0[st.handle]? = some (st.kind.put .fresh)) (hne : vars ≠ []) :
    (Posted.mk (fun _ => MDD.install (μ := μ) layers nodes final st vars) (fun a => Accepts (MDD.Moves layers) final 0 0 (vars.map (·.eval a))) vars).Serves n m R root z0 (· = st.handle) := by
  intro items h
  dsimp only at h
  unfold MDD.install at h
  split at h
  · cases h
  split at h
  · cases h
  · rename_i hr
    cases h
    have hacc := fun a => accepted_iff (A := MDD.auto layers final) (vars := vars) (MDD.next_iff (Classical.not_not.1 hr) hm) a
    exact ⟨_, _, rfl, Linear.served_prop (fun a _ => (hacc a).symm) (prop_enforces (A := MDD.auto layers final) (fun i q x => MDD.nodup_of_length (MDD.next_length layers final i q x)) (.inr (MDD.next_length layers final)) hst ho hv hne) (fun _ h => h)
      (fun x hx v hv => ⟨x, .inl hx, hv⟩) rfl (fun _ _ _ hs hi => hi.sub hs) (fun _ _ _ hz hi => hi.only hz) fun _ => .start hz⟩

/-- C50: posting a diagram throws exactly if its numbers of layers and nodes do not fit, given that targets exist. -/
theorem mdd_throws {layers : List (List (List (Int × Int)))} {nodes : List Nat}
    (ht : ∀ (i : Nat) l, layers[i]? = some l → ∀ m ∈ l, ∀ p ∈ m, p.2 = -1 ∨ 0 ≤ p.2 ∧ p.2 < (nodes[i + 1]?.getD 0)) :
    (nodes.length = vars.length + 1 ∧ layers.length = vars.length ∧ nodes[0]? = some 1 ∧ (∀ (i k : Nat) l, i < vars.length → nodes[i]? = some k → layers[i]? = some l → k ≤ l.length) ∧
      ∃ items, MDD.install (μ := μ) layers nodes final st vars = .ok items) ∨
    ¬ (nodes.length = vars.length + 1 ∧ layers.length = vars.length ∧ nodes[0]? = some 1 ∧ ∀ (i k : Nat) l, i < vars.length → nodes[i]? = some k → layers[i]? = some l → k ≤ l.length) ∧
      MDD.install (μ := μ) layers nodes final st vars = .error .invalidProblem := by
  have hr : MDD.inRange layers nodes = true := by
    simp only [MDD.inRange, List.all_eq_true, decide_eq_true_eq, List.mem_range]
    intro i hi m hm p hp
    rw [List.getElem?_eq_getElem hi] at hm
    exact ht i _ (List.getElem?_eq_getElem hi) m hm p hp
  have hs : MDD.shaped vars.length layers nodes = true ↔ (nodes.length = vars.length + 1 ∧ layers.length = vars.length ∧ nodes[0]? = some 1 ∧ ∀ (i k : Nat) l, i < vars.length → nodes[i]? = some k → layers[i]? = some l → k ≤ l.length) := by
    simp only [MDD.shaped, Bool.and_eq_true, List.all_eq_true, decide_eq_true_eq, List.mem_range, and_assoc]
    refine and_congr_right fun h1 => and_congr_right fun h2 => and_congr_right fun h3 => ⟨fun h i k l hi hk hl => ?_, fun h i hi => ?_⟩
    · have := h i hi
      rwa [hk, hl] at this
    · rw [List.getElem?_eq_getElem (show i < nodes.length by omega), List.getElem?_eq_getElem (show i < layers.length by omega)]
      exact h i _ _ hi (List.getElem?_eq_getElem (by omega)) (List.getElem?_eq_getElem (by omega))
  unfold MDD.install
  by_cases hc : MDD.shaped vars.length layers nodes = true
  · have := hs.1 hc
    rw [if_neg (by simp [hc]), if_neg (by simp [hr])]
    exact .inl ⟨this.1, this.2.1, this.2.2.1, this.2.2.2, _, rfl⟩
  · rw [if_pos hc]
    exact .inr ⟨fun h => hc (hs.2 h), rfl⟩

/-! ## Consistency -/

/-- The graph in the constraint state is one that can be trusted at the domains `d`: not made yet, or what an earlier call has left, at domains with at least these values. `stored_fresh` and `stored_left` say why. -/
def GraphOK (A : Auto) (vars : List VarId) (st : Store σ) (d : Doms) (z : List σ) : Prop := Has A vars st d z

/-- C50: at the start. -/
theorem stored_fresh {A : Auto} {d : Doms} (hz : z0[st.handle]? = some (st.kind.put .fresh)) : GraphOK A vars st d z0 := .start hz

theorem layered_run {A : Auto} {l : Lookup} {c : Ctx} {s s' : Sys σ μ} {r : Res PState} (hA : ∀ i q v, (A.next i q v).Nodup) (hl : Finds A l) (hst : st.OK) (hv : ∀ v ∈ vars, v.Valid n) (hs : Runnable n m s)
    (hg : GraphOK A vars st s.doms s.top) (hr : runProg c (Layered.prop A l st vars) s = .ok (r, s')) :
    (Failed r s' → ∀ a, Within s.doms a → ¬ Accepted A vars a) ∧
    (¬ Failed r s' → r = .val .enable ∧ GraphOK A vars st s'.doms s'.top ∧ ∃ g, Done A vars s.doms s'.doms g) := by
  have hlt : st.handle < s.top.length := by obtain ⟨g, hu, _⟩ := hg; exact (List.getElem?_eq_some_iff.1 hu).1
  have ver := prop_verS (μ := μ) (Q := fun ps d' z' => ps = .enable ∧ GraphOK A vars st d' z' ∧ ∃ g, Done A vars s.doms d' g) (J := { n, m, R := (· = .overflow), C := Accepted A vars, own := (· = st.handle) }) hA hl hst rfl rfl hv (fun _ h => h) hs.domsOK hs.domsLen hs.cstatesLen hg
    fun g d' h => ⟨rfl, ⟨g, List.getElem?_set_self hlt, fun _ => ⟨h.good, h.keeps.sub h.sub⟩⟩, g, h⟩
  refine ⟨fun hf a ha hA => ?_, fun hf => ?_⟩
  · have pv := VerS.pin rfl _ _ _ ver
    rw [← run_pin c _ _ s rfl] at hr
    exact (sound_run (np := c.owner + 1) c (Nat.lt_succ_self _) _ s (Ver.okAt _ _ pv) (Ver.soundAt (J := { n, m, R := (· = .overflow), C := Accepted A vars, own := (· = st.handle) }) hA _ _ pv ha) hs ha _ _ hr).1 hf
  · obtain ⟨v, rfl, rfl, h1, h2⟩ := verS_run _ _ ver hs hr hf
    exact ⟨rfl, h1, h2⟩

/-- C50: a call that does not fail leaves a graph that can be trusted, there and where there are fewer values. -/
theorem stored_left {A : Auto} {l : Lookup} {c : Ctx} {s s' : Sys σ μ} {r : Res PState} {d : Doms} (hA : ∀ i q v, (A.next i q v).Nodup) (hl : Finds A l) (hst : st.OK) (hv : ∀ v ∈ vars, v.Valid n) (hs : Runnable n m s)
    (hg : GraphOK A vars st s.doms s.top) (hr : runProg c (Layered.prop A l st vars) s = .ok (r, s')) (hf : ¬ Failed r s') (hd : ∀ a, Within d a → Within s'.doms a) : GraphOK A vars st d s'.top :=
  Has.sub hd ((layered_run hA hl hst hv hs hg hr).2 hf).2.1

/-- C49, C50: generalised arc consistency of `Regular`. When the propagator has run without failing, every value that is left of one of the variables is part of an assignment within the domains that is accepted, if no two of
the variables are views of the same. If it fails, there is none. -/
theorem regular_consistent {t : List (List (Int × List Int))} {c : Ctx} {s s' : Sys σ μ} {r : Res PState} (hrange : Regular.inRange numStates t = true) (hm : ∀ m ∈ t, IsMap m) (hst : st.OK) (hv : ∀ v ∈ vars, v.Valid n) (hs : Runnable n m s)
    (hg : GraphOK (Regular.auto t final) vars st s.doms s.top) (hr : runProg c (Regular.prop (Regular.auto t final) st vars) s = .ok (r, s')) :
    (Failed r s' → ∀ a, Within s.doms a → ¬ Accepts (Regular.Moves t) final 0 0 (vars.map (·.eval a))) ∧
    (¬ Failed r s' → (vars.filterMap VarId.underlyingIndex).Nodup → ∀ v ∈ vars, ∀ y, Poss s'.doms v y → ∃ a, Within s'.doms a ∧ v.eval a = y ∧ Accepts (Regular.Moves t) final 0 0 (vars.map (·.eval a))) := by
  have hacc := fun a => accepted_iff (A := Regular.auto t final) (vars := vars) (Regular.next_iff hrange hm) a
  unfold Regular.prop at hr
  by_cases hne : vars = []
  · rw [if_pos hne] at hr
    subst hne
    refine ⟨fun hf a _ => ?_, fun _ _ v hv => nomatch hv⟩
    simp only [Accepts, List.map_nil]
    by_cases h0 : (0 : Int) ∈ (Regular.auto t final).final
    · rw [if_pos h0] at hr; cases hr
      exact absurd hf (by simp [Failed, hs.fine])
    · exact h0
  · rw [if_neg hne] at hr
    obtain ⟨h1, h2⟩ := layered_run (Regular.next_nodup t final) (.inl rfl) hst hv hs hg hr
    refine ⟨fun hf a ha h => h1 hf a ha ((hacc a).2 h), fun hf hn v hv y hy => ?_⟩
    obtain ⟨_, _, g, hD⟩ := h2 hf
    obtain ⟨a, a1, a2, a3⟩ := hD.consistent hs.domsOK hn hv hy
    exact ⟨a, a1, a2, (hacc a).1 a3⟩

/-- C49, C50: generalised arc consistency of `MDD`. -/
theorem mdd_consistent {layers : List (List (List (Int × Int)))} {nodes : List Nat} {c : Ctx} {s s' : Sys σ μ} {r : Res PState} (hrange : MDD.inRange layers nodes = true) (hm : ∀ l ∈ layers, ∀ m ∈ l, IsMap m) (hst : st.OK)
    (hv : ∀ v ∈ vars, v.Valid n) (hs : Runnable n m s) (hg : GraphOK (MDD.auto layers final) vars st s.doms s.top) (hr : runProg c (Layered.prop (MDD.auto layers final) .automaton st vars) s = .ok (r, s')) :
    (Failed r s' → ∀ a, Within s.doms a → ¬ Accepts (MDD.Moves layers) final 0 0 (vars.map (·.eval a))) ∧
    (¬ Failed r s' → (vars.filterMap VarId.underlyingIndex).Nodup → ∀ v ∈ vars, ∀ y, Poss s'.doms v y → ∃ a, Within s'.doms a ∧ v.eval a = y ∧ Accepts (MDD.Moves layers) final 0 0 (vars.map (·.eval a))) := by
  have hacc := fun a => accepted_iff (A := MDD.auto layers final) (vars := vars) (MDD.next_iff hrange hm) a
  obtain ⟨h1, h2⟩ := layered_run (A := MDD.auto layers final) (fun i q x => MDD.nodup_of_length (MDD.next_length layers final i q x)) (.inr (MDD.next_length layers final)) hst hv hs hg hr
  refine ⟨fun hf a ha h => h1 hf a ha ((hacc a).2 h), fun hf hn v hv y hy => ?_⟩
  obtain ⟨_, _, g, hD⟩ := h2 hf
  obtain ⟨a, a1, a2, a3⟩ := hD.consistent hs.domsOK hn hv hy
  exact ⟨a, a1, a2, (hacc a).1 a3⟩

end

/-! Concrete cases, and runs. -/

namespace Layered.Demo

def kind : Kind Graph Graph := ⟨id, some, fun _ => rfl⟩
/-- Every other call visits the values in reverse. -/
def store (h : Nat) : Store Graph := ⟨kind, h, fun k xs => if k % 2 = 0 then xs else xs.reverse⟩

theorem store_ok (h : Nat) : (store h).OK := fun k xs => by
  show (if _ then _ else _ : List Int).Perm xs
  split
  · exact .refl _
  · exact List.reverse_perm xs

/-- In state 0, the value 0 leads to 0 or 1; there is no way on from state 3. -/
def nfa : List (List (Int × List Int)) := [[(0, [0, 1]), (1, [0]), (2, [3])], [(1, [2]), (2, [1])], [(0, [2]), (2, [0])], []]
def x : VarId := .simple 0
def y : VarId := .view 1 true 2
def z : VarId := .simple 2
def word : List VarId := [x, y, z]
def fresh : List Graph := [.fresh, .fresh]

theorem nfa_maps : ∀ m ∈ nfa, IsMap m := by unfold IsMap nfa; decide
example : Accepts (Regular.Moves nfa) [2] 0 0 [0, 2, 1] := ⟨1, ⟨_, _, rfl, .head _, by decide⟩, 1, ⟨_, _, rfl, .tail _ (.head _), by decide⟩, 2, ⟨_, _, rfl, .head _, by decide⟩, show (2 : Int) ∈ [2] by decide⟩

def left (d : Doms) (gs : List Graph) : Option (Res PState × Doms × Option (List Edge)) :=
  (runProg ⟨0, []⟩ (Regular.prop (μ := Unit) (Regular.auto nfa [2]) (store 0) word) (Sys.start d gs () (Run.setup d []).watches)).toOption.map fun p => (p.1, p.2.doms, p.2.top[0]?.map (·.edges))
def graph (d : Doms) : List Graph :=
  ((runProg ⟨0, []⟩ (Regular.prop (μ := Unit) (Regular.auto nfa [2]) (store 0) word) (Sys.start d fresh () (Run.setup d []).watches)).toOption.map fun p => p.2.top).getD []

/-- The first call makes the graph. -/
example : left [[(0, 2)], [(0, 2)], [(0, 2)]] fresh = some (.val .enable, [[(0, 1)], [(0, 2)], [(0, 1)]],
    some [⟨0, 0, 0, 0⟩, ⟨0, 0, 0, 1⟩, ⟨0, 0, 1, 0⟩, ⟨1, 1, 2, 1⟩, ⟨1, 1, 1, 2⟩, ⟨1, 0, 0, 1⟩, ⟨2, 2, 0, 2⟩, ⟨2, 1, 1, 2⟩]) := by decide +kernel
/-- In the next one, `y` is not 0 and `x` is 1: there is no way left. -/
example : left [[(1, 1)], [(0, 1)], [(0, 1)]] (graph [[(0, 2)], [(0, 2)], [(0, 2)]]) = some (.failed, [[(1, 1)], [(0, 1)], [(0, 1)]], some []) := by decide +kernel
/-- If `z` is 0, there is one way left. -/
example : left [[(0, 1)], [(0, 2)], [(0, 0)]] (graph [[(0, 2)], [(0, 2)], [(0, 2)]]) = some (.val .enable, [[(0, 0)], [(1, 1)], [(0, 0)]], some [⟨0, 0, 0, 1⟩, ⟨1, 1, 1, 2⟩, ⟨2, 2, 0, 2⟩]) := by decide +kernel

/-- The hypotheses of `regular_consistent` are met at the start, and (by `stored_left`) after every call. -/
example {d : Doms} (hd : DomsOK d) (hl : d.length = 3) {w : Watches} {r : Res PState} {s' : Sys Graph Unit} (hr : runProg ⟨0, []⟩ (Regular.prop (Regular.auto nfa [2]) (store 0) word) (Sys.start d fresh () w) = .ok (r, s')) (hf : ¬ Failed r s')
    {v : Int} (hv : Poss s'.doms y v) : ∃ a, Within s'.doms a ∧ y.eval a = v ∧ Accepts (Regular.Moves nfa) [2] 0 0 (word.map (·.eval a)) :=
  (regular_consistent (n := 3) (m := 2) (s := Sys.start d fresh () w) (numStates := 4) (by decide) nfa_maps (store_ok 0) (by decide) ⟨hd, hl, by simp [Sys.start], rfl, rfl⟩ (stored_fresh rfl) hr).2 hf (by decide) y (by decide) v hv

/-! A problem with both constraints, and another one: the hypotheses of the theorems in `Props/Stateful.lean` are met. -/
namespace Problem

def root : Doms := [[(0, 2)], [(0, 2)], [(0, 2)]]
/-- Words of two letters, which are different, the second not being 2. -/
def layers : List (List (List (Int × Int))) := [[[(0, 0), (1, 1), (2, 2)]], [[(1, 1)], [(0, 1), (1, -1)], [(0, 1), (1, 1), (2, 0)]]]
def pair : List VarId := [z, x]
def regular : Posted Graph Unit := ⟨fun _ => Regular.install 4 nfa [2] (store 0) word, fun a => Accepts (Regular.Moves nfa) [2] 0 0 (word.map (·.eval a)), word⟩
def mdd : Posted Graph Unit := ⟨fun _ => MDD.install layers [1, 3, 2] [1] (store 1) pair, fun a => Accepts (MDD.Moves layers) [1] 0 0 (pair.map (·.eval a)), pair⟩
def cs : List (Posted Graph Unit) := [regular, mdd]
def own (i k : Nat) : Prop := (i = 0 ∧ k = 0) ∨ (i = 1 ∧ k = 1)
def S : Setup Graph Unit := (Setup.create root 0 (cs.map (·.install)) Setup.empty).toOption.getD Setup.empty
def vars : List VarId := [.simple 0, .simple 1, .simple 2]

def env : SearchEnv Graph Unit where
  engine := S.engine
  abort := fun _ => false
  branch := fun _ s => branchWith (dom vars) largestFirst s.doms
  solution := fun _ _ => true
  trace := fun _ _ => true
  minimise := none
  learn := none

theorem valid : ∀ v ∈ vars, v.Valid 3 := by decide

theorem problem : ProblemServed 3 2 (· = .overflow) root cs fresh own S env vars where
  domsOK := by decide +kernel
  domsLen := rfl
  statesLen := rfl
  overflow := rfl
  constraints i c hc := by
    rcases i with _ | _ | i
    · cases hc
      have := regular_right (μ := Unit) (n := 3) (m := 2) (R := (· = .overflow)) (root := root) (vars := word) (st := store 0) (z0 := fresh) (final := [2]) (numStates := 4) (t := nfa) rfl (by decide) nfa_maps (store_ok 0) rfl
      have e : own 0 = (· = (store 0).handle) := by funext k; simp [own, store]
      rw [e]; exact this
    · cases hc
      have := mdd_right_partial (μ := Unit) (n := 3) (m := 2) (R := (· = .overflow)) (root := root) (vars := pair) (st := store 1) (z0 := fresh) (final := [1]) (layers := layers) (nodes := [1, 3, 2]) rfl (by decide)
        (by unfold IsMap layers; decide) (store_ok 1) rfl (by decide)
      have e : own 1 = (· = (store 1).handle) := by funext k; simp [own, store]
      rw [e]; exact this
    · cases hc
  apart i j k h1 h2 := by
    simp only [own] at h1 h2
    omega
  created := rfl
  branches := ⟨valid, fun _ s hs => by
    have hl : s.doms.length = 3 := hs.call.domsLen
    refine ⟨_, _, rfl, (dom_chooses hs.call.domsOK (by rw [hl]; exact valid)).mono fun _ h => h.picked, fun v hv ho => ?_, largestFirst_guesses⟩
    exact (largestFirst_branches hs.call.domsOK (by rw [hl]; exact valid v hv) ho).mono fun _ h => h.1⟩
  covered c hc x hx v hv := by
    have : v = 0 ∨ v = 1 ∨ v = 2 := by
      simp only [cs, List.mem_cons, List.not_mem_nil, or_false] at hc
      rcases hc with rfl | rfl
      · have hx : x ∈ [VarId.simple 0, .view 1 true 2, .simple 2] := hx
        simp only [List.mem_cons, List.not_mem_nil, or_false] at hx
        rcases hx with rfl | rfl | rfl <;> cases hv <;> simp
      · have hx : x ∈ [VarId.simple 2, .simple 0] := hx
        simp only [List.mem_cons, List.not_mem_nil, or_false] at hx
        rcases hx with rfl | rfl <;> cases hv <;> simp
    rcases this with rfl | rfl | rfl
    · exact ⟨.simple 0, by simp [vars], rfl⟩
    · exact ⟨.simple 1, by simp [vars], rfl⟩
    · exact ⟨.simple 2, by simp [vars], rfl⟩
  objective o ho := nomatch ho
  monotone i j _ h := nomatch h

def solutions : List Doms := [[[(0, 0)], [(2, 2)], [(1, 1)]], [[(0, 0)], [(0, 0)], [(1, 1)]]]

theorem runs : ∃ res has s' t, solve env S 14 1 none (Sys.start root fresh () S.watches) = .ok ((res, has, s', t), true) ∧ t.found = solutions := by
  have h : (match solve env S 14 1 none (Sys.start root fresh () S.watches) with
    | .ok ((_, _, _, t), true) => decide (t.found = solutions)
    | _ => false) = true := by decide +kernel
  split at h
  · exact ⟨_, _, _, _, by assumption, of_decide_eq_true h⟩
  · cases h

/-- So there are no other solutions. -/
example : ∀ a, (∀ c ∈ cs, c.holds a) ∧ Within root a → ∃ d ∈ solutions, Within d a := by
  obtain ⟨res, has, s', t, h, hf⟩ := runs
  intro a ha
  obtain ⟨i, d, hd, hw, _⟩ := ((stateful_enumerates problem rfl rfl (depthFuel := 14) (fuel := 1) (by decide) (by decide) rfl h).1 a).1 ha
  rw [hf] at hd
  exact ⟨d, List.mem_of_getElem? hd, hw⟩

end Problem

/-! A diagram for no variables, without a node that accepts. -/
namespace Empty

def mdd : Posted Graph Unit := ⟨fun _ => MDD.install [] [1] [] (store 0) [], fun a => Accepts (MDD.Moves []) [] 0 0 (([] : List VarId).map (·.eval a)), []⟩
def root : Doms := [[(0, 1)]]
def S : Setup Graph Unit := (Setup.create root 0 ([mdd].map (·.install)) Setup.empty).toOption.getD Setup.empty
def env : SearchEnv Graph Unit where
  engine := S.engine
  abort := fun _ => false
  branch := fun _ s => branchWith (dom [.simple 0]) largestFirst s.doms
  solution := fun _ _ => true
  trace := fun _ _ => true
  minimise := none
  learn := none

end Empty

end Layered.Demo

open Layered.Demo Layered.Demo.Empty in
/-- C50: without variables, `MDD` does nothing, although the root is no node that accepts: the problem has two solutions according to the search, and none of them is one. `Regular` treats this case separately. -/
theorem mdd_empty_wrong : (∀ a, ¬ mdd.holds a) ∧ ∃ res has s' t, solve env S 14 1 none (Sys.start root [.fresh] () S.watches) = .ok ((res, has, s', t), true) ∧ t.found = [[[(1, 1)]], [[(0, 0)]]] := by
  refine ⟨fun a (h : (0 : Int) ∈ ([] : List Int)) => (by cases h), ?_⟩
  have h : (match solve env S 14 1 none (Sys.start root [.fresh] () S.watches) with
    | .ok ((_, _, _, t), true) => decide (t.found = [[[(1, 1)]], [[(0, 0)]]])
    | _ => false) = true := by decide +kernel
  split at h
  · exact ⟨_, _, _, _, by assumption, of_decide_eq_true h⟩
  · cases h

end Gcs
