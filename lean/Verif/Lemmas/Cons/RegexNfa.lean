import Verif.Lemmas.Cons.RegexBuild
import Verif.Lemmas.Card
import Verif.Spec.Automaton

/-!
# Empty moves are removed, and states are numbered
-/

namespace Gcs.Regex
open IntervalSet

/-! ## Work lists -/

theorem setInsert_perm {α : Type} [LT α] [DecidableLT α] [DecidableEq α] {x : α} : ∀ {l : List α}, x ∉ l → (setInsert x l).Perm (x :: l)
  | [], _ => .refl _
  | y :: ys, h => by
    rw [setInsert]
    split
    · exact .refl _
    · split
      · rename_i e; subst e; exact absurd (.head _) h
      · exact ((setInsert_perm fun hh => h (.tail _ hh)).cons y).trans (.swap _ _ _)

/-- What is pushed. -/
theorem pushNew_spec : ∀ (ys seen stack : List Nat), seen.Nodup →
    ∃ new, (pushNew ys seen stack).2 = new ++ stack ∧ (∀ x, x ∈ (pushNew ys seen stack).1 ↔ x ∈ seen ∨ x ∈ new) ∧ (pushNew ys seen stack).1.length = seen.length + new.length ∧
      (pushNew ys seen stack).1.Nodup ∧ (∀ x ∈ new, x ∈ ys) ∧ ∀ y ∈ ys, y ∈ (pushNew ys seen stack).1
  | [], seen, stack, h => ⟨[], by simp [pushNew], by simp [pushNew], by simp [pushNew], h, by simp, by simp⟩
  | y :: ys, seen, stack, h => by
    rw [pushNew]
    split
    · rename_i hy
      obtain ⟨new, h1, h2, h3, h4, h5, h6⟩ := pushNew_spec ys seen stack h
      refine ⟨new, h1, h2, h3, h4, fun x hx => .tail _ (h5 x hx), fun x hx => ?_⟩
      rcases List.mem_cons.1 hx with rfl | hx
      · exact (h2 _).2 (.inl hy)
      · exact h6 x hx
    · rename_i hy
      have hp := setInsert_perm hy
      obtain ⟨new, h1, h2, h3, h4, h5, h6⟩ := pushNew_spec ys (setInsert y seen) (y :: stack) (hp.nodup_iff.2 (List.nodup_cons.2 ⟨hy, h⟩))
      refine ⟨new ++ [y], by rw [h1]; simp, fun x => ?_, by rw [h3, hp.length_eq]; simp; omega, h4, fun x hx => ?_, fun x hx => ?_⟩
      · rw [h2, mem_setInsert, List.mem_append, List.mem_singleton]
        constructor
        · rintro ((h | h) | h)
          · exact .inr (.inr h)
          · exact .inl h
          · exact .inr (.inl h)
        · rintro (h | h | h)
          · exact .inl (.inr h)
          · exact .inr h
          · exact .inl (.inl h)
      · rcases List.mem_append.1 hx with hx | hx
        · exact .tail _ (h5 x hx)
        · cases List.mem_singleton.1 hx; exact .head _
      · rcases List.mem_cons.1 hx with rfl | hx
        · exact (h2 _).2 (.inl (mem_setInsert.2 (.inl rfl)))
        · exact h6 x hx

/-- Some steps, one after the other. -/
inductive Steps (next : Nat → List Nat) (q : Nat) : Nat → Prop where
  | refl : Steps next q q
  | snoc {p r : Nat} : Steps next q p → r ∈ next p → Steps next q r

theorem starLoop_spec {step : Nat → Chk (List Nat)} {next : Nat → List Nat} {N q : Nat} (hstep : ∀ x, x < N → step x = .ok (next x)) (hr : ∀ x, x < N → ∀ y ∈ next x, y < N) :
    ∀ (f : Nat) (seen stack : List Nat), seen.Nodup → (∀ x ∈ seen, x < N) → (∀ x ∈ stack, x ∈ seen) → stack.length + N ≤ f + seen.length → q ∈ seen → (∀ x ∈ seen, Steps next q x) →
      (∀ x ∈ seen, x ∉ stack → ∀ y ∈ next x, y ∈ seen) → ∃ r, starLoop step f seen stack = .ok r ∧ ∀ x, x ∈ r ↔ Steps next q x
  | f, seen, [], _, _, _, _, hq, hs, hc => by
    refine ⟨seen, by cases f <;> rfl, fun x => ⟨hs x, fun h => ?_⟩⟩
    induction h with
    | refl => exact hq
    | snoc _ h ih => exact hc _ ih (fun h => nomatch h) _ h
  | 0, seen, x :: stack, hn, hb, _, hf, _, _, _ => by
    have := length_le_of_subset seen (List.range N) hn fun y hy => List.mem_range.2 (hb y hy)
    rw [List.length_range] at this
    simp only [List.length_cons] at hf
    omega
  | f + 1, seen, x :: stack, hn, hb, hst, hf, hq, hs, hc => by
    have hx : x ∈ seen := hst x (.head _)
    rw [starLoop, hstep x (hb x hx), Knapsack.chk_ok_bind]
    obtain ⟨new, h1, h2, h3, h4, h5, h6⟩ := pushNew_spec (next x) seen stack hn
    dsimp only
    rw [h1]
    refine starLoop_spec hstep hr f _ _ h4 (fun y hy => ?_) (fun y hy => ?_) ?_ ((h2 q).2 (.inl hq)) (fun y hy => ?_) (fun y hy hny z hz => ?_)
    · rcases (h2 y).1 hy with h | h
      · exact hb y h
      · exact hr x (hb x hx) y (h5 y h)
    · rcases List.mem_append.1 hy with h | h
      · exact (h2 y).2 (.inr h)
      · exact (h2 y).2 (.inl (hst y (.tail _ h)))
    · rw [h3]
      simp only [List.length_append, List.length_cons] at hf ⊢
      omega
    · rcases (h2 y).1 hy with h | h
      · exact hs y h
      · exact .snoc (hs x hx) (h5 y h)
    · by_cases hyx : y = x
      · subst hyx; exact h6 z hz
      · rcases (h2 y).1 hy with h | h
        · refine (h2 z).2 (.inl (hc y h (fun hh => ?_) z hz))
          rcases List.mem_cons.1 hh with hh | hh
          · exact hyx hh
          · exact hny (List.mem_append_right _ hh)
        · exact absurd (List.mem_append_left _ h) hny

theorem starLoop_right {step : Nat → Chk (List Nat)} {next : Nat → List Nat} {N q f : Nat} (hstep : ∀ x, x < N → step x = .ok (next x)) (hr : ∀ x, x < N → ∀ y ∈ next x, y < N) (hq : q < N) (hf : N ≤ f) :
    ∃ r, starLoop step f [q] [q] = .ok r ∧ ∀ x, x ∈ r ↔ Steps next q x :=
  starLoop_spec hstep hr f [q] [q] (by simp) (fun x hx => List.mem_singleton.1 hx ▸ hq) (fun _ h => h) (by simp; omega) (.head _) (fun x hx => List.mem_singleton.1 hx ▸ .refl) (fun x hx h => absurd hx h)

/-! ## Closures -/

theorem closeLoop_eq (b : Builder) : ∀ (f : Nat) (seen stack : List Nat), closeLoop b f seen stack = starLoop (fun x => .ok (b.epsFrom x)) f seen stack
  | f, seen, [] => by cases f <;> rfl
  | 0, seen, _ :: _ => rfl
  | f + 1, seen, x :: stack => by
    rw [closeLoop, starLoop, Knapsack.chk_ok_bind, closeLoop_eq b f]

theorem mem_epsFrom {b : Builder} {p q : Nat} : q ∈ b.epsFrom p ↔ (p, q) ∈ b.eps := by
  unfold Builder.epsFrom
  rw [List.mem_filterMap]
  constructor
  · rintro ⟨e, he, h⟩
    split at h
    · rename_i h'; cases h; subst h'; exact he
    · cases h
  · exact fun h => ⟨_, h, if_pos rfl⟩

theorem mem_symFrom {b : Builder} {p q : Nat} {x : Int} : (x, q) ∈ b.symFrom p ↔ (p, x, q) ∈ b.sym := by
  unfold Builder.symFrom
  rw [List.mem_filterMap]
  constructor
  · rintro ⟨e, he, h⟩
    split at h
    · rename_i h'
      obtain ⟨e1, e2⟩ := e
      cases h; subst h'; exact he
    · cases h
  · exact fun h => ⟨_, h, if_pos rfl⟩

theorem steps_eps {b : Builder} {q p : Nat} : Steps b.epsFrom q p ↔ Path b q [] p := by
  constructor
  · intro h
    induction h with
    | refl => exact .nil _
    | snoc _ h ih => exact ih.trans (.eps (mem_epsFrom.1 h) (.nil _))
  · have : ∀ q w p, Path b q w p → w = [] → ∀ o, Steps b.epsFrom o q → Steps b.epsFrom o p := by
      intro q w p h
      induction h with
      | nil => exact fun _ _ h => h
      | eps h _ ih => exact fun e o ho => ih e o (.snoc ho (mem_epsFrom.2 h))
      | sym _ _ _ => exact fun e => nomatch e
    exact fun h => this q [] p h rfl q .refl

theorem closure_spec {b : Builder} (hb : b.OK) {q : Nat} (hq : q < b.size) : ∃ cl, closure b q = .ok cl ∧ ∀ p, p ∈ cl ↔ Path b q [] p := by
  unfold closure
  rw [closeLoop_eq]
  obtain ⟨r, h1, h2⟩ := starLoop_right (step := fun x => .ok (b.epsFrom x)) (next := b.epsFrom) (N := b.size) (f := b.size + 1) (fun _ _ => rfl) (fun x _ y hy => hb.eps x y (mem_epsFrom.1 hy)) hq (Nat.le_succ _)
  exact ⟨r, h1, fun p => (h2 p).trans steps_eps⟩

/-! ## Moves without empty ones -/

/-- The moves of a map. -/
def Has (m : List (Int × List Nat)) (x : Int) (t : Nat) : Prop := ∃ s, (x, s) ∈ m ∧ t ∈ s

theorem has_mapInsert {x y : Int} {t u : Nat} : ∀ {m : List (Int × List Nat)}, Has (mapInsert x t m) y u ↔ (y = x ∧ u = t) ∨ Has m y u
  | [] => by
    unfold mapInsert Has
    simp only [List.mem_singleton, Prod.mk.injEq, List.not_mem_nil, false_and, exists_false, or_false]
    constructor
    · rintro ⟨s, ⟨rfl, rfl⟩, h⟩; exact ⟨rfl, List.mem_singleton.1 h⟩
    · rintro ⟨rfl, rfl⟩; exact ⟨_, ⟨rfl, rfl⟩, .head _⟩
  | (z, s) :: m => by
    rw [mapInsert]
    split
    · unfold Has
      constructor
      · rintro ⟨r, h, hu⟩
        rcases List.mem_cons.1 h with h | h
        · cases h; exact .inl ⟨rfl, List.mem_singleton.1 hu⟩
        · exact .inr ⟨r, h, hu⟩
      · rintro (⟨rfl, rfl⟩ | ⟨r, h, hu⟩)
        · exact ⟨_, .head _, .head _⟩
        · exact ⟨r, .tail _ h, hu⟩
    · split
      · rename_i e
        subst e
        unfold Has
        constructor
        · rintro ⟨r, h, hu⟩
          rcases List.mem_cons.1 h with h | h
          · cases h
            rcases mem_setInsert.1 hu with hu | hu
            · exact .inl ⟨rfl, hu⟩
            · exact .inr ⟨s, .head _, hu⟩
          · exact .inr ⟨r, .tail _ h, hu⟩
        · rintro (⟨rfl, rfl⟩ | ⟨r, h, hu⟩)
          · exact ⟨_, .head _, mem_setInsert.2 (.inl rfl)⟩
          · rcases List.mem_cons.1 h with h | h
            · cases h; exact ⟨_, .head _, mem_setInsert.2 (.inr hu)⟩
            · exact ⟨r, .tail _ h, hu⟩
      · have ih := has_mapInsert (x := x) (y := y) (t := t) (u := u) (m := m)
        constructor
        · rintro ⟨r, h, hu⟩
          rcases List.mem_cons.1 h with h | h
          · cases h; exact .inr ⟨_, .head _, hu⟩
          · rcases ih.1 ⟨r, h, hu⟩ with h | ⟨r, h, hu⟩
            · exact .inl h
            · exact .inr ⟨r, .tail _ h, hu⟩
        · intro h
          have : (∃ r, (y, r) = (z, s) ∧ u ∈ r) ∨ Has (mapInsert x t m) y u := by
            rcases h with h | ⟨r, h, hu⟩
            · exact .inr (ih.2 (.inl h))
            · rcases List.mem_cons.1 h with h | h
              · exact .inl ⟨r, h, hu⟩
              · exact .inr (ih.2 (.inr ⟨r, h, hu⟩))
          rcases this with ⟨r, h, hu⟩ | ⟨r, h, hu⟩
          · exact ⟨r, by rw [h]; exact .head _, hu⟩
          · exact ⟨r, .tail _ h, hu⟩

/-- The keys are in increasing order. -/
def Sorted {β : Type} (m : List (Int × β)) : Prop := (m.map (·.1)).Pairwise (· < ·)

theorem Sorted.isMap {β : Type} {m : List (Int × β)} (h : Sorted m) : IsMap m := by
  refine List.Pairwise.imp (fun h e => ?_) h
  subst e; exact absurd h (Int.lt_irrefl _)

theorem keys_mapInsert {x y : Int} {t : Nat} : ∀ {m : List (Int × List Nat)}, y ∈ (mapInsert x t m).map (·.1) → y = x ∨ y ∈ m.map (·.1)
  | [], h => .inl (by simpa [mapInsert] using h)
  | (z, s) :: m, h => by
    rw [mapInsert] at h
    split at h
    · simp only [List.map_cons, List.mem_cons] at h ⊢; exact h
    · split at h
      · exact .inr h
      · simp only [List.map_cons, List.mem_cons] at h ⊢
        rcases h with h | h
        · exact .inr (.inl h)
        · rcases keys_mapInsert h with h | h
          · exact .inl h
          · exact .inr (.inr h)

theorem sorted_mapInsert {x : Int} {t : Nat} : ∀ {m : List (Int × List Nat)}, Sorted m → Sorted (mapInsert x t m)
  | [], _ => by simp [mapInsert, Sorted]
  | (z, s) :: m, h => by
    obtain ⟨h1, h2⟩ := List.pairwise_cons.1 (show (z :: m.map (·.1)).Pairwise (· < ·) from h)
    rw [mapInsert]
    split
    · rename_i hx
      exact List.pairwise_cons.2 ⟨fun y hy => by
        rcases List.mem_cons.1 (show y ∈ z :: m.map (·.1) from hy) with rfl | hy
        · exact hx
        · have := h1 y hy
          show x < y
          omega, h⟩
    · split
      · exact h
      · rename_i hx hne
        refine List.pairwise_cons.2 ⟨fun y hy => ?_, sorted_mapInsert h2⟩
        rcases keys_mapInsert hy with rfl | hy
        · show z < y; omega
        · exact h1 y hy

theorem visit_spec : ∀ (arcs : List (Int × Nat)) (m : List (Int × List Nat)) (known queue : List Nat), Sorted m → known.Nodup →
    ∃ new, (visit arcs m known queue).2.1 = known ++ new ∧ (visit arcs m known queue).2.2 = queue ++ new ∧ (known ++ new).Nodup ∧ Sorted (visit arcs m known queue).1 ∧
      (∀ x t, Has (visit arcs m known queue).1 x t ↔ Has m x t ∨ (x, t) ∈ arcs) ∧ (∀ t ∈ new, ∃ x, (x, t) ∈ arcs) ∧ ∀ x t, (x, t) ∈ arcs → t ∈ known ++ new
  | [], m, known, queue, hm, hk => ⟨[], by simp [visit], by simp [visit], by simpa using hk, hm, by simp [visit], by simp, by simp⟩
  | (x, t) :: arcs, m, known, queue, hm, hk => by
    rw [visit]
    split
    · rename_i ht
      obtain ⟨new, h1, h2, h3, h4, h5, h6, h7⟩ := visit_spec arcs (mapInsert x t m) known queue (sorted_mapInsert hm) hk
      refine ⟨new, h1, h2, h3, h4, fun y u => ?_, fun u hu => ?_, fun y u hu => ?_⟩
      · rw [h5, has_mapInsert, List.mem_cons, Prod.mk.injEq]
        constructor
        · rintro ((h | h) | h)
          · exact .inr (.inl h)
          · exact .inl h
          · exact .inr (.inr h)
        · rintro (h | h | h)
          · exact .inl (.inr h)
          · exact .inl (.inl h)
          · exact .inr h
      · obtain ⟨y, hy⟩ := h6 u hu; exact ⟨y, .tail _ hy⟩
      · rcases List.mem_cons.1 hu with hu | hu
        · cases hu; exact List.mem_append_left _ ht
        · exact h7 y u hu
    · rename_i ht
      obtain ⟨new, h1, h2, h3, h4, h5, h6, h7⟩ := visit_spec arcs (mapInsert x t m) (known ++ [t]) (queue ++ [t]) (sorted_mapInsert hm)
        (List.nodup_append.2 ⟨hk, by simp, fun a ha b hb => by cases List.mem_singleton.1 hb; rintro rfl; exact ht ha⟩)
      have e1 : ∀ l : List Nat, l ++ [t] ++ new = l ++ t :: new := fun l => by simp
      rw [e1] at h1 h2 h3
      refine ⟨t :: new, h1, h2, h3, h4, fun y u => ?_, fun u hu => ?_, fun y u hu => ?_⟩
      · rw [h5, has_mapInsert, List.mem_cons, Prod.mk.injEq]
        constructor
        · rintro ((h | h) | h)
          · exact .inr (.inl h)
          · exact .inl h
          · exact .inr (.inr h)
        · rintro (h | h | h)
          · exact .inl (.inr h)
          · exact .inl (.inl h)
          · exact .inr h
      · rcases List.mem_cons.1 hu with rfl | hu
        · exact ⟨x, .head _⟩
        · obtain ⟨y, hy⟩ := h6 u hu; exact ⟨y, .tail _ hy⟩
      · rcases List.mem_cons.1 hu with hu | hu
        · cases hu; simp
        · rw [← e1]; exact h7 y u hu

/-- What is found out about a state `q` when it is visited; `known` are the states that have been found. -/
structure Visited (b : Builder) (accept : Nat) (known : List Nat) (q : Nat) (r : List (Int × List Nat) × Bool) : Prop where
  final : r.2 = true ↔ Path b q [] accept
  sorted : Sorted r.1
  moves : ∀ x t, Has r.1 x t ↔ ∃ p, Path b q [] p ∧ (p, x, t) ∈ b.sym
  known : ∀ x t, Has r.1 x t → t ∈ known

theorem explore_spec {b : Builder} (hb : b.OK) {accept : Nat} : ∀ (f : Nat) (done queue : List Nat), (done ++ queue).Nodup → (∀ q ∈ done ++ queue, q < b.size) → b.size ≤ f + done.length →
    ∃ more raw, explore b accept f (done ++ queue) queue = .ok (done ++ queue ++ more, raw) ∧ (done ++ queue ++ more).Nodup ∧ raw.length = (queue ++ more).length ∧
      ∀ (i : Nat) q r, (queue ++ more)[i]? = some q → raw[i]? = some r → Visited b accept (done ++ queue ++ more) q r
  | f, done, [], hn, _, _ => ⟨[], [], by cases f <;> simp [explore], by simpa using hn, rfl, fun i q r h => by simp at h⟩
  | 0, done, q :: queue, hn, hq, hf => by
    have := length_le_of_subset _ (List.range b.size) hn fun y hy => List.mem_range.2 (hq y hy)
    simp only [List.length_range, List.length_append, List.length_cons] at this
    omega
  | f + 1, done, q :: queue, hn, hq, hf => by
    rw [explore]
    obtain ⟨cl, h1, h2⟩ := closure_spec hb (hq q (by simp))
    rw [h1, Knapsack.chk_ok_bind]
    obtain ⟨new, v1, v2, v3, v4, v5, v6, v7⟩ := visit_spec (cl.flatMap b.symFrom) [] (done ++ q :: queue) queue (by simp [Sorted]) hn
    dsimp only
    rw [v1, v2]
    have e1 : done ++ q :: queue ++ new = (done ++ [q]) ++ (queue ++ new) := by simp
    rw [e1] at v3 v7 ⊢
    have hlt : ∀ p ∈ done ++ [q] ++ (queue ++ new), p < b.size := by
      intro p hp
      rw [← e1] at hp
      rcases List.mem_append.1 hp with hp | hp
      · exact hq p hp
      · obtain ⟨x, hx⟩ := v6 p hp
        obtain ⟨o, _, ho⟩ := List.mem_flatMap.1 hx
        exact hb.sym o x p (mem_symFrom.1 ho)
    obtain ⟨more, raw, w1, w0, w2, w3⟩ := explore_spec hb (accept := accept) f (done ++ [q]) (queue ++ new) v3 hlt (by simp; omega)
    · rw [w1, Knapsack.chk_ok_bind]
      have e2 : done ++ q :: queue ++ (new ++ more) = done ++ [q] ++ (queue ++ new) ++ more := by simp
      refine ⟨new ++ more, _, by rw [e2], by rw [e2]; exact w0, by simp [w2], fun i p r hi hr => ?_⟩
      rw [e2]
      cases i with
      | zero =>
        cases hi
        cases hr
        refine ⟨by rw [decide_eq_true_eq, h2], v4, fun x t => ?_, fun x t h => ?_⟩
        · rw [v5]
          simp only [Has, List.not_mem_nil, false_and, exists_false, false_or, List.mem_flatMap, mem_symFrom, h2]
        · rw [v5] at h
          rcases h with ⟨_, h, _⟩ | h
          · cases h
          · exact List.mem_append_left _ (v7 x t h)
      | succ i => exact w3 i p r (by simpa using hi) (by simpa using hr)

/-! ## Numbering -/

theorem idxOf?_mem {t : Nat} : ∀ {l : List Nat}, t ∈ l → ∃ i, l.idxOf? t = some i ∧ l[i]? = some t := by
  intro l h
  cases e : l.idxOf? t with
  | none => rw [List.idxOf?_eq_none_iff] at e; exact absurd h e
  | some i =>
    refine ⟨i, rfl, ?_⟩
    rw [List.idxOf?, List.findIdx?_eq_some_iff_getElem] at e
    obtain ⟨hi, h1, _⟩ := e
    rw [List.getElem?_eq_getElem hi]
    simpa using h1

theorem renumberSet_spec {known : List Nat} (hk : known.Nodup) : ∀ (ts : List Nat) (acc : List Int), (∀ t ∈ ts, t ∈ known) →
    ∃ s, renumberSet known ts acc = .ok s ∧ ∀ k : Int, k ∈ s ↔ k ∈ acc ∨ ∃ (i : Nat) (t : Nat), k = i ∧ t ∈ ts ∧ known[i]? = some t
  | [], acc, _ => ⟨acc, rfl, fun k => by simp⟩
  | t :: ts, acc, h => by
    obtain ⟨i, hi, hi'⟩ := idxOf?_mem (h t (.head _))
    rw [renumberSet, hi]
    obtain ⟨s, h1, h2⟩ := renumberSet_spec hk ts (setInsert (i : Int) acc) fun u hu => h u (.tail _ hu)
    refine ⟨s, h1, fun k => ?_⟩
    rw [h2, mem_setInsert]
    constructor
    · rintro ((h | h) | ⟨j, u, hj, hu, hju⟩)
      · exact .inr ⟨i, t, h, .head _, hi'⟩
      · exact .inl h
      · exact .inr ⟨j, u, hj, .tail _ hu, hju⟩
    · rintro (h | ⟨j, u, hj, hu, hju⟩)
      · exact .inl (.inr h)
      · rcases List.mem_cons.1 hu with rfl | hu
        · have := (List.getElem?_inj (List.getElem?_eq_some_iff.1 hi').1 hk).1 (hi'.trans hju.symm)
          subst this
          exact .inl (.inl hj)
        · exact .inr ⟨j, u, hj, hu, hju⟩

theorem renumber_spec {known : List Nat} (hk : known.Nodup) : ∀ m : List (Int × List Nat), (∀ x t, Has m x t → t ∈ known) →
    ∃ m', renumber known m = .ok m' ∧ m'.map (·.1) = m.map (·.1) ∧ ∀ x (k : Int), (∃ s, (x, s) ∈ m' ∧ k ∈ s) ↔ ∃ (i : Nat) (t : Nat), k = i ∧ Has m x t ∧ known[i]? = some t
  | [], _ => ⟨[], rfl, rfl, fun x k => by simp [Has]⟩
  | (x, ts) :: m, h => by
    obtain ⟨s, h1, h2⟩ := renumberSet_spec hk ts [] fun t ht => h x t ⟨ts, .head _, ht⟩
    obtain ⟨m', h3, h4, h5⟩ := renumber_spec hk m fun y t ⟨r, hr, ht⟩ => h y t ⟨r, .tail _ hr, ht⟩
    rw [renumber, h1, Knapsack.chk_ok_bind, h3, Knapsack.chk_ok_bind]
    refine ⟨_, rfl, by simp [h4], fun y k => ?_⟩
    constructor
    · rintro ⟨r, hr, hkr⟩
      rcases List.mem_cons.1 hr with hr | hr
      · cases hr
        rcases (h2 k).1 hkr with h | ⟨i, t, e, ht, hi⟩
        · cases h
        · exact ⟨i, t, e, ⟨ts, .head _, ht⟩, hi⟩
      · obtain ⟨i, t, e, ⟨u, hu, ht⟩, hi⟩ := (h5 y k).1 ⟨r, hr, hkr⟩
        exact ⟨i, t, e, ⟨u, .tail _ hu, ht⟩, hi⟩
    · rintro ⟨i, t, e, ⟨u, hu, ht⟩, hi⟩
      rcases List.mem_cons.1 hu with hu | hu
      · cases hu
        exact ⟨s, .head _, (h2 k).2 (.inr ⟨i, t, e, ht, hi⟩)⟩
      · obtain ⟨r, hr, hkr⟩ := (h5 y k).2 ⟨i, t, e, ⟨u, hu, ht⟩, hi⟩
        exact ⟨r, .tail _ hr, hkr⟩

theorem number_spec {known : List Nat} (hk : known.Nodup) : ∀ (raw : List (List (Int × List Nat) × Bool)) (i : Nat), (∀ r ∈ raw, ∀ x t, Has r.1 x t → t ∈ known) →
    ∃ ms fs, number known i raw = .ok (ms, fs) ∧ ms.length = raw.length ∧ (∀ k : Int, k ∈ fs ↔ ∃ (j : Nat) (m : List (Int × List Nat)), k = ((i + j : Nat) : Int) ∧ raw[j]? = some (m, true)) ∧
      ∀ (j : Nat) m r, ms[j]? = some m → raw[j]? = some r → m.map (·.1) = r.1.map (·.1) ∧ ∀ x (k : Int), (∃ s, (x, s) ∈ m ∧ k ∈ s) ↔ ∃ (i : Nat) (t : Nat), k = i ∧ Has r.1 x t ∧ known[i]? = some t
  | [], i, _ => ⟨[], [], rfl, rfl, fun k => by simp, fun j m r h => by simp at h⟩
  | (m, fin) :: raw, i, h => by
    obtain ⟨m', h1, h2, h3⟩ := renumber_spec hk m (h (m, fin) (.head _))
    obtain ⟨ms, fs, h4, h5, h6, h7⟩ := number_spec hk raw (i + 1) fun r hr => h r (.tail _ hr)
    rw [number, h1, Knapsack.chk_ok_bind, h4, Knapsack.chk_ok_bind]
    refine ⟨_, _, rfl, by simp [h5], fun k => ?_, fun j m'' r hj hr => ?_⟩
    · have e : (∃ (j : Nat) (m' : List (Int × List Nat)), k = ((i + j : Nat) : Int) ∧ ((m, fin) :: raw)[j]? = some (m', true)) ↔ (k = (i : Int) ∧ fin = true) ∨ k ∈ fs := by
        rw [h6]
        constructor
        · rintro ⟨j, m', hk, hj⟩
          cases j with
          | zero =>
            simp only [List.getElem?_cons_zero, Option.some.injEq, Prod.mk.injEq] at hj
            exact .inl ⟨by simpa using hk, hj.2⟩
          | succ j => exact .inr ⟨j, m', by rw [hk]; congr 1; omega, by simpa using hj⟩
        · rintro (⟨hk, hf⟩ | ⟨j, m', hk, hj⟩)
          · exact ⟨0, m, by simpa using hk, by simp [hf]⟩
          · exact ⟨j + 1, m', by rw [hk]; congr 1; omega, by simpa using hj⟩
      rw [e]
      cases fin <;> simp
    · cases j with
      | zero => cases hj; cases hr; exact ⟨h2, h3⟩
      | succ j => exact h7 j m'' r (by simpa using hj) (by simpa using hr)

/-! ## The automaton -/

theorem path_nil_cons {b : Builder} {q r : Nat} {x : Int} {w : List Int} : Path b q (x :: w) r ↔ ∃ p t, Path b q [] p ∧ (p, x, t) ∈ b.sym ∧ Path b t w r := by
  constructor
  · have : ∀ q w' r, Path b q w' r → w' = x :: w → ∃ p t, Path b q [] p ∧ (p, x, t) ∈ b.sym ∧ Path b t w r := by
      intro q w' r h
      induction h with
      | nil => exact fun e => nomatch e
      | eps h _ ih =>
        intro e
        obtain ⟨p, t, h1, h2⟩ := ih e
        exact ⟨p, t, .eps h h1, h2⟩
      | @sym p t r y w'' h h' _ =>
        intro e
        cases e
        exact ⟨p, t, .nil _, h, h'⟩
    exact fun h => this q _ r h rfl
  · rintro ⟨p, t, h1, h2, h3⟩
    exact h1.trans (.sym h2 h3)

/-- What `build_nfa` makes accepts the words that the tree matches; its states are those that it uses, and each state has at most one entry for a symbol. -/
theorem buildNfa_right (c : Core) : ∃ nfa, buildNfa c = .ok nfa ∧ Regular.inRange nfa.numStates nfa.transitions = true ∧ (∀ m ∈ nfa.transitions, IsMap m) ∧ (∀ k ∈ nfa.final, 0 ≤ k ∧ k < nfa.numStates) ∧
    ∀ w, Accepts (Regular.Moves nfa.transitions) nfa.final 0 0 w ↔ Lang c w := by
  unfold buildNfa
  cases e : build c ⟨0, [], []⟩ with
  | mk sa b =>
    obtain ⟨s, a⟩ := sa
    obtain ⟨hb, hs, hw⟩ := build_right e
    dsimp only
    obtain ⟨more, raw, h1, hn, h2, h3⟩ := explore_spec hb (accept := a) (b.size + 1) [] [s] (by simp) (by simpa using hs) (by simp)
    rw [List.nil_append] at h1 hn h3
    rw [h1, Knapsack.chk_ok_bind]
    dsimp only
    have hvis : ∀ (i : Nat) r, raw[i]? = some r → ∃ q, ([s] ++ more)[i]? = some q ∧ Visited b a ([s] ++ more) q r := by
      intro i r hi
      have hl : i < ([s] ++ more).length := h2 ▸ (List.getElem?_eq_some_iff.1 hi).1
      exact ⟨_, List.getElem?_eq_getElem hl, h3 i _ r (List.getElem?_eq_getElem hl) hi⟩
    obtain ⟨ms, fs, n1, n2, n3, n4⟩ := number_spec hn raw 0 fun r hr => by
      obtain ⟨i, hi⟩ := List.mem_iff_getElem?.1 hr
      obtain ⟨q, _, hv⟩ := hvis i r hi
      exact hv.known
    rw [n1, Knapsack.chk_ok_bind]
    refine ⟨_, rfl, ?_, ?_, ?_, ?_⟩
    · show Regular.inRange raw.length ms = true
      simp only [Regular.inRange, Bool.and_eq_true, List.all_eq_true, decide_eq_true_eq]
      refine ⟨⟨by rw [h2]; simp, by omega⟩, fun m hm p hp k hk => ?_⟩
      obtain ⟨j, hj⟩ := List.mem_iff_getElem?.1 hm
      have hjl : j < raw.length := n2 ▸ (List.getElem?_eq_some_iff.1 hj).1
      obtain ⟨i, t, rfl, _, hi⟩ := ((n4 j m _ hj (List.getElem?_eq_getElem hjl)).2 p.1 k).1 ⟨p.2, hp, hk⟩
      have := (List.getElem?_eq_some_iff.1 hi).1
      omega
    · intro m hm
      obtain ⟨j, hj⟩ := List.mem_iff_getElem?.1 hm
      have hjl : j < raw.length := n2 ▸ (List.getElem?_eq_some_iff.1 hj).1
      have := (n4 j m _ hj (List.getElem?_eq_getElem hjl)).1
      obtain ⟨q, _, hv⟩ := hvis j _ (List.getElem?_eq_getElem hjl)
      refine Sorted.isMap ?_
      unfold Sorted
      rw [this]; exact hv.sorted
    · intro k hk
      obtain ⟨j, m, rfl, hj⟩ := (n3 k).1 hk
      have := (List.getElem?_eq_some_iff.1 hj).1
      constructor
      · omega
      · show ((0 + j : Nat) : Int) < (raw.length : Int)
        omega
    · have main : ∀ (w : List Int) (i j q : Nat), ([s] ++ more)[j]? = some q → (Accepts (Regular.Moves ms) fs i j w ↔ Path b q w a) := by
        intro w
        induction w with
        | nil =>
          intro i j q hj
          have hjl : j < raw.length := h2 ▸ (List.getElem?_eq_some_iff.1 hj).1
          have hv := h3 j q _ hj (List.getElem?_eq_getElem hjl)
          show (j : Int) ∈ fs ↔ _
          rw [n3, ← hv.final]
          constructor
          · rintro ⟨j', m, e, hm⟩
            have : j' = j := by omega
            subst this
            rw [List.getElem?_eq_getElem hjl] at hm
            injection hm with hm
            rw [hm]
          · intro h
            refine ⟨j, raw[j].1, by simp, ?_⟩
            rw [List.getElem?_eq_getElem hjl, ← h]
        | cons x w ih =>
          intro i j q hj
          have hjl : j < raw.length := h2 ▸ (List.getElem?_eq_some_iff.1 hj).1
          have hjm : j < ms.length := n2 ▸ hjl
          have hv := h3 j q _ hj (List.getElem?_eq_getElem hjl)
          have hm := (n4 j _ _ (List.getElem?_eq_getElem hjm) (List.getElem?_eq_getElem hjl)).2
          rw [path_nil_cons]
          show (∃ q', Regular.Moves ms i j x q' ∧ _) ↔ _
          constructor
          · rintro ⟨q', ⟨m, s', hms, hx, hq⟩, hacc⟩
            rw [List.getElem?_eq_getElem hjm] at hms
            cases hms
            obtain ⟨i', t, e, hh, hi'⟩ := (hm x q').1 ⟨s', hx, hq⟩
            have : i' = q' := by omega
            subst this
            obtain ⟨p, hp, hs⟩ := (hv.moves x t).1 hh
            exact ⟨p, t, hp, hs, (ih (i + 1) i' t hi').1 hacc⟩
          · rintro ⟨p, t, hp, hs, hpath⟩
            have hh := (hv.moves x t).2 ⟨p, hp, hs⟩
            obtain ⟨i', hi'⟩ := List.mem_iff_getElem?.1 (hv.known x t hh)
            obtain ⟨s', hx, hq⟩ := (hm x i').2 ⟨i', t, rfl, hh, hi'⟩
            exact ⟨i', ⟨_, s', List.getElem?_eq_getElem hjm, hx, hq⟩, (ih (i + 1) i' t hi').2 hpath⟩
      exact fun w => (main w 0 0 s rfl).trans (hw w)

end Gcs.Regex
