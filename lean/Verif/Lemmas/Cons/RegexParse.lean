import Verif.Model.Cons.Regex
import Verif.Lemmas.Cons.BinPackingDag

/-!
# Parsing regular expressions
-/

namespace Gcs.Regex
open IntervalSet

/-! ## Sets -/

theorem mem_setInsert {α : Type} [LT α] [DecidableLT α] [DecidableEq α] {x y : α} : ∀ {l : List α}, y ∈ setInsert x l ↔ y = x ∨ y ∈ l
  | [] => by simp [setInsert]
  | z :: l => by
    rw [setInsert]
    split
    · simp
    · split
      · rename_i e
        subst e
        simp
      · simp only [List.mem_cons, mem_setInsert (l := l)]
        constructor
        · rintro (h | h | h)
          · exact .inr (.inl h)
          · exact .inl h
          · exact .inr (.inr h)
        · rintro (h | h | h)
          · exact .inr (.inl h)
          · exact .inl h
          · exact .inr (.inr h)

theorem mem_insertAll {x : Int} : ∀ {xs items : List Int}, x ∈ insertAll xs items ↔ x ∈ xs ∨ x ∈ items
  | [], items => by simp [insertAll]
  | y :: xs, items => by
    have := mem_insertAll (x := x) (xs := xs) (items := setInsert y items)
    unfold insertAll at this ⊢
    rw [List.foldl_cons, this, mem_setInsert, List.mem_cons]
    constructor
    · rintro (h | h | h)
      · exact .inl (.inr h)
      · exact .inl (.inl h)
      · exact .inr h
    · rintro ((h | h) | h)
      · exact .inr (.inl h)
      · exact .inl h
      · exact .inr (.inr h)

/-! ## Languages -/

/-- What a tree matches. -/
def Lang : Core → List Int → Prop
  | .empty, w => w = []
  | .symbols xs, w => ∃ x, w = [x] ∧ x ∈ xs
  | .concat a b, w => ∃ u v, w = u ++ v ∧ Lang a u ∧ Lang b v
  | .union a b, w => Lang a w ∨ Lang b w
  | .star a, w => ∃ k, Times (Lang a) k w

theorem Times.congr {L M : List Int → Prop} (h : ∀ w, L w ↔ M w) : Times L = Times M := by
  rw [show L = M from funext fun w => propext (h w)]

theorem Times.append {L : List Int → Prop} : ∀ {m n : Nat} {u v : List Int}, Times L m u → Times L n v → Times L (m + n) (u ++ v)
  | 0, n, u, v, h1, h2 => by
    cases (show u = [] from h1)
    simpa using h2
  | m + 1, n, u, v, h1, h2 => by
    obtain ⟨x, y, rfl, hx, hy⟩ := h1
    rw [show m + 1 + n = (m + n) + 1 by omega]
    exact ⟨x, y ++ v, by simp, hx, hy.append h2⟩

theorem Times.split {L : List Int → Prop} : ∀ {m n : Nat} {w : List Int}, Times L (m + n) w → ∃ u v, w = u ++ v ∧ Times L m u ∧ Times L n v
  | 0, n, w, h => ⟨[], w, by simp, rfl, by simpa using h⟩
  | m + 1, n, w, h => by
    rw [show m + 1 + n = (m + n) + 1 by omega] at h
    obtain ⟨x, y, rfl, hx, hy⟩ := h
    obtain ⟨u, v, rfl, hu, hv⟩ := Times.split hy
    exact ⟨x ++ u, v, by simp, ⟨x, u, rfl, hx, hu⟩, hv⟩

theorem times_one {L : List Int → Prop} {w : List Int} : Times L 1 w ↔ L w := by
  constructor
  · rintro ⟨u, v, rfl, h1, h2⟩
    cases (show v = [] from h2)
    simpa using h1
  · exact fun h => ⟨w, [], by simp, h, rfl⟩

theorem lang_repeatMore {atom : Core} : ∀ (k : Nat) (c : Core) (w : List Int), Lang (repeatMore atom k c) w ↔ ∃ u v, w = u ++ v ∧ Lang c u ∧ Times (Lang atom) k v
  | 0, c, w => by
    rw [repeatMore]
    exact ⟨fun h => ⟨w, [], by simp, h, rfl⟩, fun ⟨u, v, e, h1, h2⟩ => by cases (show v = [] from h2); simpa [e] using h1⟩
  | k + 1, c, w => by
    rw [repeatMore, lang_repeatMore k]
    constructor
    · rintro ⟨u, v, rfl, ⟨x, y, rfl, hx, hy⟩, hv⟩
      exact ⟨x, y ++ v, by simp, hx, ⟨y, v, rfl, hy, hv⟩⟩
    · rintro ⟨u, v, rfl, hu, ⟨y, v, rfl, hy, hv⟩⟩
      exact ⟨u ++ y, v, by simp, ⟨u, y, rfl, hu, hy⟩, hv⟩

theorem lang_repeatExact {atom : Core} {n : Nat} {w : List Int} : Lang (repeatExact atom n) w ↔ Times (Lang atom) n w := by
  unfold repeatExact
  cases n with
  | zero => exact Iff.rfl
  | succ n =>
    rw [if_neg (by omega), lang_repeatMore]
    exact Iff.rfl

theorem lang_repeatAtLeast {atom : Core} {n : Nat} {w : List Int} : Lang (repeatAtLeast atom n) w ↔ ∃ k, n ≤ k ∧ Times (Lang atom) k w := by
  unfold repeatAtLeast
  constructor
  · rintro ⟨u, v, rfl, h1, k, h2⟩
    exact ⟨n + k, by omega, (lang_repeatExact.1 h1).append h2⟩
  · rintro ⟨k, hk, h⟩
    obtain ⟨u, v, rfl, h1, h2⟩ := Times.split (m := n) (n := k - n) (by rwa [show n + (k - n) = k by omega])
    exact ⟨u, v, rfl, lang_repeatExact.2 h1, _, h2⟩

/-- Words that may be left out. -/
theorem times_opt {L : List Int → Prop} : ∀ {n : Nat} {w : List Int}, Times (fun w => L w ∨ w = []) n w ↔ ∃ k, k ≤ n ∧ Times L k w
  | 0, w => ⟨fun h => ⟨0, by omega, h⟩, fun ⟨k, hk, h⟩ => by cases (show k = 0 by omega); exact h⟩
  | n + 1, w => by
    constructor
    · rintro ⟨u, v, rfl, h1, h2⟩
      obtain ⟨k, hk, h⟩ := times_opt.1 h2
      rcases h1 with h1 | rfl
      · exact ⟨k + 1, by omega, u, v, rfl, h1, h⟩
      · exact ⟨k, by omega, by simpa using h⟩
    · rintro ⟨k, hk, h⟩
      cases k with
      | zero => exact ⟨[], w, by simp, .inr rfl, times_opt.2 ⟨0, by omega, h⟩⟩
      | succ k =>
        obtain ⟨u, v, rfl, h1, h2⟩ := h
        exact ⟨u, v, rfl, .inl h1, times_opt.2 ⟨k, by omega, h2⟩⟩

theorem lang_repeatBetween {atom : Core} {n m : Nat} (hnm : n ≤ m) {w : List Int} : Lang (repeatBetween atom n m) w ↔ ∃ k, n ≤ k ∧ k ≤ m ∧ Times (Lang atom) k w := by
  unfold repeatBetween
  rw [lang_repeatMore]
  have e : Lang (.union atom .empty) = fun w => Lang atom w ∨ w = [] := rfl
  constructor
  · rintro ⟨u, v, rfl, h1, h2⟩
    rw [e] at h2
    obtain ⟨k, hk, h⟩ := times_opt.1 h2
    exact ⟨n + k, by omega, by omega, (lang_repeatExact.1 h1).append h⟩
  · rintro ⟨k, hk, hm, h⟩
    obtain ⟨u, v, rfl, h1, h2⟩ := Times.split (m := n) (n := k - n) (by rwa [show n + (k - n) = k by omega])
    exact ⟨u, v, rfl, lang_repeatExact.2 h1, e ▸ times_opt.2 ⟨k - n, by omega, h2⟩⟩

/-- The tree matches what the expression does. -/
def Means (A : List Int) (c : Core) (e : Expr) : Prop := ∀ w, Lang c w ↔ e.Matches (· ∈ A) w

section
variable {A : List Int} {a b : Core} {e e' : Expr}

theorem Means.times (h : Means A a e) : Times (Lang a) = Times (e.Matches (· ∈ A)) := Times.congr h

theorem Means.seq (h : Means A a e) (h' : Means A b e') : Means A (.concat a b) (.seq e e') := fun w => by
  simp only [Lang, Expr.Matches, h _, h' _]

theorem Means.alt (h : Means A a e) (h' : Means A b e') : Means A (.union a b) (.alt e e') := fun w => by
  simp only [Lang, Expr.Matches, h _, h' _]

theorem Means.star (h : Means A a e) : Means A (.star a) (.star e) := fun w => by
  simp only [Lang, Expr.Matches, h.times]

theorem Means.plus (h : Means A a e) : Means A (.concat a (.star a)) (.plus e) := fun w => by
  simp only [Lang, Expr.Matches, ← h.times]
  constructor
  · rintro ⟨u, v, rfl, h1, k, h2⟩
    exact ⟨k + 1, by omega, u, v, rfl, h1, h2⟩
  · rintro ⟨k, hk, ht⟩
    cases k with
    | zero => omega
    | succ k =>
      obtain ⟨u, v, rfl, h1, h2⟩ := ht
      exact ⟨u, v, rfl, h1, k, h2⟩

theorem Means.opt (h : Means A a e) : Means A (.union a .empty) (.opt e) := fun w => by
  simp only [Lang, Expr.Matches, h _]
  exact or_comm

theorem Means.exactly (h : Means A a e) (n : Nat) : Means A (repeatExact a n) (.exactly e n) := fun w => by
  rw [lang_repeatExact, h.times]; rfl

theorem Means.atLeast (h : Means A a e) (n : Nat) : Means A (repeatAtLeast a n) (.atLeast e n) := fun w => by
  rw [lang_repeatAtLeast, h.times]; rfl

theorem Means.between (h : Means A a e) {n m : Nat} (hnm : n ≤ m) : Means A (repeatBetween a n m) (.between e n m) := fun w => by
  rw [lang_repeatBetween hnm, h.times]; rfl

theorem means_lit (n : Nat) : Means A (.symbols [(n : Int)]) (.lit n) := fun w => by
  simp only [Lang, Expr.Matches, List.mem_singleton]
  exact ⟨fun ⟨x, h, e⟩ => e ▸ h, fun h => ⟨_, h, rfl⟩⟩

theorem means_any : Means A (.symbols A) .any := fun _ => Iff.rfl

theorem means_cls {items : List Int} {its : List (Nat × Nat)} (h : ∀ x, x ∈ items ↔ InClass its x) : Means A (.symbols items) (.cls false its) := fun w => by
  simp only [Lang, Expr.Matches, h]

theorem means_notCls {items : List Int} {its : List (Nat × Nat)} (h : ∀ x, x ∈ items ↔ InClass its x) : Means A (.symbols (A.filter fun x => decide (x ∉ items))) (.cls true its) := fun w => by
  simp only [Lang, Expr.Matches, List.mem_filter, decide_eq_true_eq, h]

end

/-! ## Classes -/

theorem iAdd_one {x : Int} (hx : i64Min ≤ x) : iAdd x 1 = if x < i64Max then .ok (x + 1) else .error .overflow := by
  by_cases h : x < i64Max
  · rw [if_pos h]
    exact iAdd_total ⟨hx, by omega⟩ (by decide) ⟨by omega, by omega⟩
  · rw [if_neg h]
    unfold iAdd throwIf addOverflows
    rw [if_pos (by decide)]
    have : rawSub i64Max i64Max 1 = .ok (i64Max - 1) := rfl
    rw [this, Knapsack.chk_ok_bind]
    rw [if_pos (show x > i64Max - 1 by omega)]
    rfl

/-- The values of a loop, or overflow if it reaches the largest number. -/
theorem countUp_spec : ∀ (f : Nat) (lo hi : Int), i64Min ≤ lo → (hi - lo + 1).toNat ≤ f →
    (countUp f lo hi = .error .overflow ∧ lo ≤ hi ∧ i64Max ≤ hi) ∨ ∃ xs, countUp f lo hi = .ok xs ∧ ∀ x, x ∈ xs ↔ lo ≤ x ∧ x ≤ hi
  | 0, lo, hi, _, hf => by
    rw [countUp, if_neg (by omega)]
    exact .inr ⟨[], rfl, fun x => ⟨fun h => (nomatch h), fun h => by omega⟩⟩
  | f + 1, lo, hi, hl, hf => by
    rw [countUp]
    by_cases h : lo ≤ hi
    · rw [if_pos h, iAdd_one hl]
      by_cases h' : lo < i64Max
      · rw [if_pos h', Knapsack.chk_ok_bind]
        rcases countUp_spec f (lo + 1) hi (by omega) (by omega) with ⟨e, h1, h2⟩ | ⟨xs, e, h1⟩
        · rw [e]; exact .inl ⟨rfl, h, h2⟩
        · rw [e]
          refine .inr ⟨_, rfl, fun x => ?_⟩
          rw [List.mem_cons, h1]
          constructor
          · rintro (rfl | h) <;> omega
          · intro h; by_cases hx : x = lo
            · exact .inl hx
            · exact .inr (by omega)
      · rw [if_neg h']; exact .inl ⟨rfl, h, by omega⟩
    · rw [if_neg h]
      exact .inr ⟨[], rfl, fun x => ⟨fun h => (nomatch h), fun h => by omega⟩⟩

theorem inClass_cons {p : Nat × Nat} {its : List (Nat × Nat)} {x : Int} : InClass (p :: its) x ↔ (((p.1 : Int) ≤ x ∧ x ≤ p.2) ∨ ((p.2 : Int) ≤ x ∧ x ≤ p.1)) ∨ InClass its x := by
  unfold InClass
  simp

theorem inClass_nil {x : Int} : ¬ InClass [] x := fun ⟨_, h, _⟩ => nomatch h

theorem inClass_point {n : Nat} {x : Int} : (((n : Int) ≤ x ∧ x ≤ n) ∨ ((n : Int) ≤ x ∧ x ≤ n)) ↔ x = n := by omega

theorem range_iff {n m : Nat} {x : Int} : ((if m < n then (m : Int) else n) ≤ x ∧ x ≤ (if m < n then (n : Int) else m)) ↔ ((n : Int) ≤ x ∧ x ≤ m) ∨ ((m : Int) ≤ x ∧ x ≤ n) := by
  split <;> omega

/-- What is read of a class is a list of items; there may be none. -/
inductive Items0 : List (Nat × Nat) → List Tok → Prop where
  | nil : Items0 [] []
  | one (n : Nat) {items : List (Nat × Nat)} {ts : List Tok} : Items0 items ts → Items0 ((n, n) :: items) (.num n :: ts)
  | range (n m : Nat) {items : List (Nat × Nat)} {ts : List Tok} : Items0 items ts → Items0 ((n, m) :: items) (.num n :: .dash :: .num m :: ts)

theorem Items.weak {its : List (Nat × Nat)} {ts : List Tok} (h : Items its ts) : Items0 its ts := by
  induction h with
  | one n => exact .one n .nil
  | range n m => exact .range n m .nil
  | oneMore n _ ih => exact .one n ih
  | rangeMore n m _ ih => exact .range n m ih

theorem Items0.strong {its : List (Nat × Nat)} {ts : List Tok} (h : Items0 its ts) : ts = [] ∨ Items its ts := by
  induction h with
  | nil => exact .inl rfl
  | one n h ih =>
    rcases ih with rfl | ih
    · cases h; exact .inr (.one n)
    · exact .inr (.oneMore n ih)
  | range n m h ih =>
    rcases ih with rfl | ih
    · cases h; exact .inr (.range n m)
    · exact .inr (.rangeMore n m ih)

/-- The loop that reads the items of a class: what it reads, or why it throws. -/
theorem setItems_spec (items : List Int) (ts : List Tok) :
    (setItems items ts = .error .invalidProblem) ∨ (setItems items ts = .error .overflow ∧ ∃ n : Nat, .num n ∈ ts ∧ i64Max ≤ n) ∨
    ∃ xs its used rest, setItems items ts = .ok (xs, rest) ∧ ts = used ++ rest ∧ Items0 its used ∧ ∀ x, x ∈ xs ↔ x ∈ items ∨ InClass its x := by
  fun_induction setItems items ts with
  | case1 items n m ts lo hi ih =>
    have hlo : i64Min ≤ lo := by
      have : 0 ≤ lo := by dsimp only [lo]; split <;> omega
      have : i64Min ≤ 0 := by decide
      omega
    rcases countUp_spec (hi - lo + 1).toNat lo hi hlo (Nat.le_refl _) with ⟨e, _, h2⟩ | ⟨xs, e, h1⟩
    · rw [e]
      refine .inr (.inl ⟨rfl, ?_⟩)
      by_cases hmn : m < n
      · refine ⟨n, .head _, ?_⟩
        dsimp only [hi] at h2; rw [if_pos hmn] at h2; exact h2
      · refine ⟨m, .tail _ (.tail _ (.head _)), ?_⟩
        dsimp only [hi] at h2; rw [if_neg hmn] at h2; exact h2
    · rw [e, Knapsack.chk_ok_bind]
      rcases ih xs with h | ⟨h, k, hk, hk'⟩ | ⟨ys, its, used, rest, h, hu, hi', hx⟩
      · exact .inl h
      · exact .inr (.inl ⟨h, k, .tail _ (.tail _ (.tail _ hk)), hk'⟩)
      · refine .inr (.inr ⟨ys, (n, m) :: its, _, rest, h, by rw [hu]; rfl, .range n m hi', fun x => ?_⟩)
        rw [hx, mem_insertAll, h1, inClass_cons]
        rw [show (lo ≤ x ∧ x ≤ hi) ↔ _ from range_iff]
        constructor
        · rintro ((h | h) | h)
          · exact .inr (.inl h)
          · exact .inl h
          · exact .inr (.inr h)
        · rintro (h | h | h)
          · exact .inl (.inr h)
          · exact .inl (.inl h)
          · exact .inr h
  | case2 => exact .inl rfl
  | case3 items n ts _ _ ih =>
    rcases ih with h | ⟨h, k, hk, hk'⟩ | ⟨ys, its, used, rest, h, hu, hi', hx⟩
    · exact .inl h
    · exact .inr (.inl ⟨h, k, .tail _ hk, hk'⟩)
    · refine .inr (.inr ⟨ys, (n, n) :: its, _, rest, h, by rw [hu]; rfl, .one n hi', fun x => ?_⟩)
      rw [hx, mem_setInsert, inClass_cons, inClass_point]
      constructor
      · rintro ((h | h) | h)
        · exact .inr (.inl h)
        · exact .inl h
        · exact .inr (.inr h)
      · rintro (h | h | h)
        · exact .inl (.inr h)
        · exact .inl (.inl h)
        · exact .inr h
  | case4 items ts => exact .inr (.inr ⟨items, [], [], ts, rfl, rfl, .nil, fun x => ⟨.inl, fun h => h.elim id fun h => absurd h inClass_nil⟩⟩)

theorem Items0.notDash {its : List (Nat × Nat)} {ts rest : List Tok} (h : Items0 its ts) (t : List Tok) : ts ++ .classClose :: rest ≠ .dash :: t := by
  cases h <;> simp

theorem setItems_one {items : List Int} {n : Nat} {ts : List Tok} (h : ∀ t, ts ≠ .dash :: t) : setItems items (.num n :: ts) = setItems (setInsert (n : Int) items) ts := by
  cases ts with
  | nil => rw [setItems] <;> simp
  | cons t ts =>
    cases t <;> first | exact absurd rfl (h _) | (rw [setItems] <;> simp)

/-- A class that is written as it should be is read. -/
theorem setItems_ok {its : List (Nat × Nat)} {used rest : List Tok} (h : Items0 its used) : ∀ items : List Int,
    RightOrOverflow (setItems items (used ++ .classClose :: rest)) (fun r => r.2 = .classClose :: rest ∧ ∀ x, x ∈ r.1 ↔ x ∈ items ∨ InClass its x) := by
  induction h with
  | nil =>
    intro items
    refine .inr ⟨(items, .classClose :: rest), by simp [setItems], rfl, fun x => ⟨.inl, fun h => h.elim id fun h => absurd h inClass_nil⟩⟩
  | one n h ih =>
    intro items
    rw [List.cons_append, setItems_one h.notDash]
    refine (ih (setInsert (n : Int) items)).mono fun r hr => ⟨hr.1, fun x => ?_⟩
    rw [hr.2, mem_setInsert, inClass_cons, inClass_point]
    constructor
    · rintro ((h | h) | h)
      · exact .inr (.inl h)
      · exact .inl h
      · exact .inr (.inr h)
    · rintro (h | h | h)
      · exact .inl (.inr h)
      · exact .inl (.inl h)
      · exact .inr h
  | range n m h ih =>
    intro items
    rw [List.cons_append, List.cons_append, List.cons_append, setItems]
    have hlo : i64Min ≤ (if m < n then (m : Int) else n) := by
      have : i64Min ≤ 0 := by decide
      split <;> omega
    rcases countUp_spec _ _ (if m < n then (n : Int) else m) hlo (Nat.le_refl _) with ⟨e, _, _⟩ | ⟨xs, e, h1⟩
    · rw [e]; exact .inl rfl
    · rw [e, Knapsack.chk_ok_bind]
      refine (ih _).mono fun r hr => ⟨hr.1, fun x => ?_⟩
      rw [hr.2, mem_insertAll, h1, inClass_cons, range_iff]
      constructor
      · rintro ((h | h) | h)
        · exact .inr (.inl h)
        · exact .inl h
        · exact .inr (.inr h)
      · rintro (h | h | h)
        · exact .inl (.inr h)
        · exact .inl (.inl h)
        · exact .inr h

/-- Why a part of the parser may throw. -/
def Err.Fair (ts : List Tok) (e : Err) : Prop := e = .invalidProblem ∨ (e = .overflow ∧ ∃ n : Nat, .num n ∈ ts ∧ i64Max ≤ n)

theorem Err.Fair.mono {ts us : List Tok} {e : Err} (h : Err.Fair ts e) (hs : ∀ t ∈ ts, t ∈ us) : Err.Fair us e := by
  rcases h with h | ⟨h, n, h1, h2⟩
  · exact .inl h
  · exact .inr ⟨h, n, hs _ h1, h2⟩

theorem setItems_shorter (items : List Int) (ts : List Tok) (xs : List Int) (rest : List Tok) (h : setItems items ts = .ok (xs, rest)) : ¬ ts.length < rest.length := by
  rcases setItems_spec items ts with e | ⟨e, _⟩ | ⟨xs', its, used, rest', e, hu, _⟩
  · rw [e] at h; cases h
  · rw [e] at h; cases h
  · rw [e] at h; cases h
    rw [hu, List.length_append]; omega

theorem parseItems_spec (ts : List Tok) : (∃ e, parseItems ts = .error e ∧ Err.Fair ts e) ∨
    ∃ xs its used rest, parseItems ts = .ok (xs, rest) ∧ ts = used ++ rest ∧ Items its used ∧ ∀ x, x ∈ xs ↔ InClass its x := by
  unfold parseItems
  split
  · rename_i n ts
    rcases setItems_spec [] (.num n :: ts) with h | ⟨h, hn⟩ | ⟨xs, its, used, rest, h, hu, hi, hx⟩
    · exact .inl ⟨_, h, .inl rfl⟩
    · exact .inl ⟨_, h, .inr ⟨rfl, hn⟩⟩
    · rcases hi.strong with rfl | hi'
      · exfalso
        cases hi
        have hu : rest = .num n :: ts := by simpa using hu.symm
        subst hu
        by_cases hd : ∃ t, ts = .dash :: t
        · obtain ⟨t, rfl⟩ := hd
          by_cases hm : ∃ m t', t = .num m :: t'
          · obtain ⟨m, t', rfl⟩ := hm
            rw [setItems] at h
            obtain ⟨_, _, h⟩ := bind_ok h
            exact setItems_shorter _ _ _ _ h (by simp; omega)
          · rw [setItems] at h
            · cases h
            · exact fun m t' e => hm ⟨m, t', e⟩
        · rw [setItems_one fun t e => hd ⟨t, e⟩] at h
          exact setItems_shorter _ _ _ _ h (by simp)
      · exact .inr ⟨xs, its, used, rest, h, hu, hi', fun x => by rw [hx]; simp⟩
  · exact .inl ⟨_, rfl, .inl rfl⟩

end Gcs.Regex
