import Verif.Model.IntervalTree

/-!
# Trees of intervals: lemmas
-/

namespace Gcs.ITree

/-- What is in the tree, in order. -/
def toList : ITree → List (Int × Int)
  | nil => []
  | node lo hi _ _ _ l r => l.toList ++ (lo, hi) :: r.toList

def Less (x y : Int × Int) : Prop := x.1 < y.1 ∨ (x.1 = y.1 ∧ x.2 < y.2)

/-- Ordered, with bounds on the ends that are right. -/
def Good : ITree → Prop
  | nil => True
  | node lo hi mn mx _ l r => l.Good ∧ r.Good ∧ (∀ x ∈ l.toList, Less x (lo, hi)) ∧ (∀ x ∈ r.toList, Less (lo, hi) x) ∧ ∀ x ∈ (node lo hi mn mx 0 l r).toList, mn ≤ x.2 ∧ x.2 ≤ mx

theorem min_with {m : Int} : ∀ {t : ITree}, t.Good → minWith m t ≤ m ∧ ∀ x ∈ t.toList, minWith m t ≤ x.2
  | nil, _ => ⟨Int.le_refl _, by simp [toList]⟩
  | node lo hi mn mx p l r, h => ⟨by simp only [minWith]; omega, fun x hx => by have := h.2.2.2.2 x hx; simp only [minWith]; omega⟩

theorem max_with {m : Int} : ∀ {t : ITree}, t.Good → m ≤ maxWith m t ∧ ∀ x ∈ t.toList, x.2 ≤ maxWith m t
  | nil, _ => ⟨Int.le_refl _, by simp [toList]⟩
  | node lo hi mn mx p l r, h => ⟨by simp only [maxWith]; omega, fun x hx => by have := h.2.2.2.2 x hx; simp only [maxWith]; omega⟩

theorem updated_good {lo hi : Int} {p : Nat} {l r : ITree} (hl : l.Good) (hr : r.Good) (h1 : ∀ x ∈ l.toList, Less x (lo, hi)) (h2 : ∀ x ∈ r.toList, Less (lo, hi) x) : (updated lo hi p l r).Good := by
  refine ⟨hl, hr, h1, h2, fun x hx => ?_⟩
  obtain ⟨a1, a2⟩ := min_with (m := hi) hl
  obtain ⟨b1, b2⟩ := min_with (m := minWith hi l) hr
  obtain ⟨c1, c2⟩ := max_with (m := hi) hl
  obtain ⟨d1, d2⟩ := max_with (m := maxWith hi l) hr
  simp only [toList, List.mem_append, List.mem_cons] at hx
  rcases hx with hx | rfl | hx
  · have := a2 x hx; have := c2 x hx; omega
  · simp only; omega
  · exact ⟨b2 x hx, d2 x hx⟩

theorem updated_toList {lo hi : Int} {p : Nat} {l r : ITree} : (updated lo hi p l r).toList = l.toList ++ (lo, hi) :: r.toList := rfl

theorem Less.trans {x y z : Int × Int} (h : Less x y) (k : Less y z) : Less x z := by unfold Less at *; omega

/-- Priorities are no less than this at the root. -/
def RootGe (b : Nat) : ITree → Prop
  | nil => True
  | node _ _ _ _ p _ _ => b ≤ p

/-- And at its children. -/
def ChildGe (b : Nat) : ITree → Prop
  | nil => True
  | node _ _ _ _ _ l r => l.RootGe b ∧ r.RootGe b

/-- Priorities never go down on the way from the root. -/
def Heap : ITree → Prop
  | nil => True
  | node _ _ _ _ p l r => l.Heap ∧ r.Heap ∧ l.RootGe p ∧ r.RootGe p

theorem RootGe.mono {b b' : Nat} (h : b' ≤ b) : ∀ {t : ITree}, t.RootGe b → t.RootGe b'
  | nil, _ => trivial
  | node _ _ _ _ _ _ _, k => Nat.le_trans h k

/-- What inserting does. -/
structure Inserted (x : Int × Int) (t t' : ITree) : Prop where
  good : t'.Good
  mem : ∀ y, y ∈ t'.toList ↔ y = x ∨ y ∈ t.toList
  heap : t.Heap → t'.Heap ∧ ∀ b, t.RootGe b → t'.ChildGe b
  some : t' ≠ nil

theorem insertAt_ok {lo hi : Int} {q : Nat} : ∀ {t : ITree}, t.Good → ∃ t', insertAt lo hi q t = .ok t' ∧ Inserted (lo, hi) t t'
  | nil, _ => ⟨_, rfl, ⟨trivial, trivial, by simp [toList], by simp [toList], by simp [toList]⟩, by simp [toList], fun _ => ⟨⟨trivial, trivial, trivial, trivial⟩, fun _ _ => ⟨trivial, trivial⟩⟩, nofun⟩
  | node lo' hi' mn mx p l r, hg => by
    obtain ⟨gl, gr, ol, or_, hb⟩ := hg
    unfold insertAt
    by_cases he : lo = lo' ∧ hi = hi'
    · rw [if_pos he]
      obtain ⟨rfl, rfl⟩ := he
      refine ⟨_, rfl, ⟨gl, gr, ol, or_, hb⟩, fun y => ⟨.inr, fun h => h.elim (by rintro rfl; simp [toList]) id⟩, fun h => ⟨h, fun b hb => ?_⟩, nofun⟩
      exact ⟨h.2.2.1.mono hb, h.2.2.2.mono hb⟩
    · rw [if_neg he]
      by_cases hlt : lo < lo' ∨ (lo = lo' ∧ hi < hi')
      · rw [if_pos hlt]
        obtain ⟨l', e, h⟩ := insertAt_ok (lo := lo) (hi := hi) (q := q) gl
        rw [e]
        have ol' : ∀ x ∈ l'.toList, Less x (lo', hi') := fun x hx => by
          rcases (h.mem x).1 hx with rfl | hx
          · exact hlt
          · exact ol x hx
        match l', h, ol' with
        | nil, h, _ => exact absurd rfl h.some
        | node lo2 hi2 mn2 mx2 p2 l2 r2, h, ol' =>
          obtain ⟨g2l, g2r, o2l, o2r, hb2⟩ := h.good
          have mem : ∀ y, y ∈ l2.toList ∨ y = (lo2, hi2) ∨ y ∈ r2.toList ↔ y = (lo, hi) ∨ y ∈ l.toList := fun y => by
            have := h.mem y
            simpa [toList] using this
          by_cases hp : p2 < p
          · refine ⟨updated lo2 hi2 p2 l2 (updated lo' hi' p r2 r), by simp [bind, Except.bind, priority, rotateRight, hp], ?_, fun y => ?_, fun hh => ?_, nofun⟩
            · have root : Less (lo2, hi2) (lo', hi') := ol' _ (by simp [toList])
              refine updated_good g2l (updated_good g2r gr (fun x hx => ol' x (by simp [toList, hx])) or_) o2l fun x hx => ?_
              rw [updated_toList, List.mem_append, List.mem_cons] at hx
              rcases hx with hx | rfl | hx
              · exact o2r x hx
              · exact root
              · exact root.trans (or_ x hx)
            · have := mem y
              simp only [updated_toList, toList, List.mem_append, List.mem_cons]
              grind
            · obtain ⟨k1, k2⟩ := h.heap hh.1
              obtain ⟨c1, c2⟩ := k2 p hh.2.2.1
              refine ⟨⟨k1.1, ⟨k1.2.1, hh.2.1, c2, hh.2.2.2⟩, k1.2.2.1, Nat.le_of_lt hp⟩, fun b hb => ⟨c1.mono hb, hb⟩⟩
          · refine ⟨updated lo' hi' p (node lo2 hi2 mn2 mx2 p2 l2 r2) r, by simp [bind, Except.bind, priority, hp, pure, Except.pure], updated_good h.good gr ol' or_, fun y => ?_, fun hh => ?_, nofun⟩
            · have := h.mem y
              simp only [updated_toList, List.mem_append, List.mem_cons, this, toList]
              grind
            · exact ⟨⟨(h.heap hh.1).1, hh.2.1, Nat.le_of_not_lt hp, hh.2.2.2⟩, fun b hb => ⟨Nat.le_trans hb (Nat.le_of_not_lt hp), hh.2.2.2.mono hb⟩⟩
      · rw [if_neg hlt]
        have hgt : Less (lo', hi') (lo, hi) := by unfold Less; simp only; omega
        obtain ⟨r', e, h⟩ := insertAt_ok (lo := lo) (hi := hi) (q := q) gr
        rw [e]
        have or' : ∀ x ∈ r'.toList, Less (lo', hi') x := fun x hx => by
          rcases (h.mem x).1 hx with rfl | hx
          · exact hgt
          · exact or_ x hx
        match r', h, or' with
        | nil, h, _ => exact absurd rfl h.some
        | node lo2 hi2 mn2 mx2 p2 l2 r2, h, or' =>
          obtain ⟨g2l, g2r, o2l, o2r, hb2⟩ := h.good
          have mem : ∀ y, y ∈ l2.toList ∨ y = (lo2, hi2) ∨ y ∈ r2.toList ↔ y = (lo, hi) ∨ y ∈ r.toList := fun y => by
            have := h.mem y
            simpa [toList] using this
          by_cases hp : p2 < p
          · refine ⟨updated lo2 hi2 p2 (updated lo' hi' p l l2) r2, by simp [bind, Except.bind, priority, rotateLeft, hp], ?_, fun y => ?_, fun hh => ?_, nofun⟩
            · have root : Less (lo', hi') (lo2, hi2) := or' _ (by simp [toList])
              refine updated_good (updated_good gl g2l ol (fun x hx => or' x (by simp [toList, hx]))) g2r (fun x hx => ?_) o2r
              rw [updated_toList, List.mem_append, List.mem_cons] at hx
              rcases hx with hx | rfl | hx
              · exact (ol x hx).trans root
              · exact root
              · exact o2l x hx
            · have := mem y
              simp only [updated_toList, toList, List.mem_append, List.mem_cons]
              grind
            · obtain ⟨k1, k2⟩ := h.heap hh.2.1
              obtain ⟨c1, c2⟩ := k2 p hh.2.2.2
              refine ⟨⟨⟨hh.1, k1.1, hh.2.2.1, c1⟩, k1.2.1, Nat.le_of_lt hp, k1.2.2.2⟩, fun b hb => ⟨hb, c2.mono hb⟩⟩
          · refine ⟨updated lo' hi' p l (node lo2 hi2 mn2 mx2 p2 l2 r2), by simp [bind, Except.bind, priority, hp, pure, Except.pure], updated_good gl h.good ol or', fun y => ?_, fun hh => ?_, nofun⟩
            · have := h.mem y
              simp only [updated_toList, List.mem_append, List.mem_cons, this, toList]
              grind
            · exact ⟨⟨hh.1, (h.heap hh.2.1).1, hh.2.2.1, Nat.le_of_not_lt hp⟩, fun b hb => ⟨hh.2.2.1.mono hb, Nat.le_trans hb (Nat.le_of_not_lt hp)⟩⟩

theorem filter_none {α : Type} {p : α → Bool} {l : List α} (h : ∀ x ∈ l, p x = false) : l.filter p = [] := List.filter_eq_nil_iff.2 fun x hx => by simp [h x hx]

/-- Nothing is missed where the search is cut short. -/
theorem containing_eq {lo hi : Int} : ∀ {t : ITree}, t.Good → t.containing lo hi = t.toList.filter fun x => x.1 ≤ lo && hi ≤ x.2
  | nil, _ => rfl
  | node lo' hi' mn mx p l r, ⟨gl, gr, ol, or_, hb⟩ => by
    unfold containing
    by_cases h1 : mx < hi
    · rw [if_pos h1]
      symm
      refine filter_none fun x hx => ?_
      have := hb x hx
      simp; omega
    · rw [if_neg h1, toList, List.filter_append, containing_eq gl]
      congr 1
      by_cases h2 : lo' > lo
      · rw [if_pos h2]
        symm
        refine filter_none fun x hx => ?_
        rcases List.mem_cons.1 hx with rfl | hx
        · simp; omega
        · have := or_ x hx
          simp only [Less] at this
          simp; omega
      · rw [if_neg h2, List.filter_cons, containing_eq gr]
        by_cases h3 : hi' ≥ hi
        · rw [if_pos h3, if_pos (by simp; omega)]; rfl
        · rw [if_neg h3, if_neg (by simp; omega)]; rfl

theorem containedIn_eq {lo hi : Int} : ∀ {t : ITree}, t.Good → t.containedIn lo hi = t.toList.filter fun x => lo ≤ x.1 && x.2 ≤ hi
  | nil, _ => rfl
  | node lo' hi' mn mx p l r, ⟨gl, gr, ol, or_, hb⟩ => by
    unfold containedIn
    by_cases h1 : mn > hi
    · rw [if_pos h1]
      symm
      refine filter_none fun x hx => ?_
      have := hb x hx
      simp; omega
    · rw [if_neg h1, toList, List.filter_append, List.filter_cons, containedIn_eq gr]
      by_cases h2 : lo' ≥ lo
      · rw [if_pos h2, containedIn_eq gl]
        by_cases h3 : hi' ≤ hi
        · rw [if_pos h3, if_pos (by simp; omega)]; simp
        · rw [if_neg h3, if_neg (by simp; omega)]; simp
      · rw [if_neg h2, filter_none (l := l.toList) fun x hx => ?_, if_neg (by simp; omega)]
        have := ol x hx
        simp only [Less] at this
        simp; omega

theorem toList_sorted : ∀ {t : ITree}, t.Good → t.toList.Pairwise Less
  | nil, _ => .nil
  | node lo' hi' mn mx p l r, ⟨gl, gr, ol, or_, _⟩ => by
    refine List.pairwise_append.2 ⟨toList_sorted gl, List.pairwise_cons.2 ⟨or_, toList_sorted gr⟩, fun x hx y hy => ?_⟩
    rcases List.mem_cons.1 hy with rfl | hy
    · exact ol x hx
    · exact (ol x hx).trans (or_ y hy)

theorem insertAll_ok : ∀ (xs : List ((Int × Int) × Nat)) {t : ITree}, t.Good → ∃ t', insertAll t xs = .ok t' ∧ t'.Good ∧ (∀ y, y ∈ t'.toList ↔ y ∈ t.toList ∨ y ∈ xs.map (·.1)) ∧ (t.Heap → t'.Heap)
  | [], t, h => ⟨t, rfl, h, by simp, id⟩
  | x :: xs, t, h => by
    obtain ⟨t1, e1, k1⟩ := insertAt_ok (lo := x.1.1) (hi := x.1.2) (q := x.2) h
    obtain ⟨t2, e2, k2, k3, k4⟩ := insertAll_ok xs k1.good
    refine ⟨t2, by rw [insertAll, e1]; exact e2, k2, fun y => ?_, fun hh => k4 (k1.heap hh).1⟩
    rw [k3, k1.mem]
    simp only [List.map_cons, List.mem_cons]
    grind

end Gcs.ITree
