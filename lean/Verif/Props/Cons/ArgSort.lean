import Verif.Lemmas.Cons.ArgSortInstall
import Verif.Props.Cons.Run

/-!
# C57: ArgSort
-/

namespace Gcs
open IntervalSet

section
variable {σ μ : Type} {m : Nat} {R : Err → Prop} {root : Doms} {x p : List VarId} {y : List Nat} {off : Int} {old : Nat → List (Option Nat)} {z0 : List σ}

/-- C57 for `ArgSort(x, p, off)`, in part: what is installed is right, whatever is repeated, as a constraint on `x`, `p` and the variables for the sorted values, if `y` are as it allocates them. It is enough to decide `x` and `p`.
Posting throws only if the lists differ in length, or a number is not a 64-bit integer. Missing: elements that may be the least or the greatest 64-bit integer, for which behaviour is undefined (`argSort_extreme_wrong`). -/
theorem argSort_right_partial (ho : R .overflow) (hd : DomsOK root) (hoff : InI64 off) (hx : ∀ v ∈ x, v.Valid root.length) (hp : ∀ v ∈ p, v.Valid root.length) (hy : ArgSort.Allocated root x p y) (hold : ∀ k, Gac.Injective (old k))
    (hin : ∀ v ∈ x, ∀ a, Within root a → i64Min < v.eval a ∧ v.eval a < i64Max) :
    (Posted.mk (ArgSort.install (σ := σ) (μ := μ) x p off y old) (ArgSort.Holds x p off y) (x ++ p)).Serves root.length m R root z0 (fun _ => False) ∧
    ∀ e, ArgSort.install (σ := σ) (μ := μ) x p off y old root = .error e → e = .overflow ∨ e = .invalidProblem ∧ x.length ≠ p.length := by
  by_cases hlen : x.length = p.length
  · by_cases hne : x = []
    · subst hne
      have e : ArgSort.install (σ := σ) (μ := μ) [] p off y old root = .ok [] := by rw [ArgSort.install, if_neg (by simpa using hlen), if_pos rfl]
      refine ⟨fun items h => ?_, fun e' h => ?_⟩
      · dsimp only at h
        rw [e] at h; cases h
        have hpn : p = [] := List.eq_nil_of_length_eq_zero hlen.symm
        subst hpn
        refine ⟨_, [], rfl, Served.nil fun a _ => ⟨⟨.nil, fun j k k' h => by simp at h⟩, fun q hq => by simp at hq⟩⟩
      · rw [e] at h; cases h
    · have key := ArgSort.install_ok (σ := σ) (μ := μ) (m := m) (z0 := z0) ho hd hoff hx hp hy.lt hold hlen.symm hy.length hne hin
      exact ⟨fun items e => key.value e, fun e he => by rcases key with k | ⟨_, k, _⟩ <;> rw [k] at he <;> cases he; exact .inl rfl⟩
  · have e : ArgSort.install (σ := σ) (μ := μ) x p off y old root = .error .invalidProblem := by rw [ArgSort.install, if_pos hlen]
    refine ⟨fun items h => ?_, fun e' h => ?_⟩
    · dsimp only at h
      rw [e] at h; cases h
    · rw [e] at h; cases h
      exact .inr ⟨rfl, hlen⟩

/-- C57: what it is for is that `p` is the stable sorting permutation of `x`: then and only then there are values for its own variables. -/
theorem argSort_means (hd : DomsOK root) (hx : ∀ v ∈ x, v.Valid root.length) (hy : ArgSort.Allocated root x p y) {items : List (Item σ μ)} (hi : ArgSort.install x p off y old root = .ok items)
    {all : Nat → Prop} (hall : ∀ i ∈ y, all i) (hoff : ∀ v ∈ x ++ p, ∀ i, v.underlyingIndex = some i → ¬ all i) :
    Means root (· ∈ y) all (Posted.mk (ArgSort.install (σ := σ) (μ := μ) x p off y old) (ArgSort.Holds x p off y) (x ++ p)) (fun a => ArgSorts off (x.map (·.eval a)) (p.map (·.eval a))) := by
  have hlen : x.length = p.length := Classical.byContradiction fun hn => by
    rw [ArgSort.install, if_pos hn] at hi
    cases hi
  refine ArgSort.means hy hlen.symm hd hx (fun he => ?_) hall hoff _
  by_cases hne : x = []
  · subst hne; cases he
  · rw [ArgSort.install, if_neg (by simp [hlen]), if_neg hne] at hi
    rw [he] at hi
    cases hr : defineRange (σ := σ) (μ := μ) root off x.length p <;> rw [hr] at hi <;> cases hi

/-- C57: what is accepted has as many of one as of the other. -/
theorem argSort_refuses {items : List (Item σ μ)} (h : ArgSort.install x p off y old root = .ok items) : x.length = p.length := Classical.byContradiction fun hn => by
  rw [ArgSort.install, if_pos hn] at h
  cases h

/-- In what order things are does not depend on how the permutation is found: there is one, and no other. -/
theorem argSort_unique {off : Int} {xs ps qs : List Int} (h1 : ArgSorts off xs ps) (h2 : ArgSorts off xs qs) : ps = qs := by
  refine List.ext_getElem? fun j => ?_
  by_cases hj : j < ps.length
  · obtain ⟨k, hk, e⟩ := ArgSort.range_at h1.range (List.getElem?_eq_getElem hj)
    have e1 : ps[j]? = some (off + k) := by rw [List.getElem?_eq_getElem hj, e]
    have hq : off + (k : Int) ∈ qs := h2.perm.mem_iff.2 (List.mem_map.2 ⟨k, List.mem_range.2 hk, rfl⟩)
    obtain ⟨i, hi⟩ := List.mem_iff_getElem?.1 hq
    have := (h1.rank e1).symm.trans (h2.rank hi)
    rw [e1, this, hi]
  · rw [List.getElem?_eq_none (by omega), List.getElem?_eq_none (by rw [h2.length, ← h1.length]; omega)]

end

namespace ArgSort

/-- An element that is the greatest 64-bit integer, and one that is not known: when looking for the places where it may be, one is added to the former with no check. -/
theorem argSort_extreme_wrong :
    ArgSorts 0 [i64Max, 1] [1, 0] ∧ Allocated [[(0, 1)], [(0, 1)], [(0, 1)], [(0, i64Max)], [(0, i64Max)]] [.const i64Max, .simple 0] [.simple 1, .simple 2] [3, 4] ∧
    Run.thrown [[(0, 1)], [(0, 1)], [(0, 1)], [(0, i64Max)], [(0, i64Max)]] [install [.const i64Max, .simple 0] [.simple 1, .simple 2] 0 [3, 4] fun _ => []] = some .ub := by
  refine ⟨⟨by decide, fun j k k' h1 h2 v v' hv hv' => ?_⟩, ⟨rfl, by decide, by decide, by decide, fun r hr i d hi hd v => ?_⟩, by decide +kernel⟩
  · match j with
    | 0 =>
      simp at h1 h2
      have e1 : k = 1 := by omega
      have e2 : k' = 0 := by omega
      subst e1 e2
      simp at hv hv'
      subst hv hv'
      decide
    | j + 1 => simp at h2
  · have e : extremes [[(0, 1)], [(0, 1)], [(0, 1)], [(0, i64Max)], [(0, i64Max)]] [.const i64Max, .simple 0] = .ok (0, i64Max) := by decide +kernel
    rw [e] at hr; cases hr
    simp only [List.mem_cons, List.not_mem_nil, or_false] at hi
    rcases hi with rfl | rfl <;> simp at hd <;> subst hd <;> simp [Mem]

namespace Demo

/-- A variable twice, another, and places counted from one; then the variables for the sorted values. -/
def root : Doms := [[(1, 3)], [(2, 2)], [(0, 9)], [(1, 1), (3, 3)], [(1, 3)], [(1, 3)], [(1, 3)], [(1, 3)]]
def x : List VarId := [.simple 0, .simple 1, .simple 0]
def p : List VarId := [.simple 2, .simple 3, .simple 4]

theorem alloc : Allocated root x p [5, 6, 7] := by
  refine ⟨rfl, by decide, by decide, by decide, fun r hr i d hi hd v => ?_⟩
  have e : extremes root x = .ok (1, 3) := by decide +kernel
  rw [e] at hr; cases hr
  simp only [List.mem_cons, List.not_mem_nil, or_false] at hi
  rcases hi with rfl | rfl | rfl <;> simp [root] at hd <;> subst hd <;> simp [Mem]

example : (Posted.mk (install (σ := Unit) (μ := Unit) x p 1 [5, 6, 7] fun _ => []) (Holds x p 1 [5, 6, 7]) (x ++ p)).Serves 8 0 (· = .overflow) root [] (fun _ => False) :=
  (argSort_right_partial (R := (· = .overflow)) (root := root) rfl (by decide +kernel) (by decide) (by decide) (by decide) alloc (fun _ i j r hi => by simp at hi) fun v hv a ha => by
    have h0 := ha 0 _ rfl
    have h1 := ha 1 _ rfl
    simp [Mem] at h0 h1
    simp [x] at hv
    rcases hv with rfl | rfl | rfl <;> simp only [VarId.eval, i64Min, i64Max] <;> omega).1

example : Means root (· ∈ [5, 6, 7]) (· ∈ [5, 6, 7]) (Posted.mk (install (σ := Unit) (μ := Unit) x p 1 [5, 6, 7] fun _ => []) (Holds x p 1 [5, 6, 7]) (x ++ p)) (fun a => ArgSorts 1 (x.map (·.eval a)) (p.map (·.eval a))) :=
  have e : ((install (σ := Unit) (μ := Unit) x p 1 [5, 6, 7] fun _ => []) root).isOk = true := by decide +kernel
  match h : (install (σ := Unit) (μ := Unit) x p 1 [5, 6, 7] fun _ => []) root, e with
  | .ok _, _ => argSort_means (by decide +kernel) (by decide) alloc h (fun _ h => h) (by decide)

/-- If the variable is 2 all are equal, and stay in their order; the second is in the middle then, where it must not be. -/
example : Run.run root [install x p 1 [5, 6, 7] fun _ => []] = some ([[[(3, 3)], [(2, 2)], [(2, 2)], [(1, 1)], [(3, 3)], [(2, 2)], [(3, 3)], [(3, 3)]], [[(1, 1)], [(2, 2)], [(1, 1)], [(3, 3)], [(2, 2)], [(1, 1)], [(1, 1)], [(2, 2)]]], true) := by
  decide +kernel

/-- Three elements of which the first is somewhere from 0 to 9, and the others are 5: it is first or last, but not between them; and the second is first or in the middle, but not last. -/
example : (cands 3 (fun i => [0, 5, 5].getD i 0) (fun i => [9, 5, 5].getD i 0) 1).map (fun vs => (List.range 3).map (reachable 3 (fun i => [0, 5, 5].getD i 0) (fun i => [9, 5, 5].getD i 0) 1 vs)) = .ok [true, true, false] ∧
    (cands 3 (fun i => [0, 5, 5].getD i 0) (fun i => [9, 5, 5].getD i 0) 0).map (fun vs => (List.range 3).map (reachable 3 (fun i => [0, 5, 5].getD i 0) (fun i => [9, 5, 5].getD i 0) 0 vs)) = .ok [true, false, true] := by decide +kernel

end Demo
end ArgSort
end Gcs
