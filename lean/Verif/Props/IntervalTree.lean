import Verif.Lemmas.IntervalTree

/-!
# C70: trees of intervals
-/

namespace Gcs
open ITree

/-- Increasing, by beginning and then by end, and so without repetitions. -/
def Increasing (l : List (Int × Int)) : Prop := l.Pairwise fun x y => x.1 < y.1 ∨ (x.1 = y.1 ∧ x.2 < y.2)

/-- Priorities do not go down on the way from the root. -/
inductive Treap : ITree → Nat → Prop
  | nil {b : Nat} : Treap .nil b
  | node {b p : Nat} {lo hi mn mx : Int} {l r : ITree} : b ≤ p → Treap l p → Treap r p → Treap (.node lo hi mn mx p l r) b

theorem treap_of_heap : ∀ {t : ITree} {b : Nat}, t.Heap → t.RootGe b → Treap t b
  | .nil, _, _, _ => .nil
  | .node .., _, h, k => .node k (treap_of_heap h.1 h.2.2.1) (treap_of_heap h.2.1 h.2.2.2)

/-- C70: whatever is inserted into an empty `IntervalTree`, in whatever order, with repetitions, and whatever priorities are generated, no null pointer is followed, and afterwards for every interval (or pair of numbers)
`for_each_containing` visits exactly the intervals inserted that contain it and `for_each_contained_in` exactly those inside it, each once and in increasing order. The tree is a treap. -/
theorem interval_tree_right (xs : List ((Int × Int) × Nat)) :
    ∃ t, insertAll .nil xs = .ok t ∧ Treap t 0 ∧ ∀ lo hi : Int,
      (Increasing (t.containing lo hi) ∧ ∀ c d : Int, (c, d) ∈ t.containing lo hi ↔ (c, d) ∈ xs.map (·.1) ∧ c ≤ lo ∧ hi ≤ d) ∧
      (Increasing (t.containedIn lo hi) ∧ ∀ c d : Int, (c, d) ∈ t.containedIn lo hi ↔ (c, d) ∈ xs.map (·.1) ∧ lo ≤ c ∧ d ≤ hi) := by
  obtain ⟨t, e, hg, hm, hh⟩ := insertAll_ok xs (t := .nil) trivial
  have sorted := toList_sorted hg
  have root : t.RootGe 0 := by cases t; trivial; exact Nat.zero_le _
  refine ⟨t, e, treap_of_heap (hh trivial) root, fun lo hi => ⟨?_, ?_⟩⟩
  · rw [containing_eq hg]
    refine ⟨sorted.filter _, fun c d => ?_⟩
    rw [List.mem_filter, hm]
    simp [ITree.toList]
  · rw [containedIn_eq hg]
    refine ⟨sorted.filter _, fun c d => ?_⟩
    rw [List.mem_filter, hm]
    simp [ITree.toList]

namespace IntervalTreeDemo

/-- Insertions that rotate both ways, one of them twice. -/
def inserts : List ((Int × Int) × Nat) := [((1, 9), 50), ((3, 5), 40), ((2, 7), 30), ((3, 5), 1), ((3, 4), 45), ((0, 2), 20), ((4, 8), 60)]
def tree : ITree :=
  .node 0 2 2 9 20 .nil (.node 2 7 4 9 30 (.node 1 9 9 9 50 .nil .nil) (.node 3 5 4 8 40 (.node 3 4 4 4 45 .nil .nil) (.node 4 8 8 8 60 .nil .nil)))
example : insertAll .nil inserts = .ok tree := by decide +kernel
example : tree.containing 3 5 = [(1, 9), (2, 7), (3, 5)] ∧ tree.containedIn 2 8 = [(2, 7), (3, 4), (3, 5), (4, 8)] := by decide +kernel
/-- Nothing is visited where the ends show that there is nothing. -/
example : tree.containing 3 10 = [] ∧ tree.containedIn 3 3 = [] := by decide +kernel

end IntervalTreeDemo
end Gcs
