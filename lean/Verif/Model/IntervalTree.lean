import Verif.Model.Integer

/-!
# Trees of intervals

`IntervalTree` (gcs/innards/interval_tree.hh), which proof logging uses to find the intervals it has defined that contain, or are inside, a new one. Priorities come from a random number generator with a fixed seed; here they are
arguments. Pointers are trees.
-/

namespace Gcs

/-- `Node` (gcs/innards/interval_tree.hh:30-40), or a null pointer. -/
inductive ITree where
  | nil
  | node (lo hi minHi maxHi : Int) (priority : Nat) (left right : ITree)
  deriving DecidableEq, Repr

namespace ITree

/-- What a child contributes to `min_hi`, if it is there. -/
def minWith (m : Int) : ITree → Int
  | nil => m
  | node _ _ minHi _ _ _ _ => min m minHi

/-- The same for `max_hi`. -/
def maxWith (m : Int) : ITree → Int
  | nil => m
  | node _ _ _ maxHi _ _ _ => max m maxHi

/-- A node after `update` (gcs/innards/interval_tree.hh:45-54). -/
def updated (lo hi : Int) (priority : Nat) (left right : ITree) : ITree :=
  node lo hi (minWith (minWith hi left) right) (maxWith (maxWith hi left) right) priority left right

/-- `rotate_left` (gcs/innards/interval_tree.hh:56-64). Without a right child, a null pointer is followed. -/
def rotateLeft : ITree → Chk ITree
  | node lo hi _ _ p l (node lo' hi' _ _ p' l' r') => .ok (updated lo' hi' p' (updated lo hi p l l') r')
  | _ => .error .ub

/-- `rotate_right` (gcs/innards/interval_tree.hh:66-74). -/
def rotateRight : ITree → Chk ITree
  | node lo hi _ _ p (node lo' hi' _ _ p' l' r') r => .ok (updated lo' hi' p' l' (updated lo hi p r' r))
  | _ => .error .ub

/-- `priority`, of something that is not null. -/
def priority : ITree → Chk Nat
  | nil => .error .ub
  | node _ _ _ _ p _ _ => .ok p

/-- `insert_at` (gcs/innards/interval_tree.hh:76-100). -/
def insertAt (lo hi : Int) (priority : Nat) : ITree → Chk ITree
  | nil => .ok (node lo hi hi hi priority nil nil)
  | node lo' hi' mn mx p l r => do
    if lo = lo' ∧ hi = hi' then return node lo' hi' mn mx p l r
    else if lo < lo' ∨ (lo = lo' ∧ hi < hi') then
      let l ← insertAt lo hi priority l
      if (← l.priority) < p then rotateRight (node lo' hi' mn mx p l r) else return updated lo' hi' p l r
    else
      let r ← insertAt lo hi priority r
      if (← r.priority) < p then rotateLeft (node lo' hi' mn mx p l r) else return updated lo' hi' p l r

/-- `visit_containing` (gcs/innards/interval_tree.hh:102-114), with what is visited, in order. -/
def containing (lo hi : Int) : ITree → List (Int × Int)
  | nil => []
  | node lo' hi' _ mx _ l r =>
    if mx < hi then []
    else containing lo hi l ++ (if lo' > lo then [] else (if hi' ≥ hi then [(lo', hi')] else []) ++ containing lo hi r)

/-- `visit_contained_in` (gcs/innards/interval_tree.hh:116-128). -/
def containedIn (lo hi : Int) : ITree → List (Int × Int)
  | nil => []
  | node lo' hi' mn _ _ l r =>
    if mn > hi then []
    else (if lo' ≥ lo then containedIn lo hi l ++ (if hi' ≤ hi then [(lo', hi')] else []) else []) ++ containedIn lo hi r

/-- Several calls of `insert` (gcs/innards/interval_tree.hh:135-138), each with the priority that is generated for it. -/
def insertAll : ITree → List ((Int × Int) × Nat) → Chk ITree
  | t, [] => .ok t
  | t, x :: xs => do insertAll (← insertAt x.1.1 x.1.2 x.2 t) xs

end ITree
end Gcs
