import Verif.Model.Cons.ValueConsistent

/-!
# A vector of which the first entries matter

`active` and `n_active` of the incremental linear propagator (gcs/constraints/linear/propagate.cc:484-615, propagate.hh:93-97). The vector itself is shared by all epochs, and is never restored; the number of entries
that matter is a constraint state, of which there is a copy for every epoch (`State::new_epoch` copies it, backtracking drops the last one: gcs/innards/state.cc).
-/

namespace Gcs

/-- The vector, and `n_active` in all epochs, the current one first. -/
structure SparseSet (α : Type) where
  vec : List α
  counts : List Nat
  deriving DecidableEq, Repr

namespace SparseSet
variable {α : Type}

/-- The first `n_active` entries. -/
def active (s : SparseSet α) : List α := s.vec.take (s.counts.headD 0)

/-- `std::swap(v[i], v[j])` -/
def swap (v : List α) (i j : Nat) : List α :=
  match v[i]?, v[j]? with
  | some x, some y => (v.set i y).set j x
  | _, _ => v

/-- What happens to it. -/
inductive Op where
  /-- a new epoch -/
  | save
  /-- the epoch is left -/
  | restore
  /-- the entry at position `k` does not matter any more (gcs/constraints/linear/propagate.cc:601-602) -/
  | remove (k : Nat)

/-- `none` for what the code never does. -/
def step (s : SparseSet α) : Op → Option (SparseSet α)
  | .save =>
    match s.counts with
    | c :: cs => some { s with counts := c :: c :: cs }
    | [] => none
  | .restore =>
    match s.counts with
    | _ :: c :: cs => some { s with counts := c :: cs }
    | _ => none
  | .remove k =>
    match s.counts with
    | (c + 1) :: cs => if k < c + 1 then some { vec := swap s.vec k c, counts := c :: cs } else none
    | _ => none

def run (s : SparseSet α) : List Op → Option (SparseSet α)
  | [] => some s
  | o :: os => (s.step o).bind (run · os)

/-- The same, with a list of entries for every epoch, which is restored: `Linear.Fold.active`. Entries are removed as in `Linear.fold`, after putting them into any order. -/
def AbsStep : List (List α) → Op → List (List α) → Prop
  | l :: ls, .save, ls' => ls' = l :: l :: ls
  | _ :: ls, .restore, ls' => ls' = ls
  | l :: ls, .remove k, ls' => ∃ order : List α, order.Perm l ∧ ls' = AllDifferent.takeOut order k :: ls
  | [], _, _ => False

inductive AbsRun : List (List α) → List Op → List (List α) → Prop
  | nil (ls) : AbsRun ls [] ls
  | cons {ls ls1 ls2 o os} : AbsStep ls o ls1 → AbsRun ls1 os ls2 → AbsRun ls (o :: os) ls2

end SparseSet
end Gcs
