import Verif.Model.Queue

/-! What the parts of the queue mean, in terms of the propagators they hold. -/

namespace Gcs.Queue

/-- Propagators waiting to run, oldest first. -/
def Ready (q : Queue) : List Nat := (q.queue.take q.end_).drop q.begin_
/-- `p` has been run this round. -/
def IsDone (q : Queue) (p : Nat) : Prop := ∃ i : Nat, i < q.begin_ ∧ q.queue[i]? = some p
/-- `p` does not need to run. -/
def IsIdle (q : Queue) (p : Nat) : Prop := ∃ i : Nat, q.end_ ≤ i ∧ i < q.idle ∧ q.queue[i]? = some p
/-- `p` is disabled until backtrack. -/
def IsDisabled (q : Queue) (p : Nat) : Prop := ∃ i : Nat, q.idle ≤ i ∧ q.queue[i]? = some p

/-- The `n` propagators are partitioned into done, ready, idle and disabled: each is in exactly one part, the ready list has no repeats, and there is
nothing else in the queue. -/
structure Partition (n : Nat) (q : Queue) : Prop where
  cover : ∀ p, p < n → IsDone q p ∨ p ∈ Ready q ∨ IsIdle q p ∨ IsDisabled q p
  only : ∀ p, IsDone q p ∨ p ∈ Ready q ∨ IsIdle q p ∨ IsDisabled q p → p < n
  nodup : (Ready q).Nodup
  doneReady : ∀ p, ¬ (IsDone q p ∧ p ∈ Ready q)
  doneIdle : ∀ p, ¬ (IsDone q p ∧ IsIdle q p)
  doneDisabled : ∀ p, ¬ (IsDone q p ∧ IsDisabled q p)
  readyIdle : ∀ p, ¬ (p ∈ Ready q ∧ IsIdle q p)
  readyDisabled : ∀ p, ¬ (p ∈ Ready q ∧ IsDisabled q p)
  idleDisabled : ∀ p, ¬ (IsIdle q p ∧ IsDisabled q p)

end Gcs.Queue
