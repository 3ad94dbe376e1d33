import Verif.Model.Integer

/-!
# L4: the propagation queue

Models the sparse-set queue of `gcs/innards/propagators.cc`: the members `queue`, `lookup`, `enqueued_begin`, `enqueued_end`, `idle_end` of
`Propagators::Imp` and every piece of code that changes them. `vector::operator[]` out of range gives `ub`.
-/

namespace Gcs

/-- `v[i]` on a `vector`: undefined out of range. -/
def vecAt {α : Type} (l : List α) (i : Nat) : Chk α :=
  match l[i]? with
  | some a => .ok a
  | none => .error .ub

/-- gcs/innards/propagators.cc:183-184. -/
structure Queue where
  queue : List Nat
  lookup : List Nat
  begin_ : Nat
  end_ : Nat
  idle : Nat
  deriving DecidableEq, Repr

namespace Queue

/-- The initial value of the members (gcs/innards/propagators.cc:183-184). -/
def initial : Queue := ⟨[], [], 0, 0, 0⟩

/-- The two `swap` calls shared by gcs/innards/propagators.cc:618-620 and :797-799: exchange propagator `p` with the item at position `pos`. -/
def swapInto (q : Queue) (p pos : Nat) : Chk Queue := do
  let other ← vecAt q.queue pos
  let lp ← vecAt q.lookup p
  let a ← vecAt q.queue lp
  let lo ← vecAt q.lookup other
  return { q with queue := (q.queue.set lp other).set pos a, lookup := (q.lookup.set p lo).set other lp }

/-- `enqueue_if_idle` (gcs/innards/propagators.cc:616-623). -/
def enqueueIfIdle (q : Queue) (p : Nat) : Chk Queue := do
  let lp ← vecAt q.lookup p
  if lp ≥ q.end_ ∧ lp < q.idle then
    let q' ← q.swapInto p q.end_
    return { q' with end_ := q'.end_ + 1 }
  else return q

/-- One iteration of the loop at gcs/innards/propagators.cc:795-800. `--idle_end` below zero would index before the start of the vector. -/
def disableOne (q : Queue) (p : Nat) : Chk Queue :=
  if q.idle = 0 then .error .ub
  else do
    let q1 := { q with idle := q.idle - 1 }
    q1.swapInto p q1.idle

/-- The loop at gcs/innards/propagators.cc:795-800. -/
def disableAll (q : Queue) : List Nat → Chk Queue
  | [] => .ok q
  | p :: ps => do disableAll (← q.disableOne p) ps

/-- gcs/innards/propagators.cc:820-821 and :754-755. -/
def restart (q : Queue) : Queue := { q with begin_ := 0, end_ := 0 }

/-- `queue[enqueued_begin++]` (gcs/innards/propagators.cc:850). -/
def pop (q : Queue) : Chk (Nat × Queue) := do
  let p ← vecAt q.queue q.begin_
  return (p, { q with begin_ := q.begin_ + 1 })

/-- The loops at gcs/innards/propagators.cc:730-744: positions given out from `at_` to the propagators of `ids` in turn. -/
def fill (q : Queue) (at_ : Nat) : List Nat → Chk Queue
  | [] => .ok q
  | p :: ps =>
    if at_ < q.queue.length ∧ p < q.lookup.length then
      fill { q with queue := q.queue.set at_ p, lookup := q.lookup.set p at_ } (at_ + 1) ps
    else .error .ub

/-- `vector<int>::resize`. -/
def resizeVec (n : Nat) (l : List Nat) : List Nat := l.take n ++ List.replicate (n - l.length) 0

/-- gcs/innards/propagators.cc:727-748: `disabled` is `permanently_disabled`, one entry per propagator. The second loop is skipped in the code when
`permanently_disabled_count` is zero, and is then a no-op here. -/
def rebuild (q : Queue) (disabled : List Bool) : Chk Queue := do
  let n := disabled.length
  let enabledIds := (List.range n).filter (fun i => !(disabled[i]?.getD false))
  let disabledIds := (List.range n).filter (fun i => disabled[i]?.getD false)
  let q0 := { q with queue := resizeVec n q.queue, lookup := resizeVec n q.lookup }
  let q1 ← q0.fill 0 enabledIds
  let q2 ← q1.fill enabledIds.length disabledIds
  return { q2 with begin_ := 0, end_ := enabledIds.length, idle := enabledIds.length }

/-- The second `on_backtrack` callback (gcs/innards/propagators.cc:778). -/
def restoreIdle (q : Queue) (orig : Nat) : Queue := { q with idle := orig }

end Queue
end Gcs
