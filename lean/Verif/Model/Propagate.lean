import Verif.Model.Prog

/-!
# L4: `Propagators`

Models `Propagators::install`, `disable_propagators_for_constraints`, `propagate` and the degree and adjacency queries of `gcs/innards/propagators.cc`.

Not modelled here: proof logging, the `GCS_CHECK_IDEMPOTENT_CLAIMS` test mode, and what conflict observers do when notified (they get read-only
access; only the fact that they are notified is kept).
-/

namespace Gcs

/-- gcs/innards/propagators.hh:366-400. -/
structure Triggers where
  onChange : List VarId := []
  onBounds : List VarId := []
  onInstantiated : List VarId := []
  scopeOnly : List VarId := []
  refined : List (Lit × Nat) := []

/-- The members of `Propagators::Imp` that do not change during `propagate`. -/
structure Engine (σ μ : Type) where
  progs : List (Prog σ μ PState)
  ivTriggers : List (List (Nat × Mask))
  scope : List (List Nat)
  claimsIgnored : List Bool
  permDisabled : List Bool
  degrees : List Nat
  /-- `constraint_ids`; constraint identities are natural numbers here -/
  constraintIds : List Nat
  propConstraint : List Nat
  varConstraints : List (List Nat)
  constraintScope : List (List Nat)

section
variable {σ μ : Type}

namespace Engine

def empty : Engine σ μ := ⟨[], [], [], [], [], [], [], [], [], []⟩

open Watches (growTo)

/-- `ids_and_masks.emplace_back(t, mask)` on the entry of a simple variable, growing the table first. -/
def addTrigger (E : Engine σ μ) (p : Nat) (mask : Mask) (v : VarId) : Engine σ μ :=
  match v.underlyingIndex with
  | none => E
  | some i =>
    let t := growTo [] (i + 1) E.ivTriggers
    { E with ivTriggers := t.set i ((t[i]?.getD []) ++ [(p, mask)]) }

/-- gcs/innards/propagators.cc:969-983. -/
def triggerOnChange (E : Engine σ μ) (p : Nat) (v : VarId) : Engine σ μ :=
  E.addTrigger p [.interiorValuesChanged, .boundsChanged, .instantiated] v
/-- gcs/innards/propagators.cc:985-998. -/
def triggerOnBounds (E : Engine σ μ) (p : Nat) (v : VarId) : Engine σ μ := E.addTrigger p [.boundsChanged, .instantiated] v
/-- gcs/innards/propagators.cc:1000-1012. -/
def triggerOnInstantiated (E : Engine σ μ) (p : Nat) (v : VarId) : Engine σ μ := E.addTrigger p [.instantiated] v

/-- `if (! contains(l, x)) l.push_back(x)`. -/
def pushNew (l : List Nat) (x : Nat) : List Nat := if x ∈ l then l else l ++ [x]

/-- gcs/innards/propagators.cc:1014-1026, on a simple variable. -/
def increaseDegree (d : List Nat) (i : Nat) : List Nat :=
  let g := growTo 0 (i + 1) d
  g.set i (g[i]?.getD 0 + 1)

/-- gcs/innards/propagators.cc:1028-1040. -/
def degreeOf (E : Engine σ μ) (v : VarId) : Nat :=
  match v.underlyingIndex with
  | none => 0
  | some i => E.degrees[i]?.getD 0

/-- One variable of gcs/innards/propagators.cc:477-483. -/
def addAdjacent (c : Nat) (t : List (List Nat)) (v : Nat) : List (List Nat) :=
  let g := growTo [] (v + 1) t
  g.set v (pushNew (g[v]?.getD []) c)

/-- gcs/innards/propagators.cc:404-520, except for the watches in `triggers.refined`, which are registered by `installWatches`. -/
def install (E : Engine σ μ) (constraintId : Nat) (f : Prog σ μ PState) (t : Triggers) : Engine σ μ :=
  let id := E.progs.length
  -- :410-414
  let ids := if constraintId ∈ E.constraintIds then E.constraintIds else E.constraintIds ++ [constraintId]
  let ci := ids.idxOf constraintId
  -- :453-474
  let positions := (t.onChange ++ t.onBounds ++ t.onInstantiated ++ t.scopeOnly).filterMap VarId.underlyingIndex
  let scope := (positions ++ t.refined.filterMap (fun r => r.1.underlyingIndex)).foldl pushNew []
  -- :488-493
  let cs := growTo [] (ci + 1) E.constraintScope
  let E1 : Engine σ μ := { E with
    progs := E.progs ++ [f]
    permDisabled := E.permDisabled ++ [false]
    constraintIds := ids
    propConstraint := E.propConstraint ++ [ci]
    scope := E.scope ++ [scope]
    varConstraints := scope.foldl (addAdjacent ci) E.varConstraints
    constraintScope := cs.set ci (scope.foldl pushNew (cs[ci]?.getD []))
    degrees := scope.foldl increaseDegree E.degrees
    -- :504-505, two equal neighbours after sorting
    claimsIgnored := E.claimsIgnored ++ [decide (¬ positions.Nodup)] }
  -- :510-516
  let E2 := t.onChange.foldl (fun E v => E.triggerOnChange id v) E1
  let E3 := t.onBounds.foldl (fun E v => E.triggerOnBounds id v) E2
  t.onInstantiated.foldl (fun E v => E.triggerOnInstantiated id v) E3

/-- gcs/innards/propagators.cc:517-519. -/
def installWatches (w : Watches) (id : Nat) (t : Triggers) : Watches := t.refined.foldl (fun w r => w.register id r.1 r.2 false) w

/-- gcs/innards/propagators.cc:522-542: the new engine; the number disabled is the number of entries that changed. -/
def disableConstraints (E : Engine σ μ) (ids : List Nat) : Engine σ μ :=
  let wanted := fun p : Nat => match E.propConstraint[p]? with
    | none => false
    | some ci => match E.constraintIds[ci]? with
      | none => false
      | some c => decide (c ∈ ids)
  { E with permDisabled := (List.range E.permDisabled.length).map (fun p => E.permDisabled[p]?.getD false || wanted p) }

end Engine

namespace Sys

/-- The coarse part of `requeue` (gcs/innards/propagators.cc:626-629). -/
def wake (inf : Inference) (skip : Nat → Bool) : List (Nat × Mask) → Queue → Chk Queue
  | [], q => .ok q
  | (p, mask) :: r, q => do
    let q' ← (if inf ∈ mask ∧ ¬ skip p then q.enqueueIfIdle p else .ok q)
    wake inf skip r q'

/-- `iv_triggers[v.index]`, nothing if the table is too short. -/
def triggersOf (E : Engine σ μ) (v : Nat) : List (Nat × Mask) := E.ivTriggers[v]?.getD []

/-- Deliver fired watches (gcs/innards/propagators.cc:649-655), in the order they fired. -/
def deliver (v : Nat) : List RefinedWatch → Sys σ μ → Chk (Sys σ μ)
  | [], s => .ok s
  | x :: xs, s => do
    let box ← vecAt s.w.inbox x.owner
    let q ← s.q.enqueueIfIdle x.owner
    let w := { s.w with
      pending := if box.isEmpty then s.w.pending ++ [x.owner] else s.w.pending
      inbox := s.w.inbox.set x.owner (box ++ [x.payload])
      trail := ⟨false, v, x⟩ :: s.w.trail }
    deliver v xs { s with q := q, w := w }

/-- Whether a watch fires (gcs/innards/propagators.cc:648). -/
def fires (d : Doms) (inf : Inference) (x : RefinedWatch) : Chk Bool :=
  if inf ∈ x.mask then do return decide ((← testLiteral d x.literal) = .definitelyTrue) else .ok false

/-- The refined part of `requeue` (gcs/innards/propagators.cc:641-660). Firing only changes the inbox, trail and queue, which the tests do not
read, so all the tests are made first. -/
def fireWatches (v : Nat) (inf : Inference) (s : Sys σ μ) : Chk (Sys σ μ) :=
  match s.w.byVar[v]? with
  | none => .ok s
  | some ws => do
    let r ← Watches.removeLoop (fires s.doms inf) 0 ws
    deliver v r.2 { s with w := { s.w with byVar := s.w.byVar.set v r.1 } }

/-- `requeue` (gcs/innards/propagators.cc:625-662). -/
def requeue (E : Engine σ μ) (v : Nat) (inf : Inference) (s : Sys σ μ) : Chk (Sys σ μ) := do
  let q ← wake inf (fun _ => false) (triggersOf E v) s.q
  fireWatches v inf { s with q := q }

/-- `requeue_unless_already_seen` (gcs/innards/propagators.cc:666-671). -/
def requeueUnlessSeen (E : Engine σ μ) (prot : Nat → Bool) (v : Nat) (inf : Inference) (s : Sys σ μ) : Chk (Sys σ μ) := do
  let q ← wake inf prot (triggersOf E v) s.q
  return { s with q := q }

/-- gcs/innards/propagators.cc:823-824. -/
def replay (E : Engine σ μ) : List (Nat × Inference) → Sys σ μ → Chk (Sys σ μ)
  | [], s => .ok s
  | (v, inf) :: r, s => do replay E r (← requeue E v inf s)

/-- The `while` at gcs/innards/propagators.cc:833-836: claims still ahead of the cursor, and who is still protected. -/
def advance (idx : Nat) : List (Nat × Nat) → (Nat → Bool) → List (Nat × Nat) × (Nat → Bool)
  | [], prot => ([], prot)
  | (e, p) :: r, prot => if e ≤ idx then advance idx r (fun x => if x = p then false else prot x) else ((e, p) :: r, prot)

/-- gcs/innards/propagators.cc:832-839. `claim_protected` is a function here. -/
def replayClaims (E : Engine σ μ) : Nat → List (Nat × Nat) → (Nat → Bool) → List (Nat × Inference) → Sys σ μ → Chk (Sys σ μ)
  | _, _, _, [], s => .ok s
  | idx, cl, prot, (v, inf) :: r, s => do
    let a := advance idx cl prot
    let s' ← requeueUnlessSeen E a.2 v inf s
    replayClaims E (idx + 1) a.1 a.2 r s'

/-- The end of a round (gcs/innards/propagators.cc:795-845). -/
def endRound (E : Engine σ μ) (s : Sys σ μ) : Chk (Sys σ μ) := do
  let q ← s.q.disableAll s.toDisable
  let s1 := { s with q := q.restart, toDisable := [] }
  let s2 ← (if s1.claims = [] then replay E s1.tr.inferences s1
    else replayClaims E 0 s1.claims (fun p => s1.claims.any (fun c => c.2 = p)) s1.tr.inferences s1)
  return { s2 with claims := [], tr := { s2.tr with inferences := [], madeProgress := false, didAnything := false } }

/-- How one turn of the loop ended. -/
inductive Turn where
  | skipped | contradiction | fine
  deriving DecidableEq, Repr

/-- What happens after a propagation function returned normally and without contradiction (gcs/innards/propagators.cc:880-912). -/
def settle (E : Engine σ μ) (p : Nat) (ps : PState) (s : Sys σ μ) : Chk (Sys σ μ) := do
  let s1 := { s with
    effectful := if s.tr.didAnything then s.effectful + 1 else s.effectful
    tr := { s.tr with didAnything := false }
    trace := s.trace ++ [.finish p ps] }
  match ps with
  | .enable => return s1
  | .enableButIdempotent => do
    let ignored ← vecAt E.claimsIgnored p
    if ¬ ignored ∧ s1.tr.inferences.length ≠ 0 then return { s1 with claims := s1.claims ++ [(s1.tr.inferences.length, p)] }
    else return s1
  | .disableUntilBacktrack => return { s1 with toDisable := s1.toDisable ++ [p] }

/-- One turn of the loop, after the end of round check (gcs/innards/propagators.cc:850-923). -/
def runOne (E : Engine σ μ) (s : Sys σ μ) : Chk (Turn × Sys σ μ) := do
  let x ← s.q.pop
  let p := x.1
  let s0 := { s with q := x.2 }
  if ← vecAt E.permDisabled p then return (.skipped, s0)
  let f ← vecAt E.progs p
  let scope ← vecAt E.scope p
  let y ← runProg ⟨p, scope⟩ f { s0 with total := s0.total + 1, tr := { s0.tr with madeProgress := false }, trace := s0.trace ++ [.start p] }
  let s1 := y.2
  match y.1 with
  | .failed => return (.contradiction, { s1 with contradicting := s1.contradicting + 1, conflicts := s1.conflicts ++ [p] })
  | .val ps =>
    let s2 := { s1 with w := { s1.w with inbox := s1.w.inbox.set p [] } }
    if s2.tr.contradicted then
      return (.contradiction, { s2 with contradicting := s2.contradicting + 1, conflicts := s2.conflicts ++ [p] })
    else return (.fine, ← settle E p ps s2)

/-- The main loop (gcs/innards/propagators.cc:787-926); `some true` on contradiction, `none` if the bound `fuel` on turns is reached. `abort i` is the value
of the abort flag at its `i`th reading. -/
def loop (E : Engine σ μ) (abort : Nat → Bool) : Nat → Sys σ μ → Chk (Option Bool × Sys σ μ)
  | 0, s => .ok (none, s)
  | fuel + 1, s => do
    let s1 ← (if s.q.begin_ = s.q.end_ then endRound E s else .ok s)
    if s1.q.begin_ = s1.q.end_ then return (some false, s1)
    let x ← runOne E s1
    match x.1 with
    | .skipped => loop E abort fuel x.2
    | .contradiction => return (some true, x.2)
    | .fine =>
      let s2 := { x.2 with clock := x.2.clock + 1 }
      if abort x.2.clock then return (some false, s2) else loop E abort fuel s2

/-- gcs/innards/propagators.cc:932-934. -/
def dropPending : List Nat → List (List Nat) → List (List Nat)
  | [], inbox => inbox
  | o :: os, inbox => dropPending os (inbox.set o [])

/-- Seeding from the guesses (gcs/innards/propagators.cc:756-774). -/
def seed (E : Engine σ μ) : List Lit → Sys σ μ → Chk (Sys σ μ)
  | [], s => .ok s
  | l :: ls, s =>
    match l.underlyingIndex with
    | none => seed E ls s
    | some v => do seed E ls (← requeue E v .instantiated s)

/-- gcs/innards/propagators.cc:678-778: everything before the main loop. The tracker is made only after this (:936-944), but nothing in between reads it. -/
def prepare (E : Engine σ μ) (guesses : List Lit) (s : Sys σ μ) : Chk (Sys σ μ) := do
  let st1 ← s.st.onBacktrack (.undoWatches s.w.trail.length s.w.wsTrail.length)
  let s1 := { s with
    st := st1, claims := [], trace := [], tr := .fresh
    w := { s.w with inbox := s.w.inbox.take E.progs.length ++ List.replicate (E.progs.length - s.w.inbox.length) [] } }
  let s2 ← (if guesses.isEmpty then do return { s1 with q := ← s1.q.rebuild E.permDisabled }
    else seed E guesses { s1 with q := s1.q.restart })
  let st2 ← s2.st.onBacktrack (.restoreIdle s2.q.idle)
  return { s2 with st := st2, toDisable := [] }

/-- Number of values in a domain, from its intervals. Used to bound the number of turns. -/
def _root_.Gcs.IntervalSet.card (s : IntervalSet) : Nat := (s.map (fun p => (p.2 - p.1 + 1).toNat)).sum

/-- A bound on the number of turns of the loop; `Props/Propagate.lean` shows it is never reached. -/
def turns (E : Engine σ μ) (s : Sys σ μ) : Nat := E.progs.length + (E.progs.length + 1) * (s.doms.map IntervalSet.card).sum + 1

/-- `Propagators::propagate` (gcs/innards/propagators.cc:593-948). -/
def propagate (E : Engine σ μ) (guesses : List Lit) (abort : Nat → Bool) (s : Sys σ μ) : Chk (Bool × Sys σ μ) := do
  let s1 ← prepare E guesses s
  let x ← loop E abort (turns E s1) s1
  match x.1 with
  | none => throw .diverge
  | some contradiction =>
    let w := { x.2.w with inbox := dropPending x.2.w.pending x.2.w.inbox, pending := [] }
    return (!contradiction, { x.2 with w := w })

/-- Run the callbacks returned by `State::backtrack`. -/
def runCallbacks : List Callback → Sys σ μ → Chk (Sys σ μ)
  | [], s => .ok s
  | .undoWatches a b :: r, s => do runCallbacks r { s with w := ← s.w.undo a b }
  | .restoreIdle i :: r, s => runCallbacks r { s with q := s.q.restoreIdle i }

/-- `State::backtrack` with the callbacks run (gcs/innards/state.cc:685-699). -/
def backtrack (s : Sys σ μ) (t : Timestamp) : Chk (Sys σ μ) := do
  let x ← s.st.backtrack t
  runCallbacks x.2 { s with st := x.1 }

end Sys
end
end Gcs
