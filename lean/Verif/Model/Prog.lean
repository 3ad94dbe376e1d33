import Verif.Model.State
import Verif.Model.Queue

/-!
# L4: what a propagator can do, and refined watches

Models the interface a propagation function sees: the inference tracker (`gcs/innards/inference_tracker.hh`), `RefinedWatchContext`
(`gcs/innards/propagators.hh:100-175`), its implementation in `Propagators::Imp` (`gcs/innards/propagators.cc:78-375`), and read access to everything.

A propagation function is an arbitrary finite tree of these operations (`Prog`): after a read, how it goes on may depend on everything read. So statements
quantified over all `Prog` are about every propagator, whatever it computes. Both trackers behave alike apart from proof logging, which is not part of
this layer; reasons and justifications are only used for logging and are omitted.
-/

namespace Gcs

/-- `PropagatorState` (gcs/innards/propagators-fwd.hh:15-68). -/
inductive PState where
  | enable | enableButIdempotent | disableUntilBacktrack
  deriving DecidableEq, Repr

/-- `on_backtrack` callbacks registered by the engine (gcs/innards/propagators.cc:694-717 and :778), by the values they capture. -/
inductive Callback where
  | undoWatches (trailStart wsTrailStart : Nat)
  | restoreIdle (orig : Nat)
  deriving DecidableEq, Repr

/-- Bit set over `Inference`, as the list of its members. -/
abbrev Mask := List Inference

/-- gcs/innards/propagators.cc:78-85. -/
structure RefinedWatch where
  literal : Lit
  payload : Nat
  owner : Nat
  id : Nat
  mask : Mask
  deriving DecidableEq, Repr

/-- gcs/innards/propagators.cc:87-100. -/
structure WatchEdit where
  added : Bool
  varIndex : Nat
  watch : RefinedWatch
  deriving DecidableEq, Repr

/-- gcs/innards/propagators.cc:283-288. -/
structure WatchStateEdit where
  owner : Nat
  key : Nat
  old : Nat
  deriving DecidableEq, Repr

/-- gcs/innards/propagators.cc:104-111. -/
def VarId.underlyingIndex : VarId → Option Nat
  | .simple i => some i
  | .view i _ _ => some i
  | .const _ => none

/-- gcs/innards/propagators.cc:115-122. -/
def Lit.underlyingIndex : Lit → Option Nat
  | .cond c => c.var.underlyingIndex
  | .tt => none
  | .ff => none

/-- gcs/innards/propagators.cc:132-161. -/
def triggerMask : Lit → Mask
  | .cond c =>
    match c.op with
    | .equal => [.instantiated]
    | .notEqual => [.interiorValuesChanged, .boundsChanged, .instantiated]
    | .greaterEqual => [.boundsChanged, .instantiated]
    | .less => [.boundsChanged, .instantiated]
    | .inRange => [.boundsChanged, .instantiated]
    | .notInRange => [.interiorValuesChanged, .boundsChanged, .instantiated]
  | .tt => [.interiorValuesChanged, .boundsChanged, .instantiated]
  | .ff => [.interiorValuesChanged, .boundsChanged, .instantiated]

/-- The members of `Propagators::Imp` for refined watches (gcs/innards/propagators.cc:262-290). The two trails are stored newest first. -/
structure Watches where
  byVar : List (List RefinedWatch)
  inbox : List (List Nat)
  pending : List Nat
  trail : List WatchEdit
  nextId : Nat
  wstate : List (List Nat)
  wsTrail : List WatchStateEdit
  deriving DecidableEq, Repr

namespace Watches

def empty : Watches := ⟨[], [], [], [], 0, [], []⟩

/-- `if (v.size() <= i) v.resize(i + 1)`. -/
def growTo {α : Type} (dflt : α) (n : Nat) (l : List α) : List α := l ++ List.replicate (n - l.length) dflt

/-- gcs/innards/propagators.cc:292-298. -/
def stateGet (w : Watches) (owner key : Nat) : Nat :=
  match w.wstate[owner]? with
  | none => 0
  | some v => v[key]?.getD 0

/-- gcs/innards/propagators.cc:300-309. -/
def stateSet (w : Watches) (owner key value : Nat) : Watches :=
  let ws := growTo [] (owner + 1) w.wstate
  let v := growTo 0 (key + 1) (ws[owner]?.getD [])
  { w with wstate := ws.set owner (v.set key value), wsTrail := ⟨owner, key, v[key]?.getD 0⟩ :: w.wsTrail }

/-- gcs/innards/propagators.cc:311-322. -/
def register (w : Watches) (owner : Nat) (l : Lit) (payload : Nat) (trailed : Bool) : Watches :=
  match l.underlyingIndex with
  | none => w
  | some v =>
    let bv := growTo [] (v + 1) w.byVar
    let x : RefinedWatch := ⟨l, payload, owner, w.nextId, triggerMask l⟩
    { w with
      byVar := bv.set v ((bv[v]?.getD []) ++ [x])
      nextId := w.nextId + 1
      trail := if trailed then ⟨true, v, x⟩ :: w.trail else w.trail }

/-- gcs/innards/propagators.cc:329-338. -/
def isWatching (w : Watches) (owner : Nat) (var : VarId) : Bool :=
  match var.underlyingIndex with
  | none => false
  | some v => (w.byVar[v]?.getD []).any (fun x => x.owner = owner)

/-- `watches[i] = watches.back(); watches.pop_back();` -/
def swapRemove (i : Nat) (ws : List RefinedWatch) : List RefinedWatch :=
  match ws.getLast? with
  | none => ws
  | some b => (ws.set i b).dropLast

theorem length_swapRemove (i : Nat) (ws : List RefinedWatch) : (swapRemove i ws).length = ws.length - 1 := by
  unfold swapRemove
  cases h : ws.getLast? with
  | none => simp [List.getLast?_eq_none_iff.1 h]
  | some b => simp

/-- The loops at gcs/innards/propagators.cc:354-362 and :647-660: what is left, and what was removed, in order. -/
def removeLoop (test : RefinedWatch → Chk Bool) (i : Nat) (ws : List RefinedWatch) : Chk (List RefinedWatch × List RefinedWatch) :=
  match _h : ws[i]? with
  | none => .ok (ws, [])
  | some x => do
    if ← test x then
      let r ← removeLoop test i (swapRemove i ws)
      return (r.1, x :: r.2)
    else removeLoop test (i + 1) ws
  termination_by ws.length - i
  decreasing_by
    all_goals have := (List.getElem?_eq_some_iff.1 _h).1
    · rw [length_swapRemove]; omega
    · omega

/-- One variable of the loop in `clear_refined_watches` (gcs/innards/propagators.cc:350-363). -/
def clearVar (w : Watches) (owner v : Nat) : Chk Watches := do
  match w.byVar[v]? with
  | none => return w
  | some ws =>
    let r ← removeLoop (fun x => .ok (x.owner = owner)) 0 ws
    return { w with byVar := w.byVar.set v r.1, trail := (r.2.map (fun x => ⟨false, v, x⟩)).reverse ++ w.trail }

/-- gcs/innards/propagators.cc:340-364; `scope` is `propagator_scope[owner]`. -/
def clear (w : Watches) (owner : Nat) : List Nat → Chk Watches
  | [] => .ok w
  | v :: vs => do clear (← w.clearVar owner v) owner vs

/-- The search by `id` at gcs/innards/propagators.cc:699-704. -/
def removeId (id : Nat) (ws : List RefinedWatch) : List RefinedWatch :=
  match ws.findIdx? (fun x => x.id = id) with
  | none => ws
  | some i => swapRemove i ws

/-- One trail entry undone (gcs/innards/propagators.cc:695-709). -/
def undoEdit (e : WatchEdit) (w : Watches) : Chk Watches := do
  let ws ← vecAt w.byVar e.varIndex
  return { w with byVar := w.byVar.set e.varIndex (if e.added then removeId e.watch.id ws else ws ++ [e.watch]) }

/-- gcs/innards/propagators.cc:695-709, over the trail from the newest entry. -/
def undoTrail (start : Nat) : List WatchEdit → Watches → Chk Watches
  | [], w => .ok { w with trail := [] }
  | e :: es, w =>
    if (e :: es).length > start then do undoTrail start es (← undoEdit e w)
    else .ok { w with trail := e :: es }

/-- One entry of the scratch trail undone (gcs/innards/propagators.cc:713-715). -/
def undoState (e : WatchStateEdit) (w : Watches) : Chk Watches := do
  let v ← vecAt w.wstate e.owner
  if e.key < v.length then return { w with wstate := w.wstate.set e.owner (v.set e.key e.old) } else throw .ub

/-- gcs/innards/propagators.cc:712-716. -/
def undoStates (start : Nat) : List WatchStateEdit → Watches → Chk Watches
  | [], w => .ok { w with wsTrail := [] }
  | e :: es, w =>
    if (e :: es).length > start then do undoStates start es (← undoState e w)
    else .ok { w with wsTrail := e :: es }

/-- The first callback (gcs/innards/propagators.cc:694-717). -/
def undo (trailStart wsTrailStart : Nat) (w : Watches) : Chk Watches := do
  let w1 ← undoTrail trailStart w.trail w
  undoStates wsTrailStart w1.wsTrail w1

end Watches

/-- Members of `InferenceTrackerBase` (gcs/innards/inference_tracker.hh:70-82). -/
structure Tracker where
  inferences : List (Nat × Inference)
  didAnything : Bool
  madeProgress : Bool
  contradicted : Bool
  deriving DecidableEq, Repr

/-- gcs/innards/inference_tracker.hh:209-213. -/
def Tracker.fresh : Tracker := ⟨[], false, false, false⟩

/-- `record_firing_inference` (gcs/innards/inference_tracker.hh:140-158) and the same code in `track_impl`. -/
def Tracker.record (t : Tracker) (inf : Inference) (l : Lit) : Tracker :=
  { t with
    inferences := match l.underlyingIndex with
      | some v => t.inferences ++ [(v, inf)]
      | none => t.inferences
    didAnything := true
    madeProgress := true }

/-- Not in the code: what happened during a `propagate`, for stating properties. -/
inductive Ev where
  | start (p : Nat)
  | finish (p : Nat) (s : PState)
  | change (v : Nat) (inf : Inference)
  deriving DecidableEq, Repr

/-- Everything mutable: the `State`, the tracker, and the mutable members of `Propagators::Imp`. `σ`: constraint states; `μ`: memory captured by
propagation functions, which is not undone on backtracking. `clock` and `trace` are not in the code: `clock` counts reads of the abort flag, `trace`
records what happened since `propagate` was entered. `conflicts` lists the propagators reported to conflict observers. -/
structure Sys (σ μ : Type) where
  st : State σ Callback
  tr : Tracker
  w : Watches
  q : Queue
  claims : List (Nat × Nat)
  toDisable : List Nat
  total : Nat
  effectful : Nat
  contradicting : Nat
  conflicts : List Nat
  mem : μ
  clock : Nat
  trace : List Ev

/-- The domains in the current epoch. -/
def Sys.doms {σ μ : Type} (s : Sys σ μ) : Doms := s.st.vars.headD []

/-- A propagation function returning `α`. -/
inductive Prog (σ μ α : Type) : Type where
  /-- normal return -/
  | ret (a : α)
  /-- an exception other than `TrackedPropagationFailed` -/
  | raise (e : Err)
  /-- `inference.contradiction(...)` (gcs/innards/inference_tracker.hh:529-538, 288-297) -/
  | fail
  /-- read anything at all -/
  | read (k : Sys σ μ → Prog σ μ α)
  /-- `inference.infer*` (`orStop` false) or `inference.infer_*_or_stop` (`orStop` true) -/
  | infer (l : Lit) (orStop : Bool) (k : Bool → Prog σ μ α)
  /-- `inference.made_progress_since_last_check()` -/
  | progress (k : Bool → Prog σ μ α)
  /-- `watches.watch(literal, payload)` -/
  | watch (l : Lit) (payload : Nat) (k : Prog σ μ α)
  /-- `watches.clear_watches()` -/
  | clearWatches (k : Prog σ μ α)
  /-- `watches.set_watch_state(key, value)` -/
  | setWatchState (key value : Nat) (k : Prog σ μ α)
  /-- assignment through `state.get_constraint_state` -/
  | setState (h : Nat) (c : σ) (k : Prog σ μ α)
  /-- assignment to captured memory -/
  | setMem (m : μ) (k : Prog σ μ α)

/-- Normal return, or `TrackedPropagationFailed`. -/
inductive Res (α : Type) where
  | val (a : α)
  | failed
  deriving DecidableEq, Repr

/-- Which propagator is running and its declared scope. -/
structure Ctx where
  owner : Nat
  scope : List Nat

section
variable {σ μ α : Type}

/-- What `track`/`track_explicit` do with the result of `State::infer` (gcs/innards/inference_tracker.hh:757-795 and 165-203): the new system and
whether the inference succeeded. -/
def Sys.track (s : Sys σ μ) (inf : Inference) (l : Lit) (st : State σ Callback) : Sys σ μ × Bool :=
  match inf with
  | .noChange => ({ s with st := st }, true)
  | .contradiction => ({ s with st := st, tr := { s.tr with didAnything := true, madeProgress := true, contradicted := true } }, false)
  | inf =>
    ({ s with
        st := st
        tr := s.tr.record inf l
        trace := match l.underlyingIndex with
          | some v => s.trace ++ [.change v inf]
          | none => s.trace }, true)

/-- Run a propagation function. -/
def runProg (c : Ctx) : Prog σ μ α → Sys σ μ → Chk (Res α × Sys σ μ)
  | .ret a, s => .ok (.val a, s)
  | .raise e, _ => .error e
  | .fail, s => .ok (.failed, s)
  | .read k, s => runProg c (k s) s
  | .infer l orStop k, s =>
    if orStop ∧ s.tr.contradicted then runProg c (k false) s
    else
      match s.st.infer l with
      | .error e => .error e
      | .ok x =>
        let y := s.track x.1 l x.2
        if y.2 then runProg c (k true) y.1
        else if orStop then runProg c (k false) y.1
        else .ok (.failed, y.1)
  | .progress k, s => runProg c (k s.tr.madeProgress) { s with tr := { s.tr with madeProgress := false } }
  | .watch l payload k, s => runProg c k { s with w := s.w.register c.owner l payload true }
  | .clearWatches k, s =>
    match s.w.clear c.owner c.scope with
    | .error e => .error e
    | .ok w => runProg c k { s with w := w }
  | .setWatchState key value k, s => runProg c k { s with w := s.w.stateSet c.owner key value }
  | .setState h v k, s =>
    match s.st.setConstraintState h v with
    | .error e => .error e
    | .ok st => runProg c k { s with st := st }
  | .setMem m k, s => runProg c k { s with mem := m }

/-- Sequencing. -/
def Prog.bind {β : Type} : Prog σ μ α → (α → Prog σ μ β) → Prog σ μ β
  | .ret a, f => f a
  | .raise e, _ => .raise e
  | .fail, _ => .fail
  | .read k, f => .read (fun s => (k s).bind f)
  | .infer l o k, f => .infer l o (fun b => (k b).bind f)
  | .progress k, f => .progress (fun b => (k b).bind f)
  | .watch l p k, f => .watch l p (k.bind f)
  | .clearWatches k, f => .clearWatches (k.bind f)
  | .setWatchState a b k, f => .setWatchState a b (k.bind f)
  | .setState h c k, f => .setState h c (k.bind f)
  | .setMem m k, f => .setMem m (k.bind f)

instance : Monad (Prog σ μ) where
  pure := .ret
  bind := Prog.bind

/-- A query of the current domains, throwing what it throws. -/
def Prog.ask (f : Doms → Chk α) : Prog σ μ α :=
  .read (fun s => match f s.doms with
    | .ok a => .ret a
    | .error e => .raise e)

end
end Gcs
