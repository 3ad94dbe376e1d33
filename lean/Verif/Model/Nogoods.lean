import Verif.Model.Search

/-!
# Nogoods

Models `gcs/constraints/nogoods/nogoods.cc`. A nogood is a conjunction of conditions that must not all hold. There are two propagators: the one with refined watches, which `solve_with` installs for what
restarts learn (`gcs/solve.cc:314-333`), and the older one that scans everything, which the environment variable `GCS_LEARNED_NOGOODS_SCAN` and the last parameter of the constructors select.

The store, the high-water mark and the scanning propagator's watches are held by `shared_ptr`s captured by the propagation functions; here they are a part of captured memory, reached by a `Cell`.

The watched positions of a nogood are packed into one 64-bit number and nogoods are numbered by 32-bit payloads. What happens with 2^32 or more nogoods, or literals in one nogood, is not modelled: the
propagator then throws `.ub` here. It also does so if a literal in the store is about a variable that does not exist, which the types in the code rule out.

The initialisers (`nogoods.cc:147-151`, `:238-243`) do at the start of the first propagation what the propagators do again when they first run; they are not modelled.
-/

namespace Gcs

/-- A part of captured memory. -/
structure Cell (μ α : Type) where
  get : μ → α
  set : α → μ → μ
  get_set : ∀ x m, get (set x m) = x

/-- `NogoodStore` (gcs/constraints/nogoods/nogoods.hh:33-53), with `set_up` (nogoods.cc:250) and `watches` (:143). -/
structure NogoodMem where
  store : List (List Cond) := []
  setUp : Nat := 0
  watches : List (Nat × Nat) := []
  deriving DecidableEq, Repr

/-- gcs/constraints/nogoods/nogoods.cc:46-53. `_vars` is only used for reasons. -/
def NogoodMem.add (g : List Cond) (x : NogoodMem) : NogoodMem := { x with store := x.store ++ [g] }

namespace Nogoods

/-- What the types guarantee of a variable: it exists, and constants fit. -/
def varFits (n : Nat) : VarId → Bool
  | .simple i => i < n
  | .view i _ k => i < n && decide (InI64 k)
  | .const c => decide (InI64 c)

/-- What the types and `in_range`/`not_in_range` guarantee of a condition. -/
def condFits (n : Nat) (c : Cond) : Bool :=
  varFits n c.var && decide (InI64 c.value) && decide (InI64 c.upper) && (!(c.op = .inRange ∨ c.op = .notInRange) || decide (c.value ≤ c.upper))

/-- The store is one this model is about. -/
def fits (n : Nat) (store : List (List Cond)) : Bool :=
  decide (store.length < 2 ^ 32) && store.all fun g => decide (g.length < 2 ^ 32) && g.all (condFits n)

/-- `find_unbroken` (gcs/constraints/nogoods/nogoods.cc:108-116, :163-171, :260-268), from position `p`. In all its uses at most one of the two positions to skip is not `no_watch`. -/
def findUnbroken (d : Doms) (skip : Option Nat) : Nat → List Cond → Chk (Option Nat)
  | _, [] => .ok none
  | p, c :: cs =>
    if skip = some p then findUnbroken d skip (p + 1) cs
    else do
      if (← testLiteral d (.cond c)) ≠ .definitelyTrue then return some p
      findUnbroken d skip (p + 1) cs

/-- `is_broken` (gcs/constraints/nogoods/nogoods.cc:161, :310). -/
def isBroken (d : Doms) (g : List Cond) (p : Nat) : Chk Bool := do
  let c ← vecAt g p
  return (← testLiteral d (.cond c)) = .definitelyTrue

/-- gcs/constraints/nogoods/nogoods.cc:256, and its inverse at :316. -/
def pack (a b : Nat) : Nat := a * 2 ^ 32 + b

section
variable {σ μ : Type}

/-- `infer(¬ nogood[p])`, then go on. -/
def inferNot (g : List Cond) (p : Nat) (k : Prog σ μ PState) : Prog σ μ PState :=
  match g[p]? with
  | some c => .infer (.cond c.not) false fun _ => k
  | none => .raise .ub

/-- `ctx.watch(nogood[p], ni)`, then go on. -/
def watchAt (g : List Cond) (p ni : Nat) (k : Prog σ μ PState) : Prog σ μ PState :=
  match g[p]? with
  | some c => .watch (.cond c) ni k
  | none => .raise .ub

/-! ## With refined watches -/

/-- The body of the loop at gcs/constraints/nogoods/nogoods.cc:278-298: the two watches of nogood number `ni`. -/
def setUpOne (g : List Cond) (ni : Nat) (k : Prog σ μ PState) : Prog σ μ PState :=
  (Prog.ask (findUnbroken · none 0 g)).bind fun
  | none => .fail
  | some p => (Prog.ask (findUnbroken · (some p) 0 g)).bind fun
    | none => inferNot g p (watchAt g p ni (.setWatchState ni (pack p p) k))
    | some q => watchAt g p ni (watchAt g q ni (.setWatchState ni (pack p q) k))

/-- The loop at gcs/constraints/nogoods/nogoods.cc:278-298. -/
def setUpAll (k : Prog σ μ PState) : Nat → List (List Cond) → Prog σ μ PState
  | _, [] => k
  | ni, g :: gs => setUpOne g ni (setUpAll k (ni + 1) gs)

/-- The body of the loop at gcs/constraints/nogoods/nogoods.cc:312-360, for nogood number `ni`, watched at `p` and `q`. -/
def visit (g : List Cond) (ni p q : Nat) (k : Prog σ μ PState) : Prog σ μ PState :=
  (Prog.ask (isBroken · g p)).bind fun b1 => (Prog.ask (isBroken · g q)).bind fun b2 =>
    if b1 then
      if b2 then
        (Prog.ask (findUnbroken · none 0 g)).bind fun
        | none => .fail
        | some p' => (Prog.ask (findUnbroken · (some p') 0 g)).bind fun
          | none => inferNot g p' k
          | some q' => watchAt g p' ni (watchAt g q' ni (.setWatchState ni (pack p' q') k))
      else
        (Prog.ask (findUnbroken · (some q) 0 g)).bind fun
        | none => inferNot g q k
        | some p' => watchAt g p' ni (.setWatchState ni (pack p' q) k)
    else if b2 then
      (Prog.ask (findUnbroken · (some p) 0 g)).bind fun
      | none => inferNot g p k
      | some q' => watchAt g q' ni (.setWatchState ni (pack p q') k)
    else k

/-- The loop at gcs/constraints/nogoods/nogoods.cc:312-360. -/
def visitAll (me : Nat) (store : List (List Cond)) : List Nat → Prog σ μ PState
  | [] => .ret .enable
  | ni :: nis =>
    match store[ni]? with
    | none => .raise .ub
    | some g => .read fun s => visit g ni (s.w.stateGet me ni / 2 ^ 32) (s.w.stateGet me ni % 2 ^ 32) (visitAll me store nis)

/-- `sort` and `unique` (gcs/constraints/nogoods/nogoods.cc:307-308), by insertion. -/
def insertFired (x : Nat) : List Nat → List Nat
  | [] => [x]
  | y :: ys => if x < y then x :: y :: ys else if x = y then y :: ys else y :: insertFired x ys

/-- gcs/constraints/nogoods/nogoods.cc:304-308. -/
def firedClauses (payloads : List Nat) : List Nat := payloads.foldr insertFired []

/-- The propagation function of `install_refined_nogoods` (gcs/constraints/nogoods/nogoods.cc:252-362); `me` is the propagator's number. -/
def refined (cell : Cell μ NogoodMem) (me : Nat) : Prog σ μ PState :=
  .read fun s =>
    let x := cell.get s.mem
    if fits s.doms.length x.store = true then
      let payloads := s.w.inbox[me]?.getD []
      if payloads = [] then
        setUpAll (.read fun t => .setMem (cell.set { cell.get t.mem with setUp := x.store.length } t.mem) (.ret .enable)) x.setUp (x.store.drop x.setUp)
      else visitAll me x.store (firedClauses payloads)
    else .raise .ub

/-! ## Scanning -/

/-- `watches[ni] = (p, q)`, then go on. -/
def setPair (cell : Cell μ NogoodMem) (ni p q : Nat) (k : Prog σ μ PState) : Prog σ μ PState :=
  .read fun s => .setMem (cell.set { cell.get s.mem with watches := (cell.get s.mem).watches.set ni (p, q) } s.mem) k

/-- `watches.emplace_back(p, q)`, then go on. -/
def addPair (cell : Cell μ NogoodMem) (p q : Nat) (k : Prog σ μ PState) : Prog σ μ PState :=
  .read fun s => .setMem (cell.set { cell.get s.mem with watches := (cell.get s.mem).watches ++ [(p, q)] } s.mem) k

/-- `init_watches_for` (gcs/constraints/nogoods/nogoods.cc:101-129). -/
def initPair (cell : Cell μ NogoodMem) (g : List Cond) (k : Prog σ μ PState) : Prog σ μ PState :=
  (Prog.ask (findUnbroken · none 0 g)).bind fun
  | none => .fail
  | some p => (Prog.ask (findUnbroken · (some p) 0 g)).bind fun
    | none => inferNot g p (addPair cell p p k)
    | some q => addPair cell p q k

/-- The loop at gcs/constraints/nogoods/nogoods.cc:158-159. -/
def initPairs (cell : Cell μ NogoodMem) (k : Prog σ μ PState) : List (List Cond) → Prog σ μ PState
  | [] => k
  | g :: gs => initPair cell g (initPairs cell k gs)

/-- The body of the loop at gcs/constraints/nogoods/nogoods.cc:173-210. -/
def scanOne (cell : Cell μ NogoodMem) (g : List Cond) (ni p q : Nat) (k : Prog σ μ PState) : Prog σ μ PState :=
  (Prog.ask (isBroken · g p)).bind fun b1 => (Prog.ask (isBroken · g q)).bind fun b2 =>
    if b1 then
      if b2 then
        (Prog.ask (findUnbroken · none 0 g)).bind fun
        | none => .fail
        | some p' => (Prog.ask (findUnbroken · (some p') 0 g)).bind fun
          | none => inferNot g p' k
          | some q' => setPair cell ni p' q' k
      else
        (Prog.ask (findUnbroken · (some q) 0 g)).bind fun
        | none => inferNot g q k
        | some p' => setPair cell ni p' q k
    else if b2 then
      (Prog.ask (findUnbroken · (some p) 0 g)).bind fun
      | none => inferNot g p k
      | some q' => setPair cell ni p q' k
    else k

/-- The loop at gcs/constraints/nogoods/nogoods.cc:173-210. -/
def scanAll (cell : Cell μ NogoodMem) : Nat → List (List Cond) → Prog σ μ PState
  | _, [] => .ret .enable
  | ni, g :: gs => .read fun s =>
    match (cell.get s.mem).watches[ni]? with
    | none => .raise .ub
    | some (p, q) => scanOne cell g ni p q (scanAll cell (ni + 1) gs)

/-- The propagation function of `install_scan_nogoods` (gcs/constraints/nogoods/nogoods.cc:153-212). -/
def scan (cell : Cell μ NogoodMem) : Prog σ μ PState :=
  .read fun s =>
    let x := cell.get s.mem
    if x.store.all (·.all (condFits s.doms.length)) = true then initPairs cell (scanAll cell 0 x.store) (x.store.drop x.watches.length) else .raise .ub

end
end Nogoods
end Gcs
