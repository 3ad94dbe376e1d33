import Verif.Model.IntervalSet
import Verif.Model.Literal

/-!
# L3: `State`

Models `gcs/innards/state.cc`, `gcs/innards/state.hh` and the forwarding parts of `gcs/current_state.cc`.

`Doms` is the vector of domains of the current (newest) epoch, indexed by simple variable. Queries and inferences act on it. `State`
adds the stack of epochs. Templated overloads for the four variable types share one definition on `VarId`; the `if constexpr` fast paths for plain
variables compute the same as the general path with `negate_first = false`, `then_add = 0` except that they skip `± 0`, and they are kept where they exist.
-/

namespace Gcs

/-- gcs/innards/state-fwd.hh:15-22. -/
inductive Inference where
  | noChange | boundsChanged | interiorValuesChanged | instantiated | contradiction
  deriving DecidableEq, Repr

/-- gcs/innards/state.hh:56-61. -/
inductive LiteralIs where
  | definitelyFalse | definitelyTrue | undecided
  deriving DecidableEq, Repr

/-- One `vector<IntervalSet<Integer>>` of gcs/innards/state.cc:94. -/
abbrev Doms := List IntervalSet

/-- gcs/innards/state.cc:142-150; `operator[]` out of range is undefined. -/
def Doms.stateOf (d : Doms) (i : Nat) : Chk IntervalSet :=
  match d[i]? with
  | some s => .ok s
  | none => .error .ub

/-! ## Changing one domain -/

namespace IntervalSet

/-- `set.lower() == set.upper()`. -/
def lowerIsUpper (s : IntervalSet) : Chk Bool := do return decide ((← lower s) = (← upper s))

/-- gcs/innards/state.cc:157-167. -/
def changeEqual (set : IntervalSet) (value : Int) : Chk (Inference × IntervalSet) := do
  if ¬ contains value set then return (.contradiction, set)
  if ← lowerIsUpper set then return (.noChange, set)
  let set' ← insertAtEndOne value (clear set)
  return (.instantiated, set')

/-- gcs/innards/state.cc:169-181. -/
def changeNotEqual (set : IntervalSet) (value : Int) : Chk (Inference × IntervalSet) := do
  if ¬ contains value set then return (.noChange, set)
  if ← lowerIsUpper set then return (.contradiction, set)
  let isBound := decide (value = (← lower set) ∨ value = (← upper set))
  let set' := erase value set
  if ← lowerIsUpper set' then return (.instantiated, set')
  return (if isBound then .boundsChanged else .interiorValuesChanged, set')

/-- gcs/innards/state.cc:183-194. -/
def changeLessThan (set : IntervalSet) (value : Int) : Chk (Inference × IntervalSet) := do
  if (← upper set) < value then return (.noChange, set)
  let set' := eraseGreaterThan (← iSub value 1) set
  if isEmpty set' then return (.contradiction, set')
  if ← lowerIsUpper set' then return (.instantiated, set')
  return (.boundsChanged, set')

/-- gcs/innards/state.cc:196-207. -/
def changeGreaterEqual (set : IntervalSet) (value : Int) : Chk (Inference × IntervalSet) := do
  if (← lower set) ≥ value then return (.noChange, set)
  let set' := eraseLessThan value set
  if isEmpty set' then return (.contradiction, set')
  if ← lowerIsUpper set' then return (.instantiated, set')
  return (.boundsChanged, set')

/-- gcs/innards/state.cc:209-228. -/
def changeNotInRange (set : IntervalSet) (lo hi : Int) : Chk (Inference × IntervalSet) := do
  if lo > hi then return (.noChange, set)
  let oldLower ← lower set
  let oldUpper ← upper set
  if hi < oldLower ∨ lo > oldUpper then return (.noChange, set)
  if ¬ containsAnyOf set (single lo hi) then return (.noChange, set)
  let set' := eraseRange lo hi set
  if isEmpty set' then return (.contradiction, set')
  if ← lowerIsUpper set' then return (.instantiated, set')
  if (← lower set') ≠ oldLower ∨ (← upper set') ≠ oldUpper then return (.boundsChanged, set')
  return (.interiorValuesChanged, set')

/-- gcs/innards/state.cc:230-246. -/
def changeInRange (set : IntervalSet) (lo hi : Int) : Chk (Inference × IntervalSet) := do
  if lo > hi then return (.contradiction, set)
  let oldLower ← lower set
  let oldUpper ← upper set
  if oldLower ≥ lo ∧ oldUpper ≤ hi then return (.noChange, set)
  let set1 := eraseLessThan lo set
  let set' := if isEmpty set1 then set1 else eraseGreaterThan hi set1
  if isEmpty set' then return (.contradiction, set')
  if ← lowerIsUpper set' then return (.instantiated, set')
  return (.boundsChanged, set')

end IntervalSet

open IntervalSet

/-! ## Views -/

/-- `DirectIntegerVariableID`: simple variable or constant. -/
inductive Direct where
  | simple (i : Nat)
  | const (c : Int)
  deriving DecidableEq, Repr

/-- gcs/innards/state.cc:35-60. -/
def deview : VarId → Direct × Bool × Int
  | .simple i => (.simple i, false, 0)
  | .const c => (.const c, false, 0)
  | .view i neg add => (.simple i, neg, add)

/-- gcs/innards/state.cc:62-65. -/
def applyView (v : Int) (neg : Bool) (add : Int) : Chk Int :=
  if neg then do iAdd (← iNeg v) add else iAdd v add

/-- `negate_first ? -value + then_add : value - then_add` (e.g. gcs/innards/state.cc:300). -/
def adjust (value : Int) (neg : Bool) (add : Int) : Chk Int :=
  if neg then do iAdd (← iNeg value) add else iSub value add

/-- `-value + then_add + 1_i` (e.g. gcs/innards/state.cc:321). -/
def adjustNegBound (value add : Int) : Chk Int := do iAdd (← iAdd (← iNeg value) add) 1

/-- Apply a change to the domain of a simple variable in place. -/
def Doms.change (d : Doms) (i : Nat) (f : IntervalSet → Chk (Inference × IntervalSet)) : Chk (Inference × Doms) := do
  let r ← f (← d.stateOf i)
  return (r.1, d.set i r.2)

/-- `? NoChange : Contradiction` on a constant (gcs/innards/state.cc:250-268). -/
def onConstant (d : Doms) (ok : Bool) : Chk (Inference × Doms) := .ok (if ok then .noChange else .contradiction, d)

/-- gcs/innards/state.cc:297-304. -/
def inferEqual (d : Doms) (var : VarId) (value : Int) : Chk (Inference × Doms) := do
  let (actual, neg, add) := deview var
  let adjusted ← adjust value neg add
  match actual with
  | .simple i => d.change i (changeEqual · adjusted)
  | .const c => onConstant d (c = adjusted)

/-- gcs/innards/state.cc:307-314. -/
def inferNotEqual (d : Doms) (var : VarId) (value : Int) : Chk (Inference × Doms) := do
  let (actual, neg, add) := deview var
  let adjusted ← adjust value neg add
  match actual with
  | .simple i => d.change i (changeNotEqual · adjusted)
  | .const c => onConstant d (c ≠ adjusted)

/-- gcs/innards/state.cc:317-332. -/
def inferLessThan (d : Doms) (var : VarId) (value : Int) : Chk (Inference × Doms) := do
  let (actual, neg, add) := deview var
  if neg then
    let adjusted ← adjustNegBound value add
    match actual with
    | .simple i => d.change i (changeGreaterEqual · adjusted)
    | .const c => onConstant d (c ≥ adjusted)
  else
    let adjusted ← iSub value add
    match actual with
    | .simple i => d.change i (changeLessThan · adjusted)
    | .const c => onConstant d (c < adjusted)

/-- gcs/innards/state.cc:335-350. -/
def inferGreaterEqual (d : Doms) (var : VarId) (value : Int) : Chk (Inference × Doms) := do
  let (actual, neg, add) := deview var
  if neg then
    let adjusted ← adjustNegBound value add
    match actual with
    | .simple i => d.change i (changeLessThan · adjusted)
    | .const c => onConstant d (c < adjusted)
  else
    let adjusted ← iSub value add
    match actual with
    | .simple i => d.change i (changeGreaterEqual · adjusted)
    | .const c => onConstant d (c ≥ adjusted)

/-- The endpoints `alo`, `ahi` (gcs/innards/state.cc:361-362, 376-377). -/
def adjustRange (lo hi : Int) (neg : Bool) (add : Int) : Chk (Int × Int) := do
  let alo ← (if neg then iSub add hi else iSub lo add)
  let ahi ← (if neg then iSub add lo else iSub hi add)
  return (alo, ahi)

/-- gcs/innards/state.cc:353-368. -/
def inferNotInRange (d : Doms) (var : VarId) (lo hi : Int) : Chk (Inference × Doms) := do
  if lo > hi then return (.noChange, d)
  let (actual, neg, add) := deview var
  let (alo, ahi) ← adjustRange lo hi neg add
  match actual with
  | .simple i => d.change i (changeNotInRange · alo ahi)
  | .const c => onConstant d (¬ (alo ≤ c ∧ c ≤ ahi))

/-- gcs/innards/state.cc:371-383. -/
def inferInRange (d : Doms) (var : VarId) (lo hi : Int) : Chk (Inference × Doms) := do
  if lo > hi then return (.contradiction, d)
  let (actual, neg, add) := deview var
  let (alo, ahi) ← adjustRange lo hi neg add
  match actual with
  | .simple i => d.change i (changeInRange · alo ahi)
  | .const c => onConstant d (alo ≤ c ∧ c ≤ ahi)

/-- gcs/innards/state.cc:282-294. -/
def inferCond (d : Doms) (c : Cond) : Chk (Inference × Doms) :=
  match c.op with
  | .equal => inferEqual d c.var c.value
  | .notEqual => inferNotEqual d c.var c.value
  | .less => inferLessThan d c.var c.value
  | .greaterEqual => inferGreaterEqual d c.var c.value
  | .inRange => inferInRange d c.var c.value c.upper
  | .notInRange => inferNotInRange d c.var c.value c.upper

/-- gcs/innards/state.cc:271-279. -/
def infer (d : Doms) : Lit → Chk (Inference × Doms)
  | .cond c => inferCond d c
  | .tt => .ok (.noChange, d)
  | .ff => .ok (.contradiction, d)

/-! ## Queries -/

/-- gcs/innards/state.cc:405-420. -/
def lowerBound (d : Doms) (var : VarId) : Chk Int :=
  match var with
  | .simple i => do lower (← d.stateOf i)
  | _ => do
    let (actual, neg, add) := deview var
    let raw ← (match actual with
      | .simple i => do if neg then upper (← d.stateOf i) else lower (← d.stateOf i)
      | .const c => .ok c)
    applyView raw neg add

/-- gcs/innards/state.cc:422-433. -/
def upperBound (d : Doms) (var : VarId) : Chk Int :=
  match var with
  | .simple i => do upper (← d.stateOf i)
  | _ => do
    let (actual, neg, add) := deview var
    let raw ← (match actual with
      | .simple i => do if neg then lower (← d.stateOf i) else upper (← d.stateOf i)
      | .const c => .ok c)
    applyView raw neg add

/-- gcs/innards/state.cc:436-456. -/
def bounds (d : Doms) (var : VarId) : Chk (Int × Int) :=
  match var with
  | .simple i => do
    let s ← d.stateOf i
    return (← lower s, ← upper s)
  | _ => do
    let (actual, neg, add) := deview var
    let raw : Int × Int ← (match actual with
      | .simple i => do
        let s ← d.stateOf i
        pure (← lower s, ← upper s)
      | .const c => .ok (c, c))
    if neg then return (← iAdd (← iNeg raw.2) add, ← iAdd (← iNeg raw.1) add)
    else return (← iAdd raw.1 add, ← iAdd raw.2 add)

/-- gcs/innards/state.cc:459-470. -/
def inDomain (d : Doms) (var : VarId) (val : Int) : Chk Bool :=
  match var with
  | .simple i => do return contains val (← d.stateOf i)
  | _ => do
    let (actual, neg, add) := deview var
    let adjusted ← adjust val neg add
    match actual with
    | .simple i => return contains adjusted (← d.stateOf i)
    | .const c => return decide (c = adjusted)

/-- gcs/innards/state.cc:472-480. -/
def domainHasHoles (d : Doms) (var : VarId) : Chk Bool :=
  match (deview var).1 with
  | .simple i => do return hasHoles (← d.stateOf i)
  | .const _ => .ok false

/-- gcs/innards/state.cc:483-505. -/
def optionalSingleValue (d : Doms) (var : VarId) : Chk (Option Int) :=
  match var with
  | .simple i => do
    let s ← d.stateOf i
    if ← lowerIsUpper s then return some (← lower s) else return none
  | _ => do
    let (actual, neg, add) := deview var
    let raw : Option Int ← (match actual with
      | .simple i => do
        let s ← d.stateOf i
        if ← lowerIsUpper s then pure (some (← lower s)) else pure none
      | .const c => .ok (some c))
    match raw with
    | some v => return some (← applyView v neg add)
    | none => return none

/-- gcs/innards/state.cc:507-519. -/
def hasSingleValue (d : Doms) (var : VarId) : Chk Bool :=
  match (deview var).1 with
  | .simple i => do lowerIsUpper (← d.stateOf i)
  | .const _ => .ok true

/-- gcs/innards/state.cc:522-532. -/
def domainSize (d : Doms) (var : VarId) : Chk Int :=
  match (deview var).1 with
  | .simple i => do size (← d.stateOf i)
  | .const _ => .ok 1

/-- The loop at gcs/innards/state.cc:551-552, over the intervals in reverse. -/
def negateIntervals (add : Int) : List (Int × Int) → IntervalSet → Chk IntervalSet
  | [], result => .ok result
  | (l, u) :: r, result => do
    let result' ← insertAtEnd (← iAdd (← iNeg u) add) (← iAdd (← iNeg l) add) result
    negateIntervals add r result'

/-- The loop at gcs/innards/state.cc:555-556. -/
def shiftIntervals (add : Int) : List (Int × Int) → IntervalSet → Chk IntervalSet
  | [], result => .ok result
  | (l, u) :: r, result => do
    let result' ← insertAtEnd (← iAdd l add) (← iAdd u add) result
    shiftIntervals add r result'

/-- gcs/innards/state.cc:535-559. -/
def copyOfValues (d : Doms) (var : VarId) : Chk IntervalSet := do
  let (actual, neg, add) := deview var
  let raw ← (match actual with
    | .simple i => d.stateOf i
    | .const c => .ok (single c c))
  if ¬ neg ∧ add = 0 then return raw
  if neg then negateIntervals add (eachInterval raw).reverse []
  else shiftIntervals add (eachInterval raw) []

/-- gcs/innards/state.cc:562-585. -/
def domainIntersectsWith (d : Doms) (var : VarId) (set : IntervalSet) : Chk Bool := do
  let (actual, neg, add) := deview var
  if neg then return containsAnyOf (← copyOfValues d var) set
  match actual with
  | .simple i =>
    if add = 0 then return containsAnyOf (← d.stateOf i) set
    return containsAnyOf (← copyOfValues d var) set
  | .const c => return contains (← iAdd c add) set

/-- gcs/innards/state.cc:587-628. The fast path for two plain variables computes the same as the last case and is merged with it. -/
def domainsIntersect (d : Doms) (var1 var2 : VarId) : Chk Bool := do
  let (actual1, neg1, add1) := deview var1
  let (actual2, neg2, add2) := deview var2
  if neg1 then domainIntersectsWith d var2 (← copyOfValues d var1)
  else if neg2 then domainIntersectsWith d var1 (← copyOfValues d var2)
  else
    match actual1, actual2 with
    | .simple i, .simple j =>
      if add1 = 0 ∧ add2 = 0 then return containsAnyOf (← d.stateOf i) (← d.stateOf j)
      else domainIntersectsWith d var1 (← copyOfValues d var2)
    | .simple _, .const c => inDomain d var1 (← iAdd c add2)
    | .const c, _ => inDomain d var2 (← iAdd c add1)

/-- Yield `f x` for each `x` yielded by another generator that ends with `e`. -/
def genMap (f : Int → Chk Int) : List Int → Option Err → Gen Int
  | [], e => ([], e)
  | x :: xs, e =>
    match f x with
    | .error e' => ([], some e')
    | .ok y => let r := genMap f xs e; (y :: r.1, r.2)

/-- gcs/innards/state.cc:632-666 (`each_value_immutable` and `each_value_mutable` have the same body). The generator takes the set by value, so later changes
to the state do not affect it. -/
def eachValue (d : Doms) (var : VarId) : Chk (Gen Int) :=
  let (actual, neg, add) := deview var
  match actual with
  | .simple i => do
    let g := each (← d.stateOf i)
    return genMap (applyView · neg add) g.1 g.2
  | .const c => .ok (genMap (applyView · neg add) [c] none)

/-- gcs/current_state.cc:77-83. -/
def eachValueReversed (d : Doms) (var : VarId) : Chk (Gen Int) := do return eachReversed (← copyOfValues d var)

/-- gcs/innards/state.cc:668-673. -/
def valueOf (d : Doms) (var : VarId) : Chk Int := do
  match ← optionalSingleValue d var with
  | some v => return v
  | none => throw .noUniqueValue

/-- gcs/innards/state.cc:721-779. -/
def testCond (d : Doms) (c : Cond) : Chk LiteralIs := do
  match c.op with
  | .equal =>
    if ¬ (← inDomain d c.var c.value) then return .definitelyFalse
    else if ← hasSingleValue d c.var then return .definitelyTrue
    else return .undecided
  | .less =>
    if (← lowerBound d c.var) < c.value then
      if (← upperBound d c.var) < c.value then return .definitelyTrue else return .undecided
    else return .definitelyFalse
  | .greaterEqual =>
    if (← upperBound d c.var) ≥ c.value then
      if (← lowerBound d c.var) ≥ c.value then return .definitelyTrue else return .undecided
    else return .definitelyFalse
  | .notEqual =>
    if ¬ (← inDomain d c.var c.value) then return .definitelyTrue
    else if ← hasSingleValue d c.var then return .definitelyFalse
    else return .undecided
  | .inRange =>
    if (← lowerBound d c.var) ≥ c.value ∧ (← upperBound d c.var) ≤ c.upper then return .definitelyTrue
    else if ¬ (← domainIntersectsWith d c.var (single c.value c.upper)) then return .definitelyFalse
    else return .undecided
  | .notInRange =>
    if ¬ (← domainIntersectsWith d c.var (single c.value c.upper)) then return .definitelyTrue
    else if (← lowerBound d c.var) ≥ c.value ∧ (← upperBound d c.var) ≤ c.upper then return .definitelyFalse
    else return .undecided

/-- gcs/innards/state.cc:711-719. -/
def testLiteral (d : Doms) : Lit → Chk LiteralIs
  | .cond c => testCond d c
  | .tt => .ok .definitelyTrue
  | .ff => .ok .definitelyFalse

/-! ## Epochs -/

/-- gcs/innards/state.hh:38-48. -/
structure Timestamp where
  when_ : Nat
  howManyGuesses : Nat
  howManyExtra : Option Nat
  deriving DecidableEq, Repr

/-- gcs/innards/state.cc:90-102. `list`s of epochs are stored newest first. `σ` is the type of constraint states (`std::any` in the code); an
`on_backtrack` callback is represented by an identifier of type `κ`. The proof logger pointer is omitted. -/
structure State (σ κ : Type) where
  vars : List Doms
  cstates : List (List σ)
  onBacktracks : List (List κ)
  guesses : List Lit
  extra : List Lit
  minimise : Option VarId
  incumbent : Option Int
  deriving DecidableEq, Repr

namespace State
variable {σ κ : Type}

/-- gcs/innards/state.cc:104-109. -/
def empty : State σ κ := ⟨[[]], [[]], [[]], [], [], none, none⟩

/-- `list::resize(n)` on a newest-first list: drop the newest, or append default elements. -/
def resize {α : Type} (dflt : α) (n : Nat) (l : List α) : List α :=
  List.replicate (n - l.length) dflt ++ l.drop (l.length - n)

/-- gcs/innards/state.cc:129-135. -/
def allocate (s : State σ κ) (lo hi : Int) : Chk (Nat × State σ κ) :=
  if lo > hi then .error .invalidProblem
  else
    match s.vars with
    | [] => .error .ub
    | d :: r => .ok (d.length, { s with vars := (d ++ [single lo hi]) :: r })

/-- The current domains, `integer_variable_states.back()`. -/
def cur (s : State σ κ) : Chk Doms :=
  match s.vars with
  | [] => .error .ub
  | d :: _ => .ok d

/-- gcs/innards/state.cc:271-279. -/
def infer (s : State σ κ) (l : Lit) : Chk (Inference × State σ κ) :=
  match s.vars with
  | [] => .error .ub
  | d :: r => do
    let x ← Gcs.infer d l
    return (x.1, { s with vars := x.2 :: r })

/-- gcs/innards/state.cc:385-398. -/
def guess (s : State σ κ) (l : Lit) : Chk (State σ κ) := do
  let x ← s.infer l
  match x.1 with
  | .contradiction => throw .unexpected
  | _ => return { x.2 with guesses := x.2.guesses ++ [l] }

/-- gcs/innards/state.cc:400-403. -/
def addExtra (s : State σ κ) (l : Lit) : State σ κ := { s with extra := s.extra ++ [l] }

/-- gcs/innards/state.cc:781-784. -/
def onBacktrack (s : State σ κ) (k : κ) : Chk (State σ κ) :=
  match s.onBacktracks with
  | [] => .error .ub
  | e :: r => .ok { s with onBacktracks := (e ++ [k]) :: r }

/-- gcs/innards/state.cc:791-795. -/
def addConstraintState (s : State σ κ) (c : σ) : Chk (Nat × State σ κ) :=
  match s.cstates with
  | [] => .error .ub
  | e :: r => .ok (e.length, { s with cstates := (e ++ [c]) :: r })

/-- Writing through the reference returned by gcs/innards/state.cc:797-800. -/
def setConstraintState (s : State σ κ) (h : Nat) (c : σ) : Chk (State σ κ) :=
  match s.cstates with
  | [] => .error .ub
  | e :: r => if h < e.length then .ok { s with cstates := e.set h c :: r } else .error .ub

/-- gcs/innards/state.cc:675-683. -/
def newEpoch (s : State σ κ) (subsearch : Bool) : Chk (Timestamp × State σ κ) :=
  match s.vars, s.cstates with
  | d :: r, c :: q =>
    let s' := { s with vars := d :: d :: r, cstates := c :: c :: q, onBacktracks := [] :: s.onBacktracks }
    .ok (⟨s'.vars.length - 1, s.guesses.length, if subsearch then some s.extra.length else none⟩, s')
  | _, _ => .error .ub

/-- The `while` loop at gcs/innards/state.cc:694-698: remaining epochs, and the callbacks in the order they run. -/
def runCallbacks (n : Nat) : List (List κ) → List (List κ) × List κ
  | [] => ([], [])
  | e :: r => if (e :: r).length > n then let x := runCallbacks n r; (x.1, e ++ x.2) else (e :: r, [])

/-- gcs/innards/state.cc:685-699. `erase` from an iterator past the end is undefined. Second component: callbacks in the order they run. -/
def backtrack (s : State σ κ) (t : Timestamp) : Chk (State σ κ × List κ) :=
  if t.howManyGuesses > s.guesses.length then .error .ub
  else
    let extra' : Chk (List Lit) :=
      match t.howManyExtra with
      | none => .ok s.extra
      | some n => if n > s.extra.length then .error .ub else .ok (s.extra.take n)
    match extra' with
    | .error e => .error e
    | .ok x =>
      let cb := runCallbacks t.when_ s.onBacktracks
      .ok ({ s with
          vars := resize [] t.when_ s.vars
          cstates := resize [] t.when_ s.cstates
          guesses := s.guesses.take t.howManyGuesses
          extra := x
          onBacktracks := cb.1 }, cb.2)

/-- gcs/innards/state.cc:117-127: note that `guesses` and `extra_proof_conditions` are not copied. -/
def clone (s : State σ κ) : State σ κ := { s with guesses := [], extra := [] }

end State
end Gcs
