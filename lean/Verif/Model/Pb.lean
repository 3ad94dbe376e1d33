import Verif.Model.Literal

/-!
# Encodings of variables and inequalities in proofs

Models `gcs/innards/proofs/bits_encoding.cc`, `emit_inequality_to.cc`, `simplify_literal.cc`, and the parts of `names_and_ids_tracker.cc`, `proof_model.cc` and `proof_logger.cc` that say what is written for a
variable, a condition, an inequality. A row of the OPB file or of the proof is a list of weighted literals and a degree; the text it is printed as is not modelled, nor labels, line numbers and proof rules.
-/

namespace Gcs.Pb

/-- `SimpleOrProofOnlyIntegerVariableID`. -/
inductive PVar where
  | real (i : Nat)
  | aux (i : Nat)
  deriving DecidableEq, Repr

/-- What a variable of the OPB file was allocated for (`allocate_xliteral_meaning*`, gcs/innards/proofs/names_and_ids_tracker.cc:1923-2150). The code has numbers for these. -/
inductive XVar where
  | sign (p : PVar)
  | bit (p : PVar) (k : Int)
  | ge (p : PVar) (v : Int)
  | eq (p : PVar) (v : Int)
  | within (p : PVar) (lo hi : Int)
  | flag (n : Nat)
  deriving DecidableEq, Repr

/-- `XLiteral`. -/
structure XLit where
  var : XVar
  neg : Bool := false
  deriving DecidableEq, Repr

def XLit.not (x : XLit) : XLit := { x with neg := !x.neg }

/-- One line: the weighted sum of the literals is at least the degree. -/
structure Row where
  terms : List (Int × XLit)
  degree : Int
  deriving DecidableEq, Repr

abbrev Bits := List (Int × XLit)

/-! ## Bits -/

/-- `std::bit_width`. -/
def bitWidth (n : Nat) : Nat := if n = 0 then 0 else n.log2 + 1

/-- `static_cast<unsigned long long>`. -/
def toUnsigned (x : Int) : Nat := (x % 2 ^ 64).toNat

/-- gcs/innards/proofs/bits_encoding.cc:35 -/
def highestAbsValue (lower upper : Int) : Chk Int :=
  if lower < 0 then do
    let a ← iAbs lower
    let a ← iSub a 1
    return max a upper
  else .ok upper

/-- `get_bits_encoding_coeffs` (gcs/innards/proofs/bits_encoding.cc:16-40). -/
def getBitsEncodingCoeffs (lower upper : Int) : Chk (Int × Int × Int) := do
  let h ← highestAbsValue lower upper
  let shift : Int := (bitWidth (toUnsigned h) : Int) - 1
  let coeff ← (if shift ≥ 0 then power2 shift else .ok 0)
  let negative ← (if lower < 0 then do iNeg (← power2 (shift + 1)) else .ok 0)
  return (shift, coeff, negative)

/-- `bits_encoding_fits` (gcs/innards/proofs/bits_encoding.cc:42-54). -/
def bitsEncodingFits (lower upper : Int) : Chk Bool :=
  if lower = i64Min then .ok false
  else do
    let h ← highestAbsValue lower upper
    let shift : Int := (bitWidth (toUnsigned h) : Int) - 1
    let power := if lower < 0 then shift + 1 else shift
    return decide (power < 63)

/-- The loop over the bits (gcs/innards/proofs/proof_model.cc:561-569). -/
def valueBits (p : PVar) (b shift : Int) : Nat → Chk Bits
  | 0 => .ok []
  | n + 1 =>
    if b ≤ shift then do
      let c ← power2 b
      let rest ← valueBits p (b + 1) shift n
      return (c, ⟨.bit p b, false⟩) :: rest
    else .ok []

/-- `register_bits_variable_encoding` (gcs/innards/proofs/proof_model.cc:515-573), without a naming scheme for `cake_pb_cp`. There are at most 63 bits. -/
def registerBits (p : PVar) (lower upper : Int) : Chk Bits := do
  let (shift, _, negative) ← getBitsEncodingCoeffs lower upper
  let bits ← valueBits p 0 shift 64
  return if negative ≠ 0 then (negative, ⟨.sign p, false⟩) :: bits else bits

/-- The two rows for the bounds (gcs/innards/proofs/proof_model.cc:595-622). -/
def boundRows (bits : Bits) (lower upper : Int) : Chk (Row × Row) := do
  let neg ← bits.mapM fun (c, x) => do return (← iNeg c, x)
  return (⟨bits, lower⟩, ⟨neg, ← iNeg upper⟩)

/-- The row for a variable with values 0 and 1 (gcs/innards/proofs/proof_model.cc:431-435), and its only bit. -/
def zeroOneRow (p : PVar) : Row := ⟨[(1, ⟨.bit p 0, false⟩)], 0⟩

/-- `for (v = lower; v <= upper; ++v)`. -/
def valuesBetween (lower upper : Int) : List Int := (List.range (upper - lower + 1).toNat).map fun (k : Nat) => lower + (k : Int)

/-- The two rows for a variable with a literal for each value (gcs/innards/proofs/proof_model.cc:464-488). -/
def directRows (p : PVar) (lower upper : Int) : Row × Row :=
  (⟨(valuesBetween lower upper).map fun v => (1, ⟨.eq p v, false⟩), 1⟩, ⟨(valuesBetween lower upper).map fun v => (-1, ⟨.eq p v, false⟩), -1⟩)

/-! ## Terms -/

/-- `ProofLiteral`. -/
inductive PLit where
  | lit (l : Lit)
  | aux (i : Nat) (op : CondOp) (value : Int) (upper : Int := 0)
  deriving DecidableEq, Repr

/-- `ProofLiteralOrFlag`. -/
inductive PItem where
  | lit (l : PLit)
  | flag (n : Nat) (positive : Bool)
  | bit (p : PVar) (position : Int) (positive : Bool)
  deriving DecidableEq, Repr

/-- `PseudoBooleanTerm`: what an item may be, or a variable. -/
inductive Term where
  | item (i : PItem)
  | var (v : VarId)
  | aux (i : Nat)
  deriving DecidableEq, Repr

/-- `operator!` on conditions (gcs/variable_condition.hh:245-257). -/
def notOp : CondOp → CondOp
  | .equal => .notEqual
  | .notEqual => .equal
  | .less => .greaterEqual
  | .greaterEqual => .less
  | .inRange => .notInRange
  | .notInRange => .inRange

/-- gcs/innards/proofs/proof_only_variables.cc:10-28. -/
def PItem.not : PItem → PItem
  | .lit (.lit l) => .lit (.lit l.not)
  | .lit (.aux i op v u) => .lit (.aux i (notOp op) v u)
  | .flag n b => .flag n (!b)
  | .bit p k b => .bit p k (!b)

/-- What `NamesAndIDsTracker` knows: the bits of variables, the literals of conditions, and the variables standing for views. -/
structure Tracker where
  bits : PVar → Option Bits
  ge : PVar → Int → Option XLit
  eq : PVar → Int → Option XLit
  within : PVar → Int → Int → Option XLit
  view : Nat → Bool → Int → Option Nat

namespace Tracker

/-- `find_condition` (gcs/innards/proofs/names_and_ids_tracker.cc:256-281), which throws here if there is none: names have been asked for before (`need_all_proof_names_in`), or are introduced on the way. -/
def find (t : Tracker) (p : PVar) (op : CondOp) (v u : Int) : Chk XLit :=
  let found := match op with
    | .equal => t.eq p v
    | .notEqual => (t.eq p v).map XLit.not
    | .greaterEqual => t.ge p v
    | .less => (t.ge p v).map XLit.not
    | .inRange => t.within p v u
    | .notInRange => (t.within p v u).map XLit.not
  match found with
  | some x => .ok x
  | none => .error .unexpected

/-- `each_bit` (gcs/innards/proofs/names_and_ids_tracker.cc:675-682). -/
def eachBit (t : Tracker) (p : PVar) : Chk Bits :=
  match t.bits p with
  | some b => .ok b
  | none => .error .unexpected

/-- `get_bit` (gcs/innards/proofs/names_and_ids_tracker.cc:693-705). -/
def getBit (t : Tracker) (p : PVar) (position : Int) (positive : Bool) : Chk XLit := do
  let bits ← t.eachBit p
  if position < 0 then .error .unexpected
  else
    match bits[position.toNat]? with
    | some (_, x) => return if positive then x else x.not
    | none => .error .unexpected

end Tracker

/-- `SimpleLiteral`. -/
inductive SLit where
  | tt
  | ff
  | cond (p : PVar) (op : CondOp) (value upper : Int)
  deriving DecidableEq, Repr

/-- `canonicalise_range` (gcs/innards/proofs/simplify_literal.cc:29-38). -/
def canonicaliseRange (p : PVar) (op : CondOp) (value upper : Int) : SLit :=
  if value > upper then (if op = .inRange then .ff else .tt)
  else if value = upper then .cond p (if op = .inRange then .equal else .notEqual) value 0
  else .cond p op value upper

/-- `is_range_op` (gcs/innards/proofs/simplify_literal.cc:40-43). -/
def isRangeOp (op : CondOp) : Bool := op = .inRange || op = .notInRange

def ofBool (b : Bool) : SLit := if b then .tt else .ff

/-- `simplify_literal` (gcs/innards/proofs/simplify_literal.cc:46-147). -/
def simplifyLiteral (t : Tracker) : PLit → Chk SLit
  | .lit .tt => .ok .tt
  | .lit .ff => .ok .ff
  | .aux i op v u => .ok (if isRangeOp op then canonicaliseRange (.aux i) op v u else .cond (.aux i) op v u)
  | .lit (.cond c) =>
    match c.var with
    | .simple i => .ok (if isRangeOp c.op then canonicaliseRange (.real i) c.op c.value c.upper else .cond (.real i) c.op c.value c.upper)
    | .view i neg add =>
      if isRangeOp c.op then .error .unimplemented
      else
        match t.view i neg add with
        | some k => .ok (.cond (.aux k) c.op c.value 0)
        | none =>
          match c.op with
          | .notEqual => do return .cond (.real i) .notEqual (← if neg then do iAdd (← iNeg c.value) add else iSub c.value add) 0
          | .equal => do return .cond (.real i) .equal (← if neg then do iAdd (← iNeg c.value) add else iSub c.value add) 0
          | .less =>
            if neg then do return .cond (.real i) .greaterEqual (← iAdd (← iAdd (← iNeg c.value) add) 1) 0
            else do return .cond (.real i) .less (← iSub c.value add) 0
          | .greaterEqual =>
            if neg then do return .cond (.real i) .less (← iAdd (← iAdd (← iNeg c.value) add) 1) 0
            else do return .cond (.real i) .greaterEqual (← iSub c.value add) 0
          | .inRange => .error .unimplemented
          | .notInRange => .error .unimplemented
    | .const x =>
      .ok (match c.op with
        | .notEqual => ofBool (x ≠ c.value)
        | .equal => ofBool (x = c.value)
        | .less => ofBool (x < c.value)
        | .greaterEqual => ofBool (x ≥ c.value)
        | .inRange => ofBool (x ≥ c.value ∧ x ≤ c.upper)
        | .notInRange => ofBool (x < c.value ∨ x > c.upper))

/-! ## Inequalities -/

/-- The loops over bits in `append_or_fold_term_to`: the terms with coefficient times weight of the bit. -/
def bitTerms (c : Int) : Bits → Chk (List (Int × XLit))
  | [] => .ok []
  | (b, x) :: bits => do
    let k ← iMul c b
    return (k, x) :: (← bitTerms c bits)

/-- `append_or_fold_term_to` (gcs/innards/proofs/emit_inequality_to.cc:29-87). -/
def appendOrFold (t : Tracker) (w : Int) (v : Term) (out : List (Int × XLit)) (rhs : Int) : Chk (List (Int × XLit) × Int) :=
  match v with
  | .item (.lit l) => do
    match ← simplifyLiteral t l with
    | .tt => return (out, ← iAdd rhs w)
    | .ff => return (out, rhs)
    | .cond p op v u => return (out ++ [(← iNeg w, ← t.find p op v u)], rhs)
  | .item (.flag n positive) => do return (out ++ [(← iNeg w, ⟨.flag n, !positive⟩)], rhs)
  | .item (.bit p k positive) => do
    let x ← t.getBit p k positive
    return (out ++ [(← iNeg w, x)], rhs)
  | .aux i => do
    let bits ← t.eachBit (.aux i)
    return (out ++ (← bitTerms (← iNeg w) bits), rhs)
  | .var (.simple i) => do
    let bits ← t.eachBit (.real i)
    return (out ++ (← bitTerms (← iNeg w) bits), rhs)
  | .var (.view i neg add) =>
    match t.view i neg add with
    | some k => do
      let bits ← t.eachBit (.aux k)
      return (out ++ (← bitTerms (← iNeg w) bits), rhs)
    | none =>
      if neg then do
        let bits ← t.eachBit (.real i)
        return (out ++ (← bitTerms w bits), ← iAdd rhs (← iMul w add))
      else do
        let bits ← t.eachBit (.real i)
        return (out ++ (← bitTerms (← iNeg w) bits), ← iAdd rhs (← iMul w add))
  | .var (.const c) => do return (out, ← iAdd rhs (← iMul w c))

/-- `SumLessThanEqual<Weighted<PseudoBooleanTerm>>`. -/
structure Ineq where
  lhs : List (Int × Term)
  rhs : Int
  deriving DecidableEq, Repr

/-- The loop over the terms (gcs/innards/proofs/emit_inequality_to.cc:95-99, 117-121). -/
def emitTerms (t : Tracker) : List (Int × Term) → List (Int × XLit) → Int → Chk (List (Int × XLit) × Int)
  | [], out, rhs => .ok (out, rhs)
  | (w, v) :: terms, out, rhs =>
    if w = 0 then emitTerms t terms out rhs
    else do
      let (out, rhs) ← appendOrFold t w v out rhs
      emitTerms t terms out rhs

/-- `emit_inequality_to` (gcs/innards/proofs/emit_inequality_to.cc:89-104). -/
def emitInequality (t : Tracker) (i : Ineq) : Chk Row := do
  let (out, rhs) ← emitTerms t i.lhs [] (← iNeg i.rhs)
  return ⟨out, rhs⟩

/-- The sum of the positive parts, over bits. -/
def positiveBits (c : Int) : Bits → Int → Chk Int
  | [], m => .ok m
  | (b, _) :: bits, m => do positiveBits c bits (← iAdd m (max 0 (← iMul c b)))

/-- One term in the loop of `reification_shape` (gcs/innards/proofs/names_and_ids_tracker.cc:2300-2349). -/
def maxContribution (t : Tracker) (w : Int) (v : Term) (m : Int) : Chk Int :=
  match v with
  | .item _ => iAdd m (max 0 w)
  | .aux i => do positiveBits w (← t.eachBit (.aux i)) m
  | .var (.simple i) => do positiveBits w (← t.eachBit (.real i)) m
  | .var (.view i neg add) =>
    match t.view i neg add with
    | some k => do positiveBits w (← t.eachBit (.aux k)) m
    | none =>
      if neg then do
        let m ← positiveBits (← iNeg w) (← t.eachBit (.real i)) m
        iAdd m (max 0 (← iMul w add))
      else do
        let m ← positiveBits w (← t.eachBit (.real i)) m
        iAdd m (max 0 (← iMul w add))
  | .var (.const c) => do iAdd m (max 0 (← iMul w c))

def maxContributions (t : Tracker) : List (Int × Term) → Int → Chk Int
  | [], m => .ok m
  | (w, v) :: terms, m => do maxContributions t terms (← maxContribution t w v m)

/-- `HalfReifyOnConjunctionOf`. -/
abbrev Reifs := List PItem

/-- gcs/innards/proofs/names_and_ids_tracker.cc:2281-2293 -/
def containsFalse (reifs : Reifs) : Bool :=
  reifs.any fun
    | .lit (.lit l) => l.isLiterallyFalse
    | _ => false

/-- `reification_shape` (gcs/innards/proofs/names_and_ids_tracker.cc:2275-2363): coefficient and right hand side. -/
def reificationShape (t : Tracker) (i : Ineq) (reifs : Reifs) : Chk (Int × Int) := do
  let m ← maxContributions t i.lhs 0
  let k ← iAdd (← iNeg m) i.rhs
  let rhs ← (if containsFalse reifs then iAdd i.rhs m else .ok i.rhs)
  return (min k (-1), rhs)

/-- `reify` (gcs/innards/proofs/names_and_ids_tracker.cc:2365-2381). -/
def reify (t : Tracker) (i : Ineq) (reifs : Reifs) : Chk Ineq := do
  let (k, rhs) ← reificationShape t i reifs
  return ⟨i.lhs ++ reifs.map fun r => (k, .item r.not), rhs⟩

/-- The loop over the reifying items in `emit_reified_inequality_to` (gcs/innards/proofs/emit_inequality_to.cc:130-146). -/
def emitReifs (t : Tracker) (k : Int) : Reifs → List (Int × XLit) → Int → Chk (List (Int × XLit) × Int)
  | [], out, rhs => .ok (out, rhs)
  | .lit l :: reifs, out, rhs => do
    match ← simplifyLiteral t l with
    | .tt => emitReifs t k reifs out rhs
    | .ff => emitReifs t k reifs out (← iAdd rhs k)
    | .cond p op v u => emitReifs t k reifs (out ++ [(← iNeg k, (← t.find p op v u).not)]) rhs
  | r :: reifs, out, rhs => do
    let (out, rhs) ← appendOrFold t k (.item r.not) out rhs
    emitReifs t k reifs out rhs

/-- `emit_reified_inequality_to` (gcs/innards/proofs/emit_inequality_to.cc:106-150). -/
def emitReifiedInequality (t : Tracker) (i : Ineq) (reifs : Reifs) : Chk Row := do
  let (k, rhs) ← reificationShape t i reifs
  let (out, rhs) ← emitTerms t i.lhs [] (← iNeg rhs)
  let (out, rhs) ← emitReifs t k reifs out rhs
  return ⟨out, rhs⟩

/-- `add_constraint` with an inequality (gcs/innards/proofs/proof_model.cc:170-183), when the names have been introduced. -/
def addConstraint (t : Tracker) (i : Ineq) : Option Reifs → Chk Row
  | none => emitInequality t i
  | some reifs => do emitInequality t (← reify t i reifs)

/-- `operator>=` (gcs/expression.hh:151-158). -/
def atLeast (lhs : List (Int × Term)) (rhs : Int) : Chk Ineq := do
  let l ← lhs.mapM fun (c, v) => do return (← iNeg c, v)
  return ⟨l, ← iNeg rhs⟩

/-- `negate_inequality` (gcs/expression.hh:187-193). -/
def negateInequality (i : Ineq) : Chk Ineq := do
  let l ← i.lhs.mapM fun (c, v) => do return (← iNeg c, v)
  return ⟨l, ← iSub (← iNeg i.rhs) 1⟩

/-- `add_constraint` with an equality (gcs/innards/proofs/proof_model.cc:184-206). -/
def addEquality (t : Tracker) (lhs : List (Int × Term)) (rhs : Int) (reifs : Option Reifs) : Chk (Row × Row) := do
  let le ← addConstraint t ⟨lhs, rhs⟩ reifs
  let ge ← addConstraint t (← atLeast lhs rhs) reifs
  return (le, ge)

/-- `add_two_way_reified_constraint` (gcs/innards/proofs/proof_model.cc:297-314). -/
def addTwoWay (t : Tracker) (i : Ineq) (n : Nat) (positive : Bool) : Chk (Row × Row) := do
  let forward ← addConstraint t i (some [.flag n positive])
  let reverse ← addConstraint t (← negateInequality i) (some [.flag n (!positive)])
  return (forward, reverse)

/-- `emit_red_proof_lines_reifying` (gcs/innards/proofs/proof_logger.cc:924-968): the rows introduced by redundance. -/
def redReifying (t : Tracker) (i : Ineq) (r : PItem) : Chk (Row × Row) := do
  let forward ← emitInequality t (← reify t i [r])
  let negated ← atLeast i.lhs (← iAdd i.rhs 1)
  let reverse ← emitInequality t (← reify t negated [r.not])
  return (forward, reverse)

/-- The sum of a clause (gcs/innards/proofs/proof_model.cc:146-165): true literals and what is left. Sorting is not modelled. -/
def clauseTerms (t : Tracker) : List PLit → Chk (Bool × List (Int × Term))
  | [] => .ok (false, [])
  | l :: ls => do
    let s ← simplifyLiteral t l
    let (taut, terms) ← clauseTerms t ls
    match s with
    | .tt => return (true, terms)
    | .ff => return (taut, terms)
    | .cond p op v u =>
      let c : PLit := match p with
        | .real i => .lit (.cond ⟨.simple i, op, v, u⟩)
        | .aux i => .aux i op v u
      return (taut, if (1, .item (.lit c)) ∈ terms then terms else (1, .item (.lit c)) :: terms)

/-- `add_constraint` with a clause (gcs/innards/proofs/proof_model.cc:144-168). -/
def addClause (t : Tracker) (ls : List PLit) : Chk Row := do
  let (taut, terms) ← clauseTerms t ls
  emitInequality t (← atLeast terms (if taut then 0 else 1))

/-! ## Definitions of literals -/

/-- `1_i * vid`, and the condition on it. -/
def varTerm : PVar → Term
  | .real i => .var (.simple i)
  | .aux i => .aux i

def condOf (p : PVar) (op : CondOp) (v : Int) (u : Int := 0) : PItem :=
  match p with
  | .real i => .lit (.lit (.cond ⟨.simple i, op, v, u⟩))
  | .aux i => .lit (.aux i op v u)

/-- The rows `need_gevar` adds to the model (gcs/innards/proofs/names_and_ids_tracker.cc:942-952). -/
def geRows (t : Tracker) (p : PVar) (v : Int) : Chk (Row × Row) := do
  let r ← addConstraint t (← atLeast [(1, varTerm p)] v) (some [condOf p .greaterEqual v])
  let f ← addConstraint t (← atLeast [(-1, varTerm p)] (← iAdd (← iNeg v) 1)) (some [condOf p .less v])
  return (r, f)

/-- The rows `need_gevar` adds to the proof (gcs/innards/proofs/names_and_ids_tracker.cc:933-937). -/
def geRowsRed (t : Tracker) (p : PVar) (v : Int) : Chk (Row × Row) := do redReifying t (← atLeast [(1, varTerm p)] v) (condOf p .greaterEqual v)

/-- The rows `need_direct_encoding_for` adds to the model (gcs/innards/proofs/names_and_ids_tracker.cc:761-824). `bounds` are there if the compact encoding is on and the variable has bounds. -/
def eqRows (t : Tracker) (p : PVar) (v : Int) (bounds : Option (Int × Int)) : Chk (Row × Row) := do
  let next ← iAdd v 1
  let ge := condOf p .greaterEqual v
  let gt := condOf p .greaterEqual next
  let eq := some [condOf p .equal v]
  let ne := some [condOf p .notEqual v]
  if bounds.map Prod.fst = some v then
    return (← addConstraint t (← atLeast [(1, .item gt.not)] 1) eq, ← addConstraint t (← atLeast [(1, .item gt)] 1) ne)
  else if bounds.map Prod.snd = some v then
    return (← addConstraint t (← atLeast [(1, .item ge)] 1) eq, ← addConstraint t (← atLeast [(1, .item ge.not)] 1) ne)
  else
    return (← addConstraint t (← atLeast [(1, .item ge), (1, .item gt.not)] 2) eq, ← addConstraint t (← atLeast [(1, .item ge.not), (1, .item gt)] 1) ne)

/-- The rows `need_direct_encoding_for` adds to the proof (gcs/innards/proofs/names_and_ids_tracker.cc:763-817). -/
def eqRowsRed (t : Tracker) (p : PVar) (v : Int) (bounds : Option (Int × Int)) : Chk (Row × Row) := do
  let next ← iAdd v 1
  let ge := condOf p .greaterEqual v
  let gt := condOf p .greaterEqual next
  let sum : List (Int × Term) × Int :=
    if bounds.map Prod.fst = some v then ([(1, .item gt.not)], 1)
    else if bounds.map Prod.snd = some v then ([(1, .item ge)], 1)
    else ([(1, .item ge), (1, .item gt.not)], 2)
  redReifying t (← atLeast sum.1 sum.2) (condOf p .equal v)

/-- The rows of `define_plain_invar` (gcs/innards/proofs/names_and_ids_tracker.cc:1255-1275). -/
def withinRows (t : Tracker) (p : PVar) (lo hi : Int) : Chk (Row × Row) := do
  let next ← iAdd hi 1
  redReifying t (← atLeast [(1, .item (condOf p .greaterEqual lo)), (1, .item (condOf p .greaterEqual next).not)] 2) (condOf p .inRange lo hi)

/-- `view_bounds` (gcs/innards/proofs/names_and_ids_tracker.cc:1448-1455). -/
def viewBounds (lower upper : Int) (neg : Bool) (add : Int) : Chk (Int × Int) :=
  if neg then do return (← iAdd (← iNeg upper) add, ← iAdd (← iNeg lower) add)
  else do return (← iAdd lower add, ← iAdd upper add)

/-- The rows `need_view` adds (gcs/innards/proofs/names_and_ids_tracker.cc:1475-1482). -/
def viewRows (t : Tracker) (k i : Nat) (neg : Bool) (add : Int) : Chk (Row × Row) :=
  addEquality t [(1, .aux k), (if neg then 1 else -1, .var (.simple i))] add none

end Gcs.Pb
