import Verif.Model.Pb

/-!
# Writing the model: variables, literals and constraints in the order in which they are asked for

Models `need_gevar`, `need_direct_encoding_for`, `define_plain_invar`, `need_invar`, `need_view` (`gcs/innards/proofs/names_and_ids_tracker.cc`), the ways of setting up a variable and adding a constraint
(`gcs/innards/proofs/proof_model.cc`), and the switch from the model to the proof. Only rows that say something new are kept: those of the OPB file, and those introduced by redundance in the proof. Rows derived from
these are not here (for chains of literals see `Model/OrderLiterals.lean`, for containment and coverings `Model/RangeLiterals.lean`; links between views are not modelled), nor is anything omitted by assertion levels above `Off`.
-/

namespace Gcs.Pb

/-- A constraint as it was asked for, kept only to be able to say what the rows mean. -/
structure Asked where
  ineq : Ineq
  reifs : Option Reifs
  deriving DecidableEq, Repr

/-- `NamesAndIDsTracker::Imp` and `ProofModel::Imp`. -/
structure Session where
  t : Tracker
  /-- `integer_variable_definition_bounds` -/
  bounds : PVar → Option (Int × Int)
  /-- `view_proof_only_to_view` -/
  viewOf : Nat → Option (Nat × Bool × Int)
  /-- `views_of_variable` -/
  viewsOf : Nat → List Nat
  /-- `gevar_values` -/
  geValues : PVar → List Int
  /-- the keys of `eq_defs` -/
  eqValues : PVar → List Int
  /-- `proof_only_integer_variable_nr` -/
  nextAux : Nat
  /-- is there a logger yet? -/
  inProof : Bool
  /-- `use_compact_boolean_encoding` -/
  compact : Bool
  rows : List Row
  /-- not in the code: which variables have rows for their bounds -/
  bounded : PVar → Bool
  /-- not in the code -/
  asked : List Asked

/-- At the start nothing is known. -/
def Session.start (compact : Bool) : Session :=
  { t := { bits := fun _ => none, ge := fun _ _ => none, eq := fun _ _ => none, within := fun _ _ _ => none, view := fun _ _ _ => none },
    bounds := fun _ => none, viewOf := fun _ => none, viewsOf := fun _ => [], geValues := fun _ => [], eqValues := fun _ => [],
    nextAux := 0, inProof := false, compact := compact, rows := [], bounded := fun _ => false, asked := [] }

/-- A function changed at one argument. -/
def upd [DecidableEq α] (f : α → β) (x : α) (y : β) : α → β := fun z => if z = x then y else f z

namespace Session

def addRows (s : Session) (r : Row × Row) : Session := { s with rows := s.rows ++ [r.1, r.2] }

/-- `store_condition` (gcs/innards/proofs/names_and_ids_tracker.cc:286-299): the first one stays. -/
def storeEq (s : Session) (p : PVar) (v : Int) (x : XLit) : Session :=
  { s with t := { s.t with eq := upd s.t.eq p (upd (s.t.eq p) v (some ((s.t.eq p v).getD x))) } }

def storeGe (s : Session) (p : PVar) (v : Int) : Session :=
  { s with t := { s.t with ge := upd s.t.ge p (upd (s.t.ge p) v (some ⟨.ge p v, false⟩)) } }

def storeWithin (s : Session) (p : PVar) (lo hi : Int) : Session :=
  { s with t := { s.t with within := upd s.t.within p (upd (s.t.within p) lo (upd (s.t.within p lo) hi (some ((s.t.within p lo hi).getD ⟨.within p lo hi, false⟩)))) } }

/-- `gevar_values` and `eq_defs` grow. -/
def noteGe (s : Session) (p : PVar) (v : Int) : Session := { s with geValues := upd s.geValues p (v :: s.geValues p) }

def noteEq (s : Session) (p : PVar) (v : Int) : Session := { s with eqValues := upd s.eqValues p (v :: s.eqValues p) }

mutual
/-- `need_gevar` (gcs/innards/proofs/names_and_ids_tracker.cc:919-1190). The depth is bounded by `fuel`: the code recurses until the literals exist. -/
def needGe : Nat → Session → PVar → Int → Chk Session
  | 0, _, _, _ => .error .diverge
  | fuel + 1, s, p, v =>
    if (s.t.ge p v).isSome then .ok s
    else do
      let s := s.storeGe p v
      let rows ← (if s.inProof then geRowsRed s.t p v else geRows s.t p v)
      let s := (s.addRows rows).noteGe p v
      match p with
      | .aux k =>
        match s.viewOf k with
        | some (i, neg, add) => do
          let x ← (if neg then do iAdd (← iSub add v) 1 else iSub v add)
          needGe fuel s (.real i) x
        | none => .ok s
      | .real i => needGes fuel (s.viewsOf i) s v

/-- The loop over the views of a variable (gcs/innards/proofs/names_and_ids_tracker.cc:1180-1188). -/
def needGes : Nat → List Nat → Session → Int → Chk Session
  | _, [], s, _ => .ok s
  | 0, _, _, _ => .error .diverge
  | fuel + 1, k :: ks, s, v => do
    match s.viewOf k with
    | some (_, neg, add) =>
      let w ← (if neg then do iAdd (← iSub add v) 1 else iAdd v add)
      let s ← needGe fuel s (.aux k) w
      needGes fuel ks s v
    | none => .error .unexpected
end

/-- Which order literals a definition of `p = v` uses (gcs/innards/proofs/names_and_ids_tracker.cc:761-824). -/
def eqBounds (s : Session) (p : PVar) : Option (Int × Int) := if s.compact then s.bounds p else none

/-- The names needed by the rows of `p = v`. -/
def needGesFor (fuel : Nat) (s : Session) (p : PVar) (v : Int) : Chk Session := do
  let next ← iAdd v 1
  if (s.eqBounds p).map Prod.fst = some v then needGe fuel s p next
  else if (s.eqBounds p).map Prod.snd = some v then needGe fuel s p v
  else do needGe fuel (← needGe fuel s p v) p next

mutual
/-- `need_direct_encoding_for` (gcs/innards/proofs/names_and_ids_tracker.cc:733-909). The code stores the literal before it needs the order literals; nothing on the way looks for it. -/
def needEq : Nat → Session → PVar → Int → Chk Session
  | 0, _, _, _ => .error .diverge
  | fuel + 1, s, p, v =>
    if (s.t.eq p v).isSome then .ok s
    else do
      let s ← needGesFor fuel s p v
      let s := s.storeEq p v ⟨.eq p v, false⟩
      let rows ← (if s.inProof then eqRowsRed s.t p v (s.eqBounds p) else eqRows s.t p v (s.eqBounds p))
      let s := (s.addRows rows).noteEq p v
      match p with
      | .aux k =>
        match s.viewOf k with
        | some (i, neg, add) => do
          let x ← (if neg then iSub add v else iSub v add)
          needEq fuel s (.real i) x
        | none => .ok s
      | .real i => needEqs fuel (s.viewsOf i) s v

/-- The loop over the views of a variable (gcs/innards/proofs/names_and_ids_tracker.cc:880-888). -/
def needEqs : Nat → List Nat → Session → Int → Chk Session
  | _, [], s, _ => .ok s
  | 0, _, _, _ => .error .diverge
  | fuel + 1, k :: ks, s, v => do
    match s.viewOf k with
    | some (_, neg, add) =>
      let w ← (if neg then iSub add v else iAdd v add)
      let s ← needEq fuel s (.aux k) w
      needEqs fuel ks s v
    | none => .error .unexpected
end

/-- `define_plain_invar` (gcs/innards/proofs/names_and_ids_tracker.cc:1255-1289), which also makes the cells of partitions, so it may be told to define a literal again. There is only a logger to write to during the proof. -/
def definePlain (fuel : Nat) (s : Session) (p : PVar) (lo hi : Int) : Chk Session :=
  if ¬ s.inProof then .error .ub
  else do
    let s ← needGe fuel s p lo
    let s ← needGe fuel s p (← iAdd hi 1)
    let s := s.storeWithin p lo hi
    let rows ← withinRows s.t p lo hi
    return s.addRows rows

/-- `need_invar` (gcs/innards/proofs/names_and_ids_tracker.cc:1383-1441), without the partition into cells: these are further calls of `needEq` and `definePlain`. -/
def needWithin (fuel : Nat) (s : Session) (p : PVar) (lo hi : Int) : Chk Session :=
  if lo > hi then .ok s
  else if lo = hi then needEq fuel s p lo
  else if (s.t.within p lo hi).isSome then .ok s
  else if ¬ s.inProof then .error .unimplemented
  else if (s.t.bits p).isNone then .error .unexpected
  else definePlain fuel s p lo hi

/-- `need_proof_name` (gcs/innards/proofs/names_and_ids_tracker.cc:594-608). -/
def needName (fuel : Nat) (s : Session) : SLit → Chk Session
  | .tt => .ok s
  | .ff => .ok s
  | .cond p op v u =>
    match op with
    | .equal => needEq fuel s p v
    | .notEqual => needEq fuel s p v
    | .less => needGe fuel s p v
    | .greaterEqual => needGe fuel s p v
    | .inRange => needWithin fuel s p v u
    | .notInRange => needWithin fuel s p v u

/-- `register_bits_variable_encoding` (gcs/innards/proofs/proof_model.cc:515-573): bits and bounds are known, no rows. -/
def register (s : Session) (p : PVar) (lower upper : Int) : Chk Session := do
  let bits ← registerBits p lower upper
  return { s with t := { s.t with bits := upd s.t.bits p (some bits) }, bounds := upd s.bounds p (some (lower, upper)) }

/-- `set_up_bits_variable_encoding` (gcs/innards/proofs/proof_model.cc:575-622), without `always_use_full_encoding`, which asks for more literals. -/
def setUpBits (s : Session) (p : PVar) (lower upper : Int) : Chk Session := do
  let s ← s.register p lower upper
  let bits ← s.t.eachBit p
  let rows ← boundRows bits lower upper
  return { s.addRows rows with bounded := upd s.bounded p true }

/-- The branch for variables that are zero or one (gcs/innards/proofs/proof_model.cc:412-461). Only real variables get literals for their values. -/
def setUpZeroOne (s : Session) (p : PVar) : Session :=
  let b : XLit := ⟨.bit p 0, false⟩
  let s := { s with bounds := upd s.bounds p (some (0, 1)), rows := s.rows ++ [zeroOneRow p], bounded := upd s.bounded p true }
  let s := match p with
    | .real _ =>
      let s := (s.storeEq p 1 b).storeEq p 0 b.not
      { s with eqValues := upd s.eqValues p (0 :: 1 :: s.eqValues p) }
    | .aux _ => s
  { s with t := { s.t with bits := upd s.t.bits p (some [(1, b)]) } }

/-- `IntegerVariableProofRepresentation`, or none given. -/
inductive Rep where
  | bits
  | directOnly
  deriving DecidableEq, Repr

def storeEqs (p : PVar) : List Int → Session → Session
  | [], s => s
  | v :: vs, s => storeEqs p vs (s.storeEq p v ⟨.eq p v, false⟩)

/-- `set_up_direct_only_variable_encoding` (gcs/innards/proofs/proof_model.cc:407-490). -/
def setUpDirect (s : Session) (p : PVar) (lower upper : Int) : Session :=
  if lower = 0 ∧ upper = 1 then s.setUpZeroOne p
  else
    let s := { s with bounds := upd s.bounds p (some (lower, upper)), bounded := upd s.bounded p true }
    (storeEqs p (valuesBetween lower upper) s).addRows (directRows p lower upper)

/-- `set_up_integer_variable` (gcs/innards/proofs/proof_model.cc:492-512), without a naming scheme for `cake_pb_cp`. -/
def setUp (s : Session) (i : Nat) (lower upper : Int) : Option Rep → Chk Session
  | none => if lower = 0 ∧ upper = 1 then .ok (s.setUpDirect (.real i) lower upper) else s.setUpBits (.real i) lower upper
  | some .bits => s.setUpBits (.real i) lower upper
  | some .directOnly => .ok (s.setUpDirect (.real i) lower upper)

/-- `create_proof_only_integer_variable` (gcs/innards/proofs/proof_model.cc:358-375), without a naming scheme. -/
def createAux (s : Session) (lower upper : Int) (rep : Rep) : Chk Session :=
  let k := s.nextAux
  let s := { s with nextAux := k + 1 }
  match rep with
  | .directOnly => .ok (s.setUpDirect (.aux k) lower upper)
  | .bits => s.setUpBits (.aux k) lower upper

/-- `create_proof_only_integer_variable_in_proof`, and with a naming scheme `create_proof_only_integer_variable` (gcs/innards/proofs/proof_model.cc:361-367, 377-395): no rows for the bounds. -/
def createFree (s : Session) (lower upper : Int) : Chk Session :=
  { s with nextAux := s.nextAux + 1 }.register (.aux s.nextAux) lower upper

/-- The loops at the end of `need_view` (gcs/innards/proofs/names_and_ids_tracker.cc:1492-1519). -/
def backfillGe (fuel : Nat) (k : Nat) (neg : Bool) (add : Int) : List Int → Session → Chk Session
  | [], s => .ok s
  | v :: vs, s => do
    let w ← (if neg then do iAdd (← iSub add v) 1 else iAdd v add)
    backfillGe fuel k neg add vs (← needGe fuel s (.aux k) w)

def backfillEq (fuel : Nat) (k : Nat) (neg : Bool) (add : Int) : List Int → Session → Chk Session
  | [], s => .ok s
  | v :: vs, s => do
    let w ← (if neg then iSub add v else iAdd v add)
    backfillEq fuel k neg add vs (← needEq fuel s (.aux k) w)

/-- `need_view` (gcs/innards/proofs/names_and_ids_tracker.cc:1457-1522). -/
def needView (fuel : Nat) (s : Session) (i : Nat) (neg : Bool) (add : Int) : Chk Session :=
  if (s.t.view i neg add).isSome then .ok s
  else if s.inProof then .error .unimplemented
  else
    match s.bounds (.real i) with
    | none => .error .unexpected
    | some (l, u) => do
      let (lower, upper) ← viewBounds l u neg add
      let k := s.nextAux
      let s ← s.createAux lower upper .bits
      let rows ← viewRows s.t k i neg add
      let s := s.addRows rows
      let s := { s with t := { s.t with view := upd s.t.view i (upd (s.t.view i) neg (upd (s.t.view i neg) add (some k))) },
                        viewOf := upd s.viewOf k (some (i, neg, add)), viewsOf := upd s.viewsOf i (s.viewsOf i ++ [k]) }
      let s ← backfillGe fuel k neg add (s.geValues (.real i)) s
      backfillEq fuel k neg add (s.eqValues (.real i)) s

/-- One term of `need_all_proof_names_in` (gcs/innards/proofs/names_and_ids_tracker.cc:610-636). -/
def needTerm (fuel : Nat) (s : Session) : Term → Chk Session
  | .item (.lit l) => do needName fuel s (← simplifyLiteral s.t l)
  | .var (.view i neg add) => if s.inProof then .ok s else needView fuel s i neg add
  | _ => .ok s

def needTerms (fuel : Nat) : List (Int × Term) → Session → Chk Session
  | [], s => .ok s
  | (_, v) :: terms, s => do needTerms fuel terms (← needTerm fuel s v)

/-- `need_all_proof_names_in` for what reifies (gcs/innards/proofs/names_and_ids_tracker.cc:649-664). -/
def needReifs (fuel : Nat) : Reifs → Session → Chk Session
  | [], s => .ok s
  | r :: rs, s => do needReifs fuel rs (← needTerm fuel s (.item r))

/-- `add_constraint` and `add_labelled_constraint` for inequalities (gcs/innards/proofs/proof_model.cc:170-182, 248-267). -/
def constrain (fuel : Nat) (s : Session) (i : Ineq) (reifs : Option Reifs) : Chk Session := do
  let s ← needTerms fuel i.lhs s
  let s ← (match reifs with | none => .ok s | some rs => needReifs fuel rs s)
  let row ← addConstraint s.t i reifs
  return { s with rows := s.rows ++ [row], asked := s.asked ++ [⟨i, reifs⟩] }

end Session

/-- What a solver, or a constraint writing itself down, asks for. -/
inductive Op where
  | setUp (i : Nat) (lower upper : Int) (rep : Option Session.Rep)
  | createAux (lower upper : Int) (rep : Session.Rep)
  | createFree (lower upper : Int)
  | needGe (p : PVar) (v : Int)
  | needEq (p : PVar) (v : Int)
  | needWithin (p : PVar) (lo hi : Int)
  | definePlain (p : PVar) (lo hi : Int)
  | needView (i : Nat) (neg : Bool) (add : Int)
  | constrain (i : Ineq) (reifs : Option Reifs)
  | startProof
  deriving Repr

def Op.run (fuel : Nat) (s : Session) : Op → Chk Session
  | .setUp i l u rep => s.setUp i l u rep
  | .createAux l u rep => s.createAux l u rep
  | .createFree l u => s.createFree l u
  | .needGe p v => s.needGe fuel p v
  | .needEq p v => s.needEq fuel p v
  | .needWithin p lo hi => s.needWithin fuel p lo hi
  | .definePlain p lo hi => s.definePlain fuel p lo hi
  | .needView i neg add => s.needView fuel i neg add
  | .constrain i reifs => s.constrain fuel i reifs
  | .startProof => .ok { s with inProof := true }

def runAll (fuel : Nat) : List Op → Session → Chk Session
  | [], s => .ok s
  | o :: os, s => do runAll fuel os (← o.run fuel s)

end Gcs.Pb
