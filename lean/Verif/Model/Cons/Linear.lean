import Verif.Model.Cons.Reified

/-!
# Linear equations and inequalities (`gcs/constraints/linear`)

Modelled at bounds consistency, and for sums that have fewer terms than the threshold for the incremental propagator (see `Model/Cons/LinearIncremental.lean` for that). Not modelled here: waking by slack (off
unless an environment variable is set; see `Model/Cons/LinearSlack.lean` for the choice of terms to watch), and the table that is built for `consistency::Tabulated`.
-/

namespace Gcs
open IntervalSet

/-- `Weighted<IntegerVariableID>`, a term of a `WeightedSum` as the user writes it (gcs/expression.hh). -/
abbrev WTerm := Int × VarId

namespace Linear

/-- `Weighted<SimpleIntegerVariableID>`. -/
structure Term where
  coeff : Int
  var : Nat
  deriving DecidableEq, Repr

/-- `-c` for the coefficient of every term (gcs/constraints/linear/linear_greater_than_equal.cc:9-14 and linear_inequality.cc:98-100). -/
def negate : List WTerm → Chk (List WTerm)
  | [] => .ok []
  | t :: ts => do
    let c ← iNeg t.1
    return (c, t.2) :: (← negate ts)

/-- `negate_first ? -c : c` -/
def signed (neg : Bool) (c : Int) : Chk Int := if neg then iNeg c else .ok c

/-- The loop at gcs/constraints/linear/utils.cc:32-41. -/
def split (ts : List Term) (modifier : Int) : List WTerm → Chk (List Term × Int)
  | [] => .ok (ts, modifier)
  | (c, .simple v) :: rest => split (ts ++ [⟨c, v⟩]) modifier rest
  | (c, .const k) :: rest => do split ts (← iSub modifier (← iMul c k)) rest
  | (c, .view v neg k) :: rest => do
    let c' ← signed neg c
    split (ts ++ [⟨c', v⟩]) (← iSub modifier (← iMul c k)) rest

/-- gcs/constraints/linear/utils.cc:43-44. The order of terms with the same variable, which `std::ranges::sort` does not specify, is kept. -/
def insert (t : Term) : List Term → List Term
  | [] => [t]
  | u :: us => if t.var ≤ u.var then t :: u :: us else u :: insert t us

def sort : List Term → List Term
  | [] => []
  | t :: ts => insert t (sort ts)

/-- gcs/constraints/linear/utils.cc:46-57, for a term and those after it, leaving out the coefficients set to zero. -/
def mergeFrom (c : Int) (v : Nat) : List Term → Chk (List Term)
  | [] => .ok [⟨c, v⟩]
  | t :: ts =>
    if t.var = v then do mergeFrom (← iAdd c t.coeff) v ts
    else do return ⟨c, v⟩ :: (← mergeFrom t.coeff t.var ts)

def merge : List Term → Chk (List Term)
  | [] => .ok []
  | t :: ts => mergeFrom t.coeff t.var ts

/-- `tidy_up_linear` (gcs/constraints/linear/utils.cc:28-79). The three kinds of result are told apart by `units` below. -/
def tidy (ts : List WTerm) : Chk (List Term × Int) := do
  let r ← split [] 0 ts
  let m ← merge (sort r.1)
  return (m.filter (fun t => t.coeff ≠ 0), r.2)

/-- The sum has been turned into a `SumOf<SimpleIntegerVariableID>` or `SumOf<PositiveOrNegative<SimpleIntegerVariableID>>` (gcs/constraints/linear/utils.cc:62-78). -/
def units (ts : List Term) : Bool := ts.all fun t => t.coeff = 1 ∨ t.coeff = -1

/-- A term and the entry of `bounds` for it. -/
structure Bounded where
  term : Term
  lo : Int
  hi : Int
  deriving DecidableEq, Repr

/-- The coefficient, or `-coeff` in the second sweep for an equality. -/
def coeffOf (inv : Bool) (t : Bounded) : Chk Int := signed inv t.term.coeff

/-- The least contribution of a term (gcs/constraints/linear/propagate.cc:239-240 and :305-306). For coefficients 1 and -1 the code does without the multiplication, which makes no difference to the result. -/
def contribution (inv : Bool) (t : Bounded) : Chk Int := do
  let c ← coeffOf inv t
  iMul c (if c ≥ 0 then t.lo else t.hi)

/-- `compute_lower_sum` (gcs/constraints/linear/propagate.cc:230-244), and `inv_lower_sum` (:300-308). -/
def lowerSum (inv : Bool) (s : Int) : List Bounded → Chk Int
  | [] => .ok s
  | t :: ts => do lowerSum inv (← iAdd s (← contribution inv t)) ts

/-- The value `infer` compares the bound with (gcs/constraints/linear/propagate.cc:100-132 for coefficients 1 and -1, :134-200 otherwise): with a positive coefficient the variable has to be less than
this, with a negative one at least this. -/
def limit (unit : Bool) (c remainder : Int) : Chk Int :=
  if unit then (if c > 0 then iAdd 1 remainder else iNeg remainder)
  else if c > 0 ∧ remainder ≥ 0 then do iAdd 1 (← iDiv remainder c)
  else if c > 0 ∧ remainder < 0 then do iAdd 1 (← iNeg (← iDiv (← iSub (← iAdd (← iNeg remainder) c) 1) c))
  else if c < 0 ∧ remainder ≥ 0 then iDiv remainder c
  else if c < 0 ∧ remainder < 0 then do iDiv (← iSub (← iAdd (← iNeg remainder) (← iNeg c)) 1) (← iNeg c)
  else .error .unexpected

section
variable {σ μ : Type}

/-- `infer` (gcs/constraints/linear/propagate.cc:100-200) and what follows it, with the tightened side of the bounds read again after a successful inference (gcs/innards/inference_tracker.hh:447-472). -/
def infer (unit inv : Bool) (t : Bounded) (remainder : Int) (k : Bounded → Prog σ μ PState) : Prog σ μ PState := do
  let c ← Prog.lift (coeffOf inv t)
  let b ← Prog.lift (limit unit c remainder)
  if c > 0 then
    if t.hi ≥ b then
      Prog.orStop (.cond (Cond.lt (.simple t.term.var) b)) do
        let u ← Prog.ask (upperBound · (.simple t.term.var))
        k { t with hi := u }
    else k t
  else
    if t.lo < b then
      Prog.orStop (.cond (Cond.ge (.simple t.term.var) b)) do
        let l ← Prog.ask (lowerBound · (.simple t.term.var))
        k { t with lo := l }
    else k t

/-- The loop at gcs/constraints/linear/propagate.cc:276-292 (`update` false) and at :310-335 (`update` true), over the terms not yet visited, and what follows it. In the second the code adds the
product with the coefficient where this subtracts the product with the negated coefficient. -/
def sweep (unit inv update : Bool) (value sum : Int) : List Bounded → (List Bounded → Prog σ μ PState) → Prog σ μ PState
  | [], k => k []
  | t :: ts, k => do
    let without ← Prog.lift (do iSub sum (← contribution inv t))
    let remainder ← Prog.lift (iSub value without)
    infer unit inv t remainder fun t' => do
      let sum' ← Prog.lift (if update then do iAdd without (← contribution inv t') else .ok sum)
      sweep unit inv update value sum' ts fun ts' => k (t' :: ts')

/-- The loop for an equality (gcs/constraints/linear/propagate.cc:272-341, and :545-587 in the incremental propagator, where `fixed` is the sum of the terms that have been left out and `update` is true;
otherwise it is 0). Inferences are counted exactly if they change a domain (`count_iff_changed`), so domains are compared here; loops are given a bound, and it is shown that it is not reached. -/
def equalityLoop (unit update : Bool) (value fixed : Int) : Nat → Bool → List Bounded → Prog σ μ PState
  | 0, _, _ => .raise .diverge
  | fuel + 1, first, ts => .read fun s => do
    let sum ← Prog.lift (lowerSum false fixed ts)
    sweep unit false update value sum ts fun ts1 => .read fun s1 =>
      if first = false ∧ s1.doms = s.doms then .ret .enableButIdempotent
      else do
        let inv ← Prog.lift (do lowerSum true (← iNeg fixed) ts1)
        let nv ← Prog.lift (iNeg value)
        sweep unit true true nv inv ts1 fun ts2 => .read fun s2 =>
          if s2.doms = s1.doms then .ret .enableButIdempotent else equalityLoop unit update value fixed fuel false ts2

/-- gcs/constraints/linear/propagate.cc:221-222. -/
def readBounds (d : Doms) : List Term → Chk (List Bounded)
  | [] => .ok []
  | t :: ts => do
    let b ← bounds d (.simple t.var)
    return ⟨t, b.1, b.2⟩ :: (← readBounds d ts)

/-- `propagate_linear` (gcs/constraints/linear/propagate.cc:203-344). -/
def propagate (equality : Bool) (ts : List Term) (value : Int) : Prog σ μ PState :=
  if ts = [] then (if 0 ≤ value then .ret .disableUntilBacktrack else .fail)
  else do
    let bs ← Prog.ask (readBounds · ts)
    if equality then .read fun s => equalityLoop (units ts) false value 0 ((s.doms.map IntervalSet.card).sum + 2) true bs
    else do
      let sum ← Prog.lift (lowerSum false 0 bs)
      sweep (units ts) false false value sum bs fun _ => .ret .enableButIdempotent

/-- What the loops looking for variables that are not fixed find: more than one, none, or exactly one; and the sum of the others. -/
inductive Unset where
  | many
  | none (accum : Int)
  | one (t : Term) (accum : Int)

/-- gcs/constraints/linear/propagate.cc:648-662 and linear_equality.cc:93-107. -/
def scan (d : Doms) (unset : Option Term) (accum : Int) : List Term → Chk Unset
  | [] => .ok (match unset with
    | some t => .one t accum
    | none => .none accum)
  | t :: ts => do
    match ← optionalSingleValue d (.simple t.var) with
    | some v => scan d unset (← iAdd accum (← iMul t.coeff v)) ts
    | none =>
      match unset with
      | some _ => return .many
      | none => scan d (some t) accum ts

/-- `propagate_linear_not_equals` (gcs/constraints/linear/propagate.cc:642-696). -/
def notEquals (ts : List Term) (value : Int) : Prog σ μ PState := do
  match ← Prog.ask (scan · none 0 ts) with
  | .many => return .enable
  | .none accum => if accum = value then .fail else return .disableUntilBacktrack
  | .one t accum =>
    let residual ← Prog.lift (iSub value accum)
    let rest ← Prog.lift (iMod residual t.coeff)
    if rest = 0 then
      let forbidden ← Prog.lift (iDiv residual t.coeff)
      if ← Prog.ask (inDomain · (.simple t.var) forbidden) then
        Prog.tell (.cond (Cond.ne (.simple t.var) forbidden))
        return .disableUntilBacktrack
      else return .disableUntilBacktrack
    else return .disableUntilBacktrack

/-- `propagate_reified_linear_equality_when_undecided` (gcs/constraints/linear/linear_equality.cc:71-152). -/
def whenUndecided (r : Reif) (ts : List Term) (value : Int) : Prog σ μ PState := do
  match ← Prog.ask (r.test ·) with
  | .mustHold _ => propagate true ts value
  | .mustNotHold _ => notEquals ts value
  | .deactivated => return .disableUntilBacktrack
  | .undecided c b1 b2 b3 =>
    match ← Prog.ask (scan · none 0 ts) with
    | .many => return .enable
    | .none accum =>
      Prog.tellAny (if accum = value then condIfMustHold c b1 b3 else condIfMustNotHold c b2)
      return .disableUntilBacktrack
    | .one t accum =>
      let residual ← Prog.lift (iSub value accum)
      let rest ← Prog.lift (iMod residual t.coeff)
      if rest = 0 then
        let wouldMakeEqual ← Prog.lift (iDiv residual t.coeff)
        if ← Prog.ask (inDomain · (.simple t.var) wouldMakeEqual) then return .enable
        else
          Prog.tellAny (condIfMustNotHold c b2)
          return .disableUntilBacktrack
      else
        Prog.tellAny (condIfMustNotHold c b2)
        return .disableUntilBacktrack

/-- Whether a sum without variables is the value (gcs/constraints/linear/linear_equality.cc:322 and :371). -/
def constantIs (ts : List Term) (modifier value : Int) : Chk (Option Bool) :=
  if ts = [] then do return some (modifier = (← iNeg value)) else .ok none

/-- `ReifiedLinearEquality` (gcs/constraints/linear/linear_equality.cc:172-195 and :317-444), at bounds consistency and with fewer terms than the threshold. -/
def equality (terms : List WTerm) (value : Int) (r : Reif) (root : Doms) : Chk (List (Item σ μ)) := do
  let e ← r.test root
  let x ← tidy terms
  match e with
  | .mustHold _ =>
    let b ← constantIs x.1 x.2 value
    return (if b = some false then [.init .simpleDefinition (.tell .ff)] else []) ++
      [.prop (do propagate true x.1 (← Prog.lift (iAdd value x.2))) { onBounds := terms.map (·.2) }]
  | .mustNotHold _ =>
    let b ← constantIs x.1 x.2 value
    let v ← iAdd value x.2
    return (if b = some true then [.init .simpleDefinition (.tell .ff)] else []) ++ [.prop (notEquals x.1 v) { onChange := terms.map (·.2) }]
  | .deactivated => return []
  | .undecided c _ _ _ =>
    let v ← iAdd value x.2
    return [.prop (whenUndecided r x.1 v) ({ onChange := terms.map (·.2) : Triggers }.addFor (.cond c))]

/-- `infer_cond_when_undecided`, the loop (gcs/constraints/linear/linear_inequality.cc:294-305): the least and greatest possible sums. -/
def range (d : Doms) (mn mx : Int) : List Term → Chk (Int × Int)
  | [] => .ok (mn, mx)
  | t :: ts => do
    let b ← bounds d (.simple t.var)
    if t.coeff ≥ 0 then range d (← iAdd mn (← iMul t.coeff b.1)) (← iAdd mx (← iMul t.coeff b.2)) ts
    else range d (← iAdd mn (← iMul t.coeff b.2)) (← iAdd mx (← iMul t.coeff b.1)) ts

/-- `infer_cond_when_undecided` (gcs/constraints/linear/linear_inequality.cc:290-329). -/
def verdict (ts : List Term) (value modifier : Int) : Prog σ μ Verdict := do
  let x ← Prog.ask (range · 0 0 ts)
  let v ← Prog.lift (iAdd value modifier)
  return if x.1 > v then .mustNotHold else if x.2 ≤ v then .mustHold else .stillUndecided

/-- `ReifiedLinearInequality` (gcs/constraints/linear/linear_inequality.cc:92-147 and :209-374), with fewer terms than the threshold and without waking by slack. -/
def inequality (terms : List WTerm) (value : Int) (r : Reif) (root : Doms) : Chk (List (Item σ μ)) := do
  let e ← r.test root
  let x ← tidy terms
  let y ← tidy (← negate terms)
  return installDispatcher e r { onBounds := x.1.map fun t => .simple t.var }
    (do propagate false x.1 (← Prog.lift (iAdd value x.2)))
    (do propagate false y.1 (← Prog.lift (do iSub (← iAdd (← iNeg value) y.2) 1)))
    (verdict x.1 value x.2)

/-- `LinearGreaterThanEqual`, `...If` and `...Iff` (gcs/constraints/linear/linear_greater_than_equal.cc:17-30). -/
def greaterEqual (terms : List WTerm) (value : Int) (r : Reif) (root : Doms) : Chk (List (Item σ μ)) := do
  let ts ← negate terms
  inequality ts (← iNeg value) r root

/-- `literal_to_reif` (gcs/constraints/linear/linear_equality.cc:506-516). -/
def literalToReif (f : Cond → Reif) : Lit → Reif
  | .tt => .mustHold
  | .ff => .mustNotHold
  | .cond c => f c

end
end Linear
end Gcs
