import Verif.Model.Cons.Linear
import Verif.Model.Cons.ValueConsistent

/-!
# Linear equations and inequalities: the incremental propagator (`gcs/constraints/linear/propagate.cc`)

Terms whose variables have values are left out of the sweeps, and the sum of these terms is remembered. In the code a vector `active` of positions of terms is kept, which is only ever permuted, and is not
restored on backtracking; the number `n_active` of its first entries that are still of interest, and the sum `fixed_lower` of the others, are kept in a constraint state, which is restored. Here, the
constraint state contains the terms at the first `n_active` positions themselves (`Fold`), and they are visited in an order that may be different each time (`Inc.order`). `Model/Cons/SparseSet.lean` has the
vector as it is, and it is shown (`sparseSet_refines` in `Props/Cons/LinearIncremental.lean`) that the first `n_active` entries always are the terms that are kept here, in some order.
-/

namespace Gcs.Linear
open IntervalSet

/-- `LinearIncrementalState` (gcs/constraints/linear/propagate.hh:93-97), with the terms at the first `n_active` positions instead of their number. -/
structure Fold where
  active : List Term
  fixed : Int
  deriving DecidableEq, Repr

/-- How the state is stored: the kind of constraint state and its handle, and the order in which the terms are visited, which depends on the time of the call, and should be a permutation. -/
structure Inc (σ : Type) where
  kind : Kind σ Fold
  handle : Nat
  order : Nat → List Term → List Term

/-- The loop that leaves out terms with a value, but never all terms (gcs/constraints/linear/propagate.cc:597-606), with a bound on the number of turns that is never reached. -/
def fold (d : Doms) : Nat → Nat → List Term → Int → Chk Fold
  | 0, _, _, _ => .error .diverge
  | f + 1, k, active, fixed =>
    if active.length > 1 then
      match active[k]? with
      | none => .ok ⟨active, fixed⟩
      | some t => do
        match ← optionalSingleValue d (.simple t.var) with
        | some v => fold d f k (AllDifferent.takeOut active k) (← iAdd fixed (← iMul t.coeff v))
        | none => fold d f (k + 1) active fixed
    else .ok ⟨active, fixed⟩

section
variable {σ μ : Type}

/-- The loop at gcs/constraints/linear/propagate.cc:545-587, given the bounds of the active terms. -/
def sweeps (equality unit : Bool) (value fixed : Int) (bs : List Bounded) : Prog σ μ PState :=
  if equality then .read fun s => equalityLoop unit true value fixed ((s.doms.map IntervalSet.card).sum + 2) true bs
  else do
    let sum ← Prog.lift (lowerSum false fixed bs)
    sweep unit false true value sum bs fun _ => .ret .enableButIdempotent

/-- `propagate_linear_incremental` (gcs/constraints/linear/propagate.cc:484-615). Not modelled: what is read for reasons and proofs only. -/
def incremental (i : Inc σ) (equality : Bool) (ts : List Term) (value : Int) : Prog σ μ PState :=
  if ts = [] then propagate equality ts value
  else .read fun s =>
    match (s.st.cstates.headD [])[i.handle]? with
    | none => .raise .ub
    | some c =>
      match i.kind.get c with
      | none => .raise .unexpected
      | some st =>
        ((Prog.ask (readBounds · (i.order s.total st.active))).bind (sweeps equality (units ts) value st.fixed)).bind fun ps =>
          if ps = .enable then .ret .enable
          else .read fun s' =>
            match fold s'.doms (2 * st.active.length + 1) 0 (i.order s.total st.active) st.fixed with
            | .error e => .raise e
            | .ok st' => .setState i.handle (i.kind.put st') (.ret ps)

/-- The incremental propagator if there is a state for it, and the other one if not (gcs/constraints/linear/linear_equality.cc:79-84, :334-339, linear_inequality.cc:256-289). -/
def pass (i : Option (Inc σ)) (equality : Bool) (ts : List Term) (value : Int) : Prog σ μ PState :=
  match i with
  | some i => incremental i equality ts value
  | none => propagate equality ts value

/-- `propagate_reified_linear_equality_when_undecided` (gcs/constraints/linear/linear_equality.cc:71-152): as before, but for a condition that must hold. (`whenUndecided` looks at the condition again.) -/
def whenUndecidedInc (i : Option (Inc σ)) (r : Reif) (ts : List Term) (value : Int) : Prog σ μ PState := do
  match ← Prog.ask (r.test ·) with
  | .mustHold _ => pass i true ts value
  | _ => whenUndecided r ts value

/-- `ReifiedLinearEquality` (gcs/constraints/linear/linear_equality.cc:172-195 and :317-444), at bounds consistency. There is a state if the sum has enough terms, and the condition may hold. -/
def equalityInc (i : Option (Inc σ)) (terms : List WTerm) (value : Int) (r : Reif) (root : Doms) : Chk (List (Item σ μ)) := do
  let e ← r.test root
  let x ← tidy terms
  match e with
  | .mustHold _ =>
    let b ← constantIs x.1 x.2 value
    return (if b = some false then [.init .simpleDefinition (.tell .ff)] else []) ++
      [.prop (do pass i true x.1 (← Prog.lift (iAdd value x.2))) { onBounds := terms.map (·.2) }]
  | .undecided c _ _ _ =>
    let v ← iAdd value x.2
    return [.prop (whenUndecidedInc i r x.1 v) ({ onChange := terms.map (·.2) : Triggers }.addFor (.cond c))]
  | _ => equality terms value r root

/-- `ReifiedLinearInequality` (gcs/constraints/linear/linear_inequality.cc:92-147 and :209-374), without waking by slack. There may be a state for each direction. -/
def inequalityInc (i j : Option (Inc σ)) (terms : List WTerm) (value : Int) (r : Reif) (root : Doms) : Chk (List (Item σ μ)) := do
  let e ← r.test root
  let x ← tidy terms
  let y ← tidy (← negate terms)
  return installDispatcher e r { onBounds := x.1.map fun t => .simple t.var }
    (do pass i false x.1 (← Prog.lift (iAdd value x.2)))
    (do pass j false y.1 (← Prog.lift (do iSub (← iAdd (← iNeg value) y.2) 1)))
    (verdict x.1 value x.2)

/-- `LinearGreaterThanEqual`, `...If` and `...Iff` (gcs/constraints/linear/linear_greater_than_equal.cc:17-30). -/
def greaterEqualInc (i j : Option (Inc σ)) (terms : List WTerm) (value : Int) (r : Reif) (root : Doms) : Chk (List (Item σ μ)) := do
  let ts ← negate terms
  inequalityInc i j ts (← iNeg value) r root

end
end Gcs.Linear
