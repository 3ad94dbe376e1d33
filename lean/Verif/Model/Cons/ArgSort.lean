import Verif.Model.Cons.Sort
import Verif.Model.Cons.Inverse

/-!
# ArgSort (`gcs/constraints/sort/arg_sort.cc`)

The variables for the sorted values are allocated by the constraint in the code. Here they are a parameter, variables that are there already, and `extremes` says with which bounds they are allocated. Rows of the proof model, reasons and
justifications are not modelled, nor is the initialiser that only writes to the proof (arg_sort.cc:217-246).
-/

namespace Gcs.ArgSort

section
variable {σ μ : Type}

/-- `_lowest_x` and `_highest_x` (arg_sort.cc:94-106): the least and greatest of all bounds. -/
def extremes (d : Doms) : List VarId → Chk (Int × Int)
  | [] => .ok (0, 0)
  | [v] => bounds d v
  | v :: vs => do
    let b ← bounds d v
    let r ← extremes d vs
    return (min b.1 r.1, max b.2 r.2)

/-- What does not depend on which element is at position `j` (arg_sort.cc:270-279): for element `k`. -/
def ruleOut (x : List VarId) (off : Int) (pj : VarId) (yb : Int × Int) (k : Nat) : Prog σ μ Unit := do
  let pv ← Prog.lift (do iAdd off (← ofSize k))
  let b ← Prog.ask (inDomain · pj pv)
  Prog.onlyIf (b = true) do
    let xk ← Prog.lift (vecAt x k)
    let xb ← Prog.ask (bounds · xk)
    Prog.onlyIf (xb.2 < yb.1 ∨ yb.2 < xb.1) (Prog.tell (.cond (Cond.ne pj pv)))

/-- Both have the same value (arg_sort.cc:288-297). -/
def equate (xk yj : VarId) (xb yb : Int × Int) : Prog σ μ Unit := do
  Prog.onlyIf (yb.1 < xb.1) (Prog.tell (.cond (Cond.ge yj xb.1)))
  Prog.onlyIf (xb.2 < yb.2) (do Prog.tell (.cond (Cond.lt yj (← Prog.lift (iAdd xb.2 1)))))
  Prog.onlyIf (xb.1 < yb.1) (Prog.tell (.cond (Cond.ge xk yb.1)))
  Prog.onlyIf (yb.2 < xb.2) (do Prog.tell (.cond (Cond.lt xk (← Prog.lift (iAdd yb.2 1)))))

/-- The loop body at arg_sort.cc:266-299, for one position. -/
def channelOne (x : List VarId) (off : Int) (q : VarId × VarId) : Prog σ μ Unit := do
  let yb ← Prog.ask (bounds · q.2)
  Prog.forEach (ruleOut x off q.1 yb) (List.range x.length)
  let o ← Prog.ask (optionalSingleValue · q.1)
  match o with
  | none => .ret ()
  | some v => do
    let k ← Prog.lift (iSub v off)
    let xk ← Prog.lift (atIndex x k)
    let xb ← Prog.ask (bounds · xk)
    equate xk q.2 xb yb

/-- The second propagation function (arg_sort.cc:264-302). -/
def channel (x p y : List VarId) (off : Int) : Prog σ μ PState := do
  Prog.forEach (channelOne x off) (p.zip y)
  return .enable

/-- Number `i` is before number `k` in the order, if their values are `v` and `w` (arg_sort.cc:365-366). -/
def before (i k : Nat) (v w : Int) : Bool := if i < k then v ≤ w else v < w

/-- The other numbers, the loops at arg_sort.cc:351-353 and :361-363. -/
def others (n k : Nat) : List Nat := (List.range n).filter (· ≠ k)

/-- How many are before number `k` with the value `v` (arg_sort.cc:360-371), if their values are `f`. -/
def tally (n k : Nat) (f : Nat → Int) (v : Int) : Nat := (others n k).countP fun i => before i k (f i) v

/-- The values that are tried for number `k`, as far as they come from number `i` (arg_sort.cc:354-357): raw arithmetic. -/
def around (lo hi : Nat → Int) (k i : Nat) : Chk (List Int) := do
  let a ← rawAdd i64Max (lo i) 1
  let b ← rawAdd i64Max (hi i) 1
  let c ← rawSub i64Max (lo i) 1
  let e ← rawSub i64Max (hi i) 1
  return [lo i, hi i, a, b, c, e].filter fun t => lo k ≤ t ∧ t ≤ hi k

/-- `cands` (arg_sort.cc:350-358). -/
def cands (n : Nat) (lo hi : Nat → Int) (k : Nat) : Chk (List Int) := do
  let ts ← AllDifferent.mapAll (around lo hi k) (others n k)
  return [lo k, hi k] ++ ts.flatten

/-- `reachable` (arg_sort.cc:348-376). -/
def reachable (n : Nat) (lo hi : Nat → Int) (k : Nat) (vs : List Int) (r : Nat) : Bool := vs.any fun v => tally n k hi v ≤ r ∧ r ≤ tally n k lo v

/-- The loop body at arg_sort.cc:378-489, for one position and its number. What is counted before (:327-339) and looked for (:427-446) is for the proof only. -/
def rankOne (off : Int) (k : Nat) (reach : Nat → Bool) (q : VarId × Nat) : Prog σ μ Unit :=
  Prog.onlyIf (reach q.2 = false) do
    let pv ← Prog.lift (do iAdd off (← ofSize k))
    let b ← Prog.ask (inDomain · q.1 pv)
    Prog.onlyIf (b = true) (Prog.tell (.cond (Cond.ne q.1 pv)))

/-- The loop body at arg_sort.cc:320-490, for element `k`. Bounds are read several times in the code, with nothing inferred in between. -/
def rankFor (x p : List VarId) (off : Int) (k : Nat) : Prog σ μ Unit := do
  let bs ← Prog.ask fun d => AllDifferent.mapAll (bounds d ·) x
  let lo := fun i => (bs.getD i (0, 0)).1
  let hi := fun i => (bs.getD i (0, 0)).2
  let vs ← Prog.lift (cands x.length lo hi k)
  Prog.forEach (rankOne off k (reachable x.length lo hi k vs)) p.zipIdx

/-- The third propagation function (arg_sort.cc:318-493). -/
def rank (x p : List VarId) (off : Int) : Prog σ μ PState := do
  Prog.forEach (rankFor x p off) (List.range x.length)
  return .enable

/-- The fourth propagation function (arg_sort.cc:511-519). -/
def different (p : List VarId) (vals : List Int) (old : Nat → List (Option Nat)) : Prog σ μ PState := do
  AllDifferent.gac p vals [] old
  return .enableButIdempotent

/-- `ArgSort` (arg_sort.cc:66-115 and :190-528). The values at :501-503 are counted up in the code, to a number that is checked. -/
def install (x p : List VarId) (off : Int) (y : List Nat) (old : Nat → List (Option Nat)) (d : Doms) : Chk (List (Item σ μ)) :=
  if x.length ≠ p.length then .error .invalidProblem
  else if x = [] then .ok []
  else do
    let is ← defineRange d off x.length p
    let _ ← extremes d x
    let _ ← iAdd off (← ofSize x.length)
    let vals ← Inverse.indices off x.length
    let ys := y.map VarId.simple
    return is ++ [Sort.propagator x ys, .prop (channel x p ys off) { onChange := p, onBounds := x ++ ys }, .prop (rank x p off) { onChange := p, onBounds := x }, .prop (different p vals old) { onChange := p }]

end
end Gcs.ArgSort
