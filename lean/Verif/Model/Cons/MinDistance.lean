import Verif.Model.Cons.Inverse
import Verif.Model.Cons.Disjunctive2D

/-!
# MinDistance (gcs/constraints/min_distance/min_distance.cc)
-/

namespace Gcs.MinDistance

/-- `MinDistancePropagation` (gcs/constraints/min_distance/min_distance.hh:43-50). -/
inductive Level where
  | checkOnly
  | forwardBound
  | pairSupport
  | forwardBoundMatch
  | pairSupportMatch
deriving DecidableEq

abbrev Matrix := List (List Int)

/-- `D[a.raw_value][b.raw_value]`: not checked, so that anything out of range is undefined (gcs/constraints/min_distance/min_distance.cc:389). -/
def dist (D : Matrix) (a b : Int) : Chk Int := do atIndex (← atIndex D a) b

/-- `in_range` (gcs/constraints/min_distance/min_distance.cc:387). -/
abbrev InRange (n : Nat) (v : Int) : Prop := 0 ≤ v ∧ v < n

/-- `(**requirements)[i][j]`, if there are any. -/
def required (Q : Option Matrix) (i j : Nat) : Chk (Option Int) :=
  match Q with
  | none => .ok none
  | some q => do return some (← vecAt (← vecAt q i) j)

/-- The loops at gcs/constraints/min_distance/min_distance.cc:339-350 and :506-518, for pairs that are in range. -/
def least (D : Matrix) : Option Int → List (Int × Int) → Chk (Option Int)
  | mu, [] => .ok mu
  | mu, p :: ps => do
    let dab ← dist D p.1 p.2
    least D (some (match mu with | some u => min u dab | none => dab)) ps

/-- The values, if all are there. -/
def allSome {α : Type} : List (Option α) → Option (List α)
  | [] => some []
  | none :: _ => none
  | some x :: xs => (allSome xs).map (x :: ·)

section
variable {σ μ : Type}

/-- Once every endpoint is fixed (gcs/constraints/min_distance/min_distance.cc:337-355 and :500-523). Every value is looked at as the first of a pair before anything is inferred, since there are at least two. -/
def pin (D : Matrix) (z : VarId) (vals : List (Option Int)) : Prog σ μ Unit :=
  match allSome vals with
  | none => .ret ()
  | some vs => Prog.onlyIf (∀ v ∈ vs, InRange D.length v) do
    match ← Prog.lift (least D none (Disjunctive2D.pairs vs)) with
    | none => .ret ()
    | some mu => do
      Prog.tell (.cond (Cond.ge z mu))
      let k ← Prog.lift (iAdd mu 1)
      Prog.tell (.cond (Cond.lt z k))

/-- The body of the loops at gcs/constraints/min_distance/min_distance.cc:312-332, for the values of `x[i]` and `x[j]` with their indices. -/
def checkPair (D : Matrix) (Q : Option Matrix) (z : VarId) (p : (Option Int × Nat) × (Option Int × Nat)) : Prog σ μ Unit :=
  match p.1.1, p.2.1 with
  | some a, some b => Prog.onlyIf (InRange D.length a ∧ InRange D.length b) do
    let dab ← Prog.lift (dist D a b)
    let r ← Prog.lift (required Q p.1.2 p.2.2)
    if dab < r.getD dab then Prog.fail
    else
      let k ← Prog.lift (iAdd dab 1)
      Prog.tell (.cond (Cond.lt z k))
  | _, _ => .ret ()

/-- The values of all variables that have only one. -/
def values (d : Doms) (xs : List VarId) : Chk (List (Option Int)) := AllDifferent.mapAll (optionalSingleValue d ·) xs

/-- The propagation function of `install_check_only_propagator` (gcs/constraints/min_distance/min_distance.cc:295-358). -/
def check (D : Matrix) (Q : Option Matrix) (z : VarId) (xs : List VarId) : Prog σ μ PState := do
  let vals ← Prog.ask (values · xs)
  Prog.forEach (checkPair D Q z) (Disjunctive2D.pairs vals.zipIdx)
  pin D z vals
  return .enable

/-- One value of the other endpoint (gcs/constraints/min_distance/min_distance.cc:413-420). -/
def pruneValue (D : Matrix) (t a : Int) (y : VarId) (b : Int) : Prog σ μ Unit :=
  Prog.onlyIf (InRange D.length b) do
    let dab ← Prog.lift (dist D a b)
    Prog.onlyIf (dab < t) (Prog.tell (.cond (Cond.ne y b)))

/-- `forward_prune` (gcs/constraints/min_distance/min_distance.cc:405-421), for the threshold `t`. -/
def prune (D : Matrix) (t : Int) (x y : VarId) : Prog σ μ Unit := do
  match ← Prog.ask (optionalSingleValue · x) with
  | none => .ret ()
  | some a => Prog.onlyIf (InRange D.length a) do
    let bs ← Prog.ask fun d => do collect (← eachValue d y)
    Prog.forEach (pruneValue D t a y) bs

/-- `u = u ? max(*u, dab) : dab` if the distance is enough (gcs/constraints/min_distance/min_distance.cc:433-438). -/
def better (D : Matrix) (r a : Int) : Option Int → List Int → Chk (Option Int)
  | u, [] => .ok u
  | u, b :: bs =>
    if InRange D.length b then do
      let dab ← dist D a b
      better D r a (if dab ≥ r then some (match u with | some w => max w dab | none => dab) else u) bs
    else better D r a u bs

/-- The loops at gcs/constraints/min_distance/min_distance.cc:429-440. The values of `x[j]` are listed once, rather than for each value of `x[i]`: they are the same. -/
def best (D : Matrix) (r : Int) (bs : List Int) : Option Int → List Int → Chk (Option Int)
  | u, [] => .ok u
  | u, a :: as => if InRange D.length a then do best D r bs (← better D r a u bs) as else best D r bs u as

/-- `u_ij` (gcs/constraints/min_distance/min_distance.cc:427-440). -/
def pairBound (D : Matrix) (r : Int) (x y : VarId) (d : Doms) : Chk (Option Int) := do
  let as ← collect (← eachValue d x)
  let bs ← collect (← eachValue d y)
  best D r bs none as

/-- One value (gcs/constraints/min_distance/min_distance.cc:476-491). -/
def scanValue (D : Matrix) (t : Int) (x y : VarId) (a : Int) : Prog σ μ Unit :=
  Prog.onlyIf (InRange D.length a) do
    let b ← Prog.ask fun d => do
      if ← inDomain d x a then return ! (← anyOfGen (fun b => if InRange D.length b then do return decide ((← dist D a b) ≥ t) else .ok false) (← eachValue d y))
      else return false
    Prog.onlyIf (b = true) (Prog.tell (.cond (Cond.ne x a)))

/-- `support_scan` (gcs/constraints/min_distance/min_distance.cc:472-493). -/
def scan (D : Matrix) (t : Int) (x y : VarId) : Prog σ μ Unit := do
  let as ← Prog.ask fun d => do collect (← eachValue d x)
  Prog.forEach (scanValue D t x y) as

/-- The body of the loops at gcs/constraints/min_distance/min_distance.cc:396-497, where `zMin` is the lower bound of `z` to begin with. The domain sizes that are only used for the proof are left out. -/
def forwardPair (D : Matrix) (Q : Option Matrix) (z : VarId) (support : Bool) (zMin : Int) (p : (VarId × Nat) × (VarId × Nat)) : Prog σ μ Unit := do
  let r ← Prog.lift (required Q p.1.2 p.2.2)
  let t := max (r.getD 0) zMin
  prune D t p.1.1 p.2.1
  prune D t p.2.1 p.1.1
  match ← Prog.ask (pairBound D (r.getD 0) p.1.1 p.2.1) with
  | none => Prog.fail
  | some u =>
    if u < zMin then Prog.fail
    else
      let hi ← Prog.ask (upperBound · z)
      Prog.onlyIf (u < hi) (do
        let k ← Prog.lift (iAdd u 1)
        Prog.tell (.cond (Cond.lt z k)))
      Prog.onlyIf (support = true) (do
        scan D t p.1.1 p.2.1
        scan D t p.2.1 p.1.1)

/-- The propagation function of `install_forward_propagator` (gcs/constraints/min_distance/min_distance.cc:380-526). -/
def forward (D : Matrix) (Q : Option Matrix) (z : VarId) (support : Bool) (xs : List VarId) : Prog σ μ PState := do
  let zMin ← Prog.ask (lowerBound · z)
  Prog.forEach (forwardPair D Q z support zMin) (Disjunctive2D.pairs xs.zipIdx)
  let vals ← Prog.ask (values · xs)
  pin D z vals
  return .enable

end

/-- The first of the sites `bs` that is closer than `t` to `a`, and the others (gcs/constraints/min_distance/min_distance.cc:621-626). -/
def partner (D : Matrix) (t a : Int) : List Int → Chk (Option (Int × List Int))
  | [] => .ok none
  | b :: bs => do
    if (← dist D a b) < t then return some (b, bs)
    else return (← partner D t a bs).map fun r => (r.1, b :: r.2)

/-- `build_matching` (gcs/constraints/min_distance/min_distance.cc:615-628): the edges and the sites that are not matched, from the sites that are not matched so far and have not been looked at, of which there are at most
`fuel`. A site that finds no partner is not looked at again, since only later ones are looked at as partners. -/
def matching (D : Matrix) (t : Int) : Nat → List Int → Chk (List (Int × Int) × List Int)
  | _, [] => .ok ([], [])
  | 0, _ :: _ => .error .diverge
  | fuel + 1, a :: as => do
    match ← partner D t a as with
    | some (b, bs) => do
      let r ← matching D t fuel bs
      return ((a, b) :: r.1, r.2)
    | none => do
      let r ← matching D t fuel as
      return (r.1, a :: r.2)

/-- `refuted_at` (gcs/constraints/min_distance/min_distance.cc:629-632), for `p` variables. -/
def refuted (D : Matrix) (p : Nat) (as : List Int) (t : Int) : Chk Bool := do
  let r ← matching D t as.length as
  return decide ((as.length : Int) - r.1.length < p)

/-- The loop at gcs/constraints/min_distance/min_distance.cc:638-651, with at most `fuel` rounds. -/
def search (test : Int → Chk Bool) (levels : List Int) : Nat → Nat → Nat → Option Nat → Chk (Option Nat)
  | 0, left, right, found => if left ≤ right then .error .diverge else .ok found
  | fuel + 1, left, right, found =>
    if left ≤ right then do
      let mid := left + (right - left) / 2
      let t ← vecAt levels mid
      if ← test t then (if mid = 0 then return some mid else search test levels fuel left (mid - 1) (some mid))
      else search test levels fuel (mid + 1) right found
    else .ok found

/-- Adding up sizes, each less one. -/
def addUp : Int → List Nat → Chk Int
  | s, [] => .ok s
  | s, k :: ks => do addUp (← iAdd s (← iSub (← ofSize k) 1)) ks

/-- `sum_c` (gcs/constraints/min_distance/min_distance.cc:667-673), where `count` is the number of positions that could take a site. -/
def guards (count : Int → Nat) (edges : List (Int × Int)) (rest : List Int) : Chk Int :=
  addUp 0 (edges.map (fun e => count e.1 + count e.2) ++ rest.map count)

/-- The active sites (gcs/constraints/min_distance/min_distance.cc:577-587). -/
def active (n : Nat) (xs : List VarId) (d : Doms) : Chk (List Int) := do
  let vs ← AllDifferent.mapAll (fun x => do collect (← eachValue d x)) xs
  return ((List.range n).map Int.ofNat).filter fun a => vs.any fun l => decide (a ∈ l)

/-- What the matching propagator concludes: nothing, a bound, or that there is no solution. -/
inductive Verdict where
  | nothing
  | below (t : Int)
  | none

/-- gcs/constraints/min_distance/min_distance.cc:591-781 with the proof left out, for the active sites `as` and bounds `b` of `z`. `std::lower_bound` and `std::upper_bound` are what they are on a sorted vector. -/
def judge (D : Matrix) (p : Nat) (levels : List Int) (count : Int → Nat) (as : List Int) (b : Int × Int) : Chk Verdict :=
  if as = [] then .ok .nothing
  else if max b.1 1 > b.2 then .ok .nothing
  else
    let lo := (levels.takeWhile fun l => decide (l < max b.1 1)).length
    let hi := (levels.takeWhile fun l => decide (l ≤ b.2)).length
    if lo ≥ hi then .ok .nothing
    else do
      match ← search (refuted D p as) levels hi lo (hi - 1) none with
      | .none => return .nothing
      | some i => do
        let t ← vecAt levels i
        let r ← matching D t as.length as
        let c ← guards count r.1 r.2
        if c < 1 then throw .unexpected
        else return if t ≤ b.1 then .none else .below t

section
variable {σ μ : Type}

/-- The propagation function of `install_matching_propagator` (gcs/constraints/min_distance/min_distance.cc:569-784). -/
def bound (D : Matrix) (z : VarId) (xs : List VarId) (levels : List Int) (count : Int → Nat) : Prog σ μ PState := do
  let v ← Prog.ask fun d => do
    let as ← active D.length xs d
    let b ← bounds d z
    judge D xs.length levels count as b
  match v with
  | .nothing => return .enable
  | .none => Prog.fail
  | .below t => do
    Prog.tell (.cond (Cond.lt z t))
    return .enable

/-- `x` into a sorted list without repetitions: `set::insert`. -/
def insertSorted (x : Int) : List Int → List Int
  | [] => [x]
  | y :: ys => if x < y then x :: y :: ys else if x = y then y :: ys else y :: insertSorted x ys

/-- The levels (gcs/constraints/min_distance/min_distance.cc:536-543). -/
def levels (D : Matrix) : Chk (List Int) := do
  let ds ← AllDifferent.mapAll (fun p => dist D p.1 p.2) (Disjunctive2D.pairs ((List.range D.length).map Int.ofNat))
  return ds.foldl (fun s x => insertSorted x s) []

/-- `_position_sites` for one position (gcs/constraints/min_distance/min_distance.cc:93-101). -/
def sites (n : Nat) (d : Doms) (x : VarId) : Chk (List Int) := Disjunctive2D.keep (inDomain d x ·) ((List.range n).map Int.ofNat)

/-- `positions_at[a].size()` (gcs/constraints/min_distance/min_distance.cc:551-554). -/
def countAt (ss : List (List Int)) (a : Int) : Nat := ss.countP fun l => decide (a ∈ l)

/-- The checks at gcs/constraints/min_distance/min_distance.cc:56-67, one entry above the diagonal. -/
def badEntry (D : Matrix) (p : Int × Int) : Chk Bool := do
  let x ← dist D p.1 p.2
  if x < 0 then return true else return decide (x ≠ (← dist D p.2 p.1))

/-- Whether the checks at gcs/constraints/min_distance/min_distance.cc:46-67 throw. Which of them is the first one to do so makes no difference, since they throw the same. -/
def badDistances (D : Matrix) : Chk Bool := do
  if D = [] then return true
  else if ∃ row ∈ D, row.length ≠ D.length then return true
  else if ← anyOf (fun a => do return decide ((← dist D a a) ≠ 0)) ((List.range D.length).map Int.ofNat) then return true
  else anyOf (badEntry D) (Disjunctive2D.pairs ((List.range D.length).map Int.ofNat))

/-- Whether the checks at gcs/constraints/min_distance/min_distance.cc:68-78 throw. -/
def badRequirements (p : Nat) : Option Matrix → Chk Bool
  | none => .ok false
  | some q => do
    if q.length ≠ p then return true
    else if ∃ row ∈ q, row.length ≠ p then return true
    else anyOf (fun r => do return decide ((← vecAt (← vecAt q r.1) r.2) < 0)) (Disjunctive2D.pairs (List.range p))

/-- `install_propagators` (gcs/constraints/min_distance/min_distance.cc:266-281), with the triggers of each. -/
def props (level : Level) (D : Matrix) (Q : Option Matrix) (z : VarId) (xs : List VarId) (ls : List Int) (ss : List (List Int)) : List (Item σ μ) :=
  let match_ : Item σ μ := .prop (bound D z xs ls (countAt ss)) { onChange := xs, onBounds := [z] }
  let base (support : Bool) : Item σ μ := .prop (forward D Q z support xs) { onChange := xs, onBounds := [z] }
  match level with
  | .checkOnly => [.prop (check D Q z xs) { onInstantiated := xs }]
  | .forwardBound => [base false]
  | .pairSupport => [base true]
  | .forwardBoundMatch => [base false, match_]
  | .pairSupportMatch => [base true, match_]

/-- `MinDistance(x, z, distances, requirements, level)` (gcs/constraints/min_distance/min_distance.cc:34-118 and :266-785). -/
def install (level : Level) (xs : List VarId) (z : VarId) (D : Matrix) (Q : Option Matrix) (d : Doms) : Chk (List (Item σ μ)) := do
  if xs.length < 2 then throw .invalidProblem
  else if ← badDistances D then throw .invalidProblem
  else if ← badRequirements xs.length Q then throw .invalidProblem
  else
    let is ← defineRange d 0 D.length xs
    let ss ← AllDifferent.mapAll (sites D.length d) xs
    let _ ← bounds d z
    let ls ← levels D
    return is ++ props level D Q z xs ls ss

end
end Gcs.MinDistance
