import Verif.Model.Cons.Difference

/-!
# Simplification of differences at the root

`simplify_difference_graph` (gcs/constraints/difference/difference_simplify.cc:92-271), which `DifferenceConstraints` uses before the search unless it is told not to, and the difference-logic presolver as well. Statistics are not
modelled, and so neither is counting cycles of weight 0.
-/

namespace Gcs.Difference

/-- `DifferenceSimplifyRole` (gcs/constraints/difference/difference_simplify.hh). -/
inductive Role where
  | base
  | candidate
  | ignored
  deriving DecidableEq, Repr

/-- `DifferenceSimplifyOutcome`, if there is no negative cycle. The vector `remove` is a list of the edges for which it is true. -/
structure Outcome where
  removed : List Nat := []
  fix : List (Nat × List Nat) := []
  deriving DecidableEq, Repr

/-- The edges with a property, in order. -/
def select (arcs : List Arc) (roles : List Role) (p : Arc → Role → Bool) : List Nat :=
  (List.range arcs.length).filter fun e => match arcs[e]?, roles[e]? with
    | some a, some r => p a r
    | _, _ => false

/-- One round of Bellman-Ford (gcs/constraints/difference/difference_simplify.cc:118-124). -/
def potSweep (arcs : List Arc) : List Nat → List Int → Bool → Chk (List Int × Bool)
  | [], h, changed => .ok (h, changed)
  | e :: es, h, changed => do
    let a ← vecAt arcs e
    let x ← vecAt h a.src
    let c ← iAdd x a.d
    let y ← vecAt h a.dst
    if c < y then potSweep arcs es (h.set a.dst c) true else potSweep arcs es h changed

/-- The potential, or nothing if it changes in the last round (gcs/constraints/difference/difference_simplify.cc:115-136). The number counts down from `n + 1`. -/
def potential (arcs : List Arc) (base : List Nat) : Nat → List Int → Chk (Option (List Int))
  | 0, _ => .ok none
  | k + 1, h => do
    let r ← potSweep arcs base h false
    if r.2 then potential arcs base k r.1 else return some r.1

/-- `reduced` (gcs/constraints/difference/difference_simplify.cc:142-148). -/
def reduceAll (h : List Int) : List Arc → List Role → Chk (List Int)
  | a :: as, r :: rs => do
    if r = .base then
      let x ← vecAt h a.src
      let t ← iAdd a.d x
      let y ← vecAt h a.dst
      let w ← iSub t y
      if w < 0 then throw .unexpected
      else return w :: (← reduceAll h as rs)
    else return 0 :: (← reduceAll h as rs)
  | _, _ => .ok []

/-- `dist`, `parent` and `queue`. The first entry of the queue is its top. -/
structure Dij where
  dist : List (Option Int)
  parent : List (Option Nat)
  queue : List (Int × Nat)
  deriving DecidableEq, Repr

/-- `queue.emplace`: `greater` makes the least pair the top. -/
def emplace (x : Int × Nat) : List (Int × Nat) → List (Int × Nat)
  | [] => [x]
  | y :: ys => if x.1 < y.1 ∨ (x.1 = y.1 ∧ x.2 ≤ y.2) then x :: y :: ys else y :: emplace x ys

/-- The loop over the edges from the node at the top (gcs/constraints/difference/difference_simplify.cc:202-212). -/
def visit (arcs : List Arc) (reduced : List Int) (rd : Int) : List Nat → Dij → Chk Dij
  | [], st => .ok st
  | e :: es, st => do
    let a ← vecAt arcs e
    let r ← vecAt reduced e
    let c ← iAdd rd r
    let old ← vecAt st.dist a.dst
    if old.all (decide <| c < ·) then
      visit arcs reduced rd es { dist := st.dist.set a.dst (some c), parent := st.parent.set a.dst (some e), queue := emplace (c, a.dst) st.queue }
    else visit arcs reduced rd es st

/-- Dijkstra's algorithm (gcs/constraints/difference/difference_simplify.cc:197-213). The number is only there to end the recursion, and is large enough. -/
def dijkstra (arcs : List Arc) (reduced : List Int) (out : Nat → List Nat) : Nat → Dij → Chk Dij
  | 0, _ => .error .diverge
  | k + 1, st =>
    match st.queue with
    | [] => .ok st
    | (rd, v) :: q => do
      if (← vecAt st.dist v) = some rd then dijkstra arcs reduced out k (← visit arcs reduced rd (out v) { st with queue := q })
      else dijkstra arcs reduced out k { st with queue := q }

/-- `real_distance` (gcs/constraints/difference/difference_simplify.cc:217). -/
def realDist (h : List Int) (s : Nat) (x : Int) (v : Nat) : Chk Int := do
  let t ← iSub x (← vecAt h s)
  iAdd t (← vecAt h v)

/-- Redundant edges from one node (gcs/constraints/difference/difference_simplify.cc:225-242). `tight` is where `tight_kept` is true. -/
def redundant (arcs : List Arc) (roles : List Role) (h : List Int) (s : Nat) (dist : List (Option Int)) : List Nat → List Nat → Chk (List Nat)
  | [], _ => .ok []
  | e :: es, tight => do
    let a ← vecAt arcs e
    match ← vecAt dist a.dst with
    | none => redundant arcs roles h s dist es tight
    | some x =>
      let w ← realDist h s x a.dst
      let r ← vecAt roles e
      if r = .candidate then
        let rest ← redundant arcs roles h s dist es tight
        return if a.d ≥ w then e :: rest else rest
      else if a.d > w then return e :: (← redundant arcs roles h s dist es tight)
      else if a.d = w then
        if a.dst ∈ tight then return e :: (← redundant arcs roles h s dist es tight)
        else redundant arcs roles h s dist es (a.dst :: tight)
      else redundant arcs roles h s dist es tight

/-- The path, with its end first (gcs/constraints/difference/difference_simplify.cc:257-265). There are as many nodes as parents, so it has no more edges than that. -/
def back (arcs : List Arc) (parent : List (Option Nat)) (s : Nat) : Nat → Nat → Chk (List Nat)
  | 0, _ => .error .diverge
  | k + 1, at_ => do
    if at_ = s then return []
    else match ← vecAt parent at_ with
      | none => throw .unexpected
      | some e => return e :: (← back arcs parent s k (← vecAt arcs e).src)

/-- Conditions that must be false (gcs/constraints/difference/difference_simplify.cc:248-267). -/
def fixes (arcs : List Arc) (h : List Int) (s : Nat) (st : Dij) (removed : List Nat) : List Nat → Chk (List (Nat × List Nat))
  | [] => .ok []
  | e :: es => do
    if e ∈ removed then fixes arcs h s st removed es
    else
      let a ← vecAt arcs e
      match ← vecAt st.dist a.src with
      | none => fixes arcs h s st removed es
      | some x =>
        let w ← iAdd a.d (← realDist h s x a.src)
        if w ≥ 0 then fixes arcs h s st removed es
        else
          let p ← back arcs st.parent s (st.parent.length + 1) a.src
          return (e, p.reverse) :: (← fixes arcs h s st removed es)

/-- What Dijkstra's algorithm starts with. The code only clears what it has used before (gcs/constraints/difference/difference_simplify.cc:187-196). -/
def Dij.init (n s : Nat) : Dij := { dist := (List.replicate n none).set s (some 0), parent := List.replicate n none, queue := [(0, s)] }

/-- Enough for `dijkstra`: a distance is made less at most this often. -/
def plenty (n : Nat) : Nat := 2 * (n * 2 ^ 63) + 2

/-- The loop over nodes (gcs/constraints/difference/difference_simplify.cc:183-268). -/
def sources (n : Nat) (arcs : List Arc) (roles : List Role) (h reduced : List Int) : List Nat → Outcome → Chk Outcome
  | [], o => .ok o
  | s :: ss, o => do
    let from_ := select arcs roles fun a r => a.src = s ∧ r ≠ .ignored
    let to := select arcs roles fun a r => a.dst = s ∧ r = .candidate
    if from_ = [] ∧ to = [] then sources n arcs roles h reduced ss o
    else
      let st ← dijkstra arcs reduced (fun v => select arcs roles fun a r => a.src = v ∧ r = .base) (plenty n) (Dij.init n s)
      let r ← redundant arcs roles h s st.dist from_ []
      let f ← fixes arcs h s st (o.removed ++ r) to
      sources n arcs roles h reduced ss ⟨o.removed ++ r, o.fix ++ f⟩

/-- `simplify_difference_graph` (gcs/constraints/difference/difference_simplify.cc:92-271). Nothing if there is a negative cycle. -/
def simplify (n : Nat) (arcs : List Arc) (roles : List Role) : Chk (Option Outcome) := do
  if roles.length ≠ arcs.length then throw .unexpected
  else if n = 0 ∨ arcs = [] then return some {}
  else
    match ← potential arcs (select arcs roles fun _ r => r = .base) (n + 1) (List.replicate n 0) with
    | none => return none
    | some h =>
      let reduced ← reduceAll h arcs roles
      return some (← sources n arcs roles h reduced (List.range n) {})

end Gcs.Difference
