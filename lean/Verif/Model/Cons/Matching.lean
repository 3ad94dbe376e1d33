import Verif.Model.Queue

/-!
# Matching and components

The graph algorithms of `gcs/constraints/all_different/gac_all_different.cc`, on the bipartite graph of variables ("left") and values ("right").

Vectors indexed by a variable or value are functions here: every index comes from the lists of edges or from a loop over all variables or values, see `Graph.WF`. `left_covered` is not kept apart from
`matching`; an entry of it is set exactly when the variable's entry in `matching` is. Loops that are not over a range have a bound, and report `diverge` when it is reached, which does not happen.
-/

namespace Gcs.Gac

/-- What is built at gcs/constraints/all_different/gac_all_different.cc:729-783: the number of variables, of values, and of values and phantoms, and the edges of each variable, real ones in the order of
the values, then its phantom. -/
structure Graph where
  nL : Nat
  nVals : Nat
  nR : Nat
  adj : Nat → List Nat

/-- `v[i] = x` -/
def put {α : Type} (f : Nat → α) (i : Nat) (x : α) : Nat → α := fun j => if j = i then x else f j

/-- `matching` and `inverse_matching`. -/
structure Match where
  m : Nat → Option Nat
  inv : Nat → Option Nat

/-- `matching[l] = t; inverse_matching[t] = l;` -/
def Match.join (M : Match) (l t : Nat) : Match := ⟨put M.m l (some t), put M.inv t (some l)⟩

/-- `for_each_unmatched_edge_of_var` (gac_all_different.cc:221-236). -/
def unmatched (G : Graph) (M : Match) (i : Nat) : List Nat := (G.adj i).filter fun t => M.m i ≠ some t

/-- The local variables of `augment_from` (gac_all_different.cc:247-262). -/
structure Bfs where
  seenL : Nat → Bool
  seenR : Nat → Bool
  /-- `how_we_got_to_on_the_right` -/
  fromR : Nat → Nat
  /-- `how_we_got_to_on_the_left` -/
  fromL : Nat → Nat
  queue : List Nat
  /-- `path_endpoint` -/
  stop : Option Nat

/-- gac_all_different.cc:265-279, for the edges of `l`. -/
def scanEdges (inv : Nat → Option Nat) (l : Nat) : List Nat → Bfs → Bfs
  | [], b => b
  | t :: ts, b =>
    if b.stop.isSome || b.seenR t then scanEdges inv l ts b
    else
      let b1 := { b with seenR := put b.seenR t true, fromR := put b.fromR t l }
      match inv t with
      | none => scanEdges inv l ts { b1 with stop := some t }
      | some nl =>
        if b1.seenL nl then scanEdges inv l ts b1
        else scanEdges inv l ts { b1 with seenL := put b1.seenL nl true, fromL := put b1.fromL nl t, queue := b1.queue ++ [nl] }

/-- The loop at gac_all_different.cc:263-280. -/
def bfsLoop (G : Graph) (M : Match) : Nat → Nat → Bfs → Chk Bfs
  | 0, _, _ => .error .diverge
  | fuel + 1, head, b =>
    if b.stop.isSome then .ok b
    else
      match b.queue[head]? with
      | none => .ok b
      | some l => bfsLoop G M fuel (head + 1) (scanEdges M.inv l (unmatched G M l) b)

/-- The loop at gac_all_different.cc:286-294. -/
def flip (b : Bfs) (start : Nat) : Nat → Nat → Match → Chk Match
  | 0, _, _ => .error .diverge
  | fuel + 1, t, M =>
    if b.fromR t = start then .ok (M.join (b.fromR t) t)
    else flip b start fuel (b.fromL (b.fromR t)) (M.join (b.fromR t) t)

/-- gac_all_different.cc:253-262. -/
def Bfs.init (start : Nat) : Bfs := ⟨put (fun _ => false) start true, fun _ => false, fun _ => 0, fun _ => 0, [start], none⟩

/-- `augment_from` (gac_all_different.cc:243-297). -/
def augment (G : Graph) (start : Nat) (M : Match) : Chk Match := do
  let b ← bfsLoop G M (G.nL + 1) 0 (.init start)
  match b.stop with
  | none => return M
  | some t => flip b start (G.nL + 1) t M

/-- The body of the loop at gac_all_different.cc:346-375. -/
def cover (G : Graph) (i : Nat) (M : Match) : Chk Match :=
  match M.m i with
  | some _ => .ok M
  | none =>
    match (G.adj i).find? (fun t => (M.inv t).isNone) with
    | some t => .ok (M.join i t)
    | none => augment G i M

/-- The loop at gac_all_different.cc:346-375. -/
def coverAll (G : Graph) : List Nat → Match → Chk Match
  | [], M => .ok M
  | i :: is, M => do coverAll G is (← cover G i M)

/-- gac_all_different.cc:341-344. -/
def inverseOf (m : Nat → Option Nat) (inv : Nat → Option Nat) (i : Nat) : Nat → Option Nat :=
  match m i with
  | some r => put inv r (some i)
  | none => inv

/-- gac_all_different.cc:339-344. -/
def inverse (m : Nat → Option Nat) (l : List Nat) : Nat → Option Nat := l.foldl (inverseOf m) fun _ => none

/-- gac_all_different.cc:321-344. `old` is the matching left by the previous call, nothing if there was none or it may not be reused. Whether an edge still exists is found by bisection in the code. -/
def reuse (G : Graph) (old : List (Option Nat)) : Match :=
  let m := fun i =>
    if old.length = G.nL then
      match old[i]? with
      | some (some r) => if r ∈ G.adj i then some r else none
      | _ => none
    else none
  ⟨m, inverse m (List.range G.nL)⟩

/-- `build_matching` (gac_all_different.cc:315-376). -/
def build (G : Graph) (old : List (Option Nat)) : Chk Match := coverAll G (List.range G.nL) (reuse G old)

/-- The test at gac_all_different.cc:792. -/
def complete (G : Graph) (M : Match) : Bool := (List.range G.nL).all fun i => (M.m i).isSome

/-- The loop at gac_all_different.cc:401-426, which looks for a Hall violator: `hl` and `hr` are `hall_variables` and `hall_values`. A value that is not matched would be dereferenced through an empty
`optional`. The result is only used for the proof. -/
def hallLoop (G : Graph) (M : Match) : Nat → (Nat → Bool) → (Nat → Bool) → Chk Unit
  | 0, _, _ => .error .diverge
  | fuel + 1, hl, hr =>
    match (List.range G.nR).find? (fun r => (List.range G.nL).any (fun l => hl l && decide (r ∈ G.adj l)) && !hr r) with
    | none => .ok ()
    | some r =>
      match M.inv r with
      | none => .error .ub
      | some l => hallLoop G M fuel (put hl l true) (put hr r true)

/-- `prove_matching_is_too_small` (gac_all_different.cc:378-448), for what it may throw. -/
def explainTooSmall (G : Graph) (M : Match) : Chk Unit :=
  match (List.range G.nL).find? (fun i => (M.m i).isNone) with
  | none => hallLoop G M (G.nR + 1) (fun _ => false) fun _ => false
  | some i => hallLoop G M (G.nR + 1) (put (fun _ => false) i true) fun _ => false

/-! ## Components -/

/-- The successors of a vertex in the directed graph; values are numbered after the variables (gac_all_different.cc:460-464, :578-581). -/
def succ (G : Graph) (M : Match) (v : Nat) : List Nat :=
  if v < G.nL then (unmatched G M v).map (G.nL + ·) else (M.inv (v - G.nL)).toList

/-- The local variables of `find_strongly_connected_components` (gac_all_different.cc:589-605). The position to resume at in a frame is the list of successors still to come. `enstackinated` is the
membership in `stack`, whose top comes first. -/
structure Scc where
  idx : Nat → Nat := fun _ => 0
  low : Nat → Nat := fun _ => 0
  comp : Nat → Nat := fun _ => 0
  stack : List Nat := []
  frames : List (Nat × List Nat) := []
  next : Nat := 1
  count : Nat := 0

/-- gac_all_different.cc:615-622. -/
def Scc.arrive (s : Scc) (v : Nat) : Scc :=
  if s.idx v = 0 then { s with idx := put s.idx v s.next, low := put s.low v s.next, next := s.next + 1, stack := v :: s.stack } else s

/-- What the lowlink of a vertex is compared with at an edge to `w`: its lowlink (gac_all_different.cc:636, :652, :667), or its index (gac_global_cardinality.cc:545). -/
def Scc.link (s : Scc) (byIndex : Bool) (low : Nat → Nat) (w : Nat) : Nat := if byIndex then s.idx w else low w

/-- The loop over successors (gac_all_different.cc:624-673, gac_global_cardinality.cc:535-546): the lowlinks, and if there is a successor to descend into, it and those that come after. -/
def Scc.walk (s : Scc) (byIndex : Bool) (v : Nat) : List Nat → (Nat → Nat) → (Nat → Nat) × Option (Nat × List Nat)
  | [], low => (low, none)
  | w :: ws, low =>
    if s.idx w = 0 then (low, some (w, ws))
    else if w ∈ s.stack then s.walk byIndex v ws (put low v (min (low v) (s.link byIndex low w)))
    else s.walk byIndex v ws low

/-- The `do` loop at gac_all_different.cc:681-686: the stack and the components afterwards. Popping an empty stack would be undefined. -/
def popTo (v k : Nat) : List Nat → (Nat → Nat) → Chk (List Nat × (Nat → Nat))
  | [], _ => .error .ub
  | w :: ws, comp => if w = v then .ok (ws, put comp w k) else popTo v k ws (put comp w k)

/-- gac_all_different.cc:678-691: the vertex is finished. -/
def Scc.leave (s : Scc) (v : Nat) (frames : List (Nat × List Nat)) : Chk Scc := do
  let s1 ← (if s.low v = s.idx v then do
      let x ← popTo v s.count s.stack s.comp
      return { s with stack := x.1, comp := x.2, count := s.count + 1 }
    else return s)
  return { s1 with
    frames := frames
    low := match frames with
      | [] => s1.low
      | u :: _ => put s1.low u.1 (min (s1.low u.1) (s1.low v)) }

/-- The loop at gac_all_different.cc:612-692 and gac_global_cardinality.cc:525-562, for a graph given by lists of successors. -/
def Scc.run (byIndex : Bool) (S : Nat → List Nat) : Nat → Scc → Chk Scc
  | 0, _ => .error .diverge
  | fuel + 1, s =>
    match s.frames with
    | [] => .ok s
    | (v, ws) :: fs => do
      let s1 := s.arrive v
      let x := s1.walk byIndex v ws s1.low
      match x.2 with
      | some (w, rest) => Scc.run byIndex S fuel { s1 with low := x.1, frames := (w, S w) :: (v, rest) :: fs }
      | none => Scc.run byIndex S fuel (← { s1 with low := x.1 }.leave v fs)

/-- The loop at gac_all_different.cc:607-693 and gac_global_cardinality.cc:521-563, for a graph with `N` vertices. -/
def Scc.roots (byIndex : Bool) (S : Nat → List Nat) (N : Nat) : List Nat → Scc → Chk Scc
  | [], s => .ok s
  | r :: rs, s =>
    if s.idx r ≠ 0 then Scc.roots byIndex S N rs s
    else do Scc.roots byIndex S N rs (← Scc.run byIndex S (2 * N + 2) { s with frames := [(r, S r)] })

/-- `find_strongly_connected_components` (gac_all_different.cc:587-696). -/
def components (G : Graph) (M : Match) : Chk Scc := Scc.roots false (succ G M) (G.nL + G.nR) (List.range (G.nL + G.nR)) {}

/-! ## Edges to keep and to delete -/

/-- The predecessors of a vertex in the directed graph (gac_all_different.cc:830-834, :868-869). -/
def pred (G : Graph) (M : Match) (v : Nat) : List Nat :=
  if v < G.nL then (M.m v).toList.map (G.nL + ·) else (List.range G.nL).filter fun i => v - G.nL ∈ unmatched G M i

/-- The local variables of the sweep (gac_all_different.cc:836-841). `to_explore` has its back first. -/
structure Sweep where
  todo : List Nat
  inTodo : Nat → Bool
  explored : Nat → Bool
  used : Nat → Nat → Bool

/-- `used_edges[…] = 1`, for an edge between two vertices. -/
def mark (G : Graph) (u : Nat → Nat → Bool) (l r : Nat) : Nat → Nat → Bool := if r < G.nVals then fun i j => if i = l ∧ j = r then true else u i j else u

/-- gac_all_different.cc:869-879 and :882-892, for the predecessors of `v`. -/
def Sweep.visit (G : Graph) (v : Nat) : List Nat → Sweep → Sweep
  | [], s => s
  | t :: ts, s =>
    let s1 := { s with used := if v < G.nL then mark G s.used v (t - G.nL) else mark G s.used t (v - G.nL) }
    if s1.explored t || s1.inTodo t then Sweep.visit G v ts s1
    else Sweep.visit G v ts { s1 with todo := t :: s1.todo, inTodo := put s1.inTodo t true }

/-- The loop at gac_all_different.cc:858-896. -/
def Sweep.run (G : Graph) (M : Match) : Nat → Sweep → Chk Sweep
  | 0, _ => .error .diverge
  | fuel + 1, s =>
    match s.todo with
    | [] => .ok s
    | v :: vs => Sweep.run G M fuel (Sweep.visit G v (pred G M v) { s with todo := vs, inTodo := put s.inTodo v false, explored := put s.explored v true })

/-- Whether the right vertex is not matched (gac_all_different.cc:843-848). -/
def free (G : Graph) (M : Match) (r : Nat) : Bool := !(List.range G.nL).any fun i => M.m i = some r

/-- gac_all_different.cc:816-818. -/
def usedByMatching (G : Graph) (M : Match) (i r : Nat) : Bool := decide (i < G.nL ∧ r < G.nVals ∧ M.m i = some r)

/-- The used edges (gac_all_different.cc:813-897). -/
def used (G : Graph) (M : Match) : Chk (Nat → Nat → Bool) :=
  if G.nR = G.nL then .ok (usedByMatching G M)
  else do
    let todo := ((List.range G.nR).filter (free G M)).map (G.nL + ·)
    let s ← Sweep.run G M (G.nL + G.nR + 1) ⟨todo.reverse, fun v => decide (v ∈ todo), fun _ => false, usedByMatching G M⟩
    return s.used

/-- The edges that can be deleted, in order (gac_all_different.cc:909-919). -/
def deletable (G : Graph) (u : Nat → Nat → Bool) (comp : Nat → Nat) : List (Nat × Nat) :=
  (List.range G.nL).flatMap fun i => ((G.adj i).filter fun r => decide (r < G.nVals) && !u i r && decide (comp (G.nL + r) ≠ comp i)).map fun r => (i, r)

/-- The loop at gac_all_different.cc:921-937: deletions by component. `prove_deletion_using_sccs` (:480-573) throws if it finds no variable reachable from the value, which is so if the value is not matched, and the
value is not matched; the value is that of the last edge in the component. -/
def batches (G : Graph) (M : Match) (comp : Nat → Nat) (dels : List (Nat × Nat)) : List Nat → Chk (List (Nat × Nat))
  | [] => .ok []
  | k :: ks => do
    let b := dels.filter fun e => comp (G.nL + e.2) = k
    match b.getLast? with
    | none => batches G M comp dels ks
    | some e =>
      if (M.inv e.2).isNone then throw .unexpected
      else return b ++ (← batches G M comp dels ks)

/-- `propagate_gac_all_different` from the graph on (gac_all_different.cc:788-938): nothing if there is no matching, else the edges deleted, in order. Writing to `deletions_by_scc` out of range would be
undefined. -/
def prune (G : Graph) (old : List (Option Nat)) : Chk (Option (List (Nat × Nat))) := do
  let M ← build G old
  if complete G M then
    let s ← components G M
    let u ← used G M
    let dels := deletable G u s.comp
    if dels.all (fun e => s.comp (G.nL + e.2) < s.count) then
      return some (← batches G M s.comp dels (List.range s.count))
    else throw .ub
  else
    explainTooSmall G M
    return none

end Gcs.Gac
