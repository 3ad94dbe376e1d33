import Verif.Model.Integer

/-!
# Range literals in proofs

What `NamesAndIDsTracker` does when an equality or range literal on one variable is needed (gcs/innards/proofs/names_and_ids_tracker.cc): which literals are defined, the containment edges and coverings written, and the partition of the
variable's values that is kept. This is for a variable with bits, once there is a logger, and at assertion level `Off` or `Links`.

Order literals and the reifications that say what a literal means are in `Model/OrderLiterals.lean`, with which C72 shows that the proof checker accepts each clause. Not here: views. The intervals in the containment tree are a list:
C70 shows that the tree is asked for what is filtered from the list here. Numbers do not overflow.
-/

namespace Gcs.Ranges

/-- An interval, standing for the literal that says that the variable is in it. An interval of one value is an equality atom. -/
abbrev Ivl := Int × Int

/-- A literal in a clause: an interval literal or its negation. -/
structure Lit where
  pos : Bool
  ivl : Ivl
  deriving DecidableEq, Repr

/-- A clause written by `emit_rup_proof_line`. -/
abbrev Clause := List Lit

/-- What is kept for the variable: `eq_defs`, `invars_that_exist` (with every definition written, so that one written twice would be there twice), `containment_trees`, `interval_partitions`
(gcs/innards/proofs/names_and_ids_tracker.cc:324-342), and the clauses written so far. -/
structure St where
  eqs : List Int := []
  invars : List Ivl := []
  tree : Option (List Ivl) := none
  cuts : Option (List Int) := none
  clauses : List Clause := []
  deriving DecidableEq, Repr

/-- `emit_edge` (gcs/innards/proofs/names_and_ids_tracker.cc:1201-1213). -/
def edge (child parent : Ivl) : Clause := [⟨false, child⟩, ⟨true, parent⟩]

/-- The loop over candidate containers (gcs/innards/proofs/names_and_ids_tracker.cc:1226-1231). -/
def scanLeast : Option Int → List Ivl → List Ivl
  | _, [] => []
  | least, x :: xs => if least.all (x.2 < ·) then x :: scanLeast (some x.2) xs else scanLeast least xs

/-- The loop over candidates inside (gcs/innards/proofs/names_and_ids_tracker.cc:1243-1248). -/
def scanGreatest : Option Int → List Ivl → List Ivl
  | _, [] => []
  | greatest, x :: xs => if greatest.all (x.2 > ·) then x :: scanGreatest (some x.2) xs else scanGreatest greatest xs

/-- The order of gcs/innards/proofs/names_and_ids_tracker.cc:1223-1225. -/
def upOrder (x y : Ivl) : Bool := if x.1 = y.1 then x.2 ≤ y.2 else x.1 > y.1

/-- The order of gcs/innards/proofs/names_and_ids_tracker.cc:1240-1242. -/
def downOrder (x y : Ivl) : Bool := if x.1 = y.1 then x.2 ≥ y.2 else x.1 < y.1

/-- Inserting into what is sorted. -/
def insertBy (le : Ivl → Ivl → Bool) (x : Ivl) : List Ivl → List Ivl
  | [] => [x]
  | y :: ys => if le x y then x :: y :: ys else y :: insertBy le x ys

/-- `sort`. The orders here are total and what is sorted has no repetitions, so that how it is done does not matter. -/
def sortBy (le : Ivl → Ivl → Bool) (l : List Ivl) : List Ivl := l.foldr (insertBy le) []

/-- `link_immediate_containment` (gcs/innards/proofs/names_and_ids_tracker.cc:1191-1252). -/
def link (s : Ivl) (st : St) : St :=
  match st.tree with
  | none => st
  | some t =>
    let ups := scanLeast none (sortBy upOrder (t.filter fun c => c.1 ≤ s.1 ∧ s.2 ≤ c.2 ∧ c ≠ s))
    let downs := if s.1 ≠ s.2 then scanGreatest none (sortBy downOrder (t.filter fun c => s.1 ≤ c.1 ∧ c.2 ≤ s.2 ∧ c ≠ s)) else []
    { st with clauses := st.clauses ++ (ups.map (edge s) ++ downs.map (edge · s)) }

/-- `IntervalTree::insert`, where there is a tree. -/
def treeInsert (s : Ivl) (st : St) : St := { st with tree := st.tree.map fun t => if s ∈ t then t else s :: t }

/-- `define_plain_invar` (gcs/innards/proofs/names_and_ids_tracker.cc:1254-1292). -/
def definePlain (s : Ivl) (st : St) : St :=
  let st := { st with invars := st.invars ++ [s], tree := some (st.tree.getD (st.eqs.map fun v => (v, v))) }
  treeInsert s (link s st)

/-- Inserting into a `std::set`. -/
def insertCut (p : Int) : List Int → List Int
  | [] => [p]
  | x :: xs => if p < x then p :: x :: xs else if p = x then x :: xs else x :: insertCut p xs

/-- `define_cell` (gcs/innards/proofs/names_and_ids_tracker.cc:1326-1331, also 1374-1377), given `need_direct_encoding_for`. -/
def defineCell (direct : Int → St → Chk St) (c : Ivl) (st : St) : Chk St := if c.1 = c.2 then direct c.1 st else .ok (definePlain c st)

/-- `ensure_partition_cut` (gcs/innards/proofs/names_and_ids_tracker.cc:1308-1343), given `need_direct_encoding_for`. -/
def ensureCut (direct : Int → St → Chk St) (p : Int) (st : St) : Chk St :=
  match st.cuts with
  | none => .error .ub
  | some bs =>
    if p ∈ bs then .ok st
    else
      match (bs.takeWhile (· ≤ p)).getLast?, (bs.dropWhile (· ≤ p)).head? with
      | some a, some above => do
        let b := above - 1
        let st := { st with cuts := some (insertCut p bs) }
        let st ← defineCell direct (a, p - 1) st
        let st ← defineCell direct (p, b) st
        return { st with clauses := st.clauses ++ [[⟨false, (a, b)⟩, ⟨true, (a, p - 1)⟩, ⟨true, (p, b)⟩]] }
      | _, _ => .error .ub

/-- `need_direct_encoding_for` (gcs/innards/proofs/names_and_ids_tracker.cc:733-910), which calls `ensure_partition_cut` and is called by it. The number is how deep such calls may go: going deeper is an error here. -/
def needDirect (lb ub : Int) : Nat → Int → St → Chk St
  | 0, _, _ => .error .ub
  | n + 1, v, st =>
    if v ∈ st.eqs then .ok st
    else do
      let st := treeInsert (v, v) (link (v, v) { st with eqs := st.eqs ++ [v] })
      if st.cuts.isSome ∧ lb ≤ v ∧ v ≤ ub then
        let st ← ensureCut (needDirect lb ub n) v st
        ensureCut (needDirect lb ub n) (v + 1) st
      else return st

/-- The intervals between consecutive boundaries. -/
def cells : List Int → List Ivl
  | x :: y :: rest => (x, y - 1) :: cells (y :: rest)
  | _ => []

/-- `define_cell` for several. -/
def defineCells (direct : Int → St → Chk St) : List Ivl → St → Chk St
  | [], st => .ok st
  | c :: cs, st => do defineCells direct cs (← defineCell direct c st)

/-- The boundaries with which a partition begins (gcs/innards/proofs/names_and_ids_tracker.cc:1351-1366). -/
def firstCuts (lb ub : Int) (eqs : List Int) (lo hi : Int) : List Int :=
  let bs := insertCut (ub + 1) (insertCut lb [])
  let bs := eqs.foldl (fun bs v => if lb ≤ v ∧ v ≤ ub then insertCut (v + 1) (insertCut v bs) else bs) bs
  insertCut (hi + 1) (insertCut lo bs)

/-- `init_interval_partition` (gcs/innards/proofs/names_and_ids_tracker.cc:1345-1382). -/
def initPartition (direct : Int → St → Chk St) (lb ub lo hi : Int) (st : St) : Chk St := do
  let bs := firstCuts lb ub st.eqs lo hi
  let st ← defineCells direct (cells bs) { st with cuts := some bs }
  return { st with clauses := st.clauses ++ [(cells bs).map (⟨true, ·⟩)] }

/-- The loop over cells from one boundary to another (gcs/innards/proofs/names_and_ids_tracker.cc:1439-1440). -/
def walk (stop : Int) : List Int → Chk (List Ivl)
  | [] => .error .ub
  | x :: rest =>
    if x = stop then .ok []
    else match rest with
      | [] => .error .ub
      | y :: more => do return (x, y - 1) :: (← walk stop (y :: more))

/-- Making both ends of a request boundaries (gcs/innards/proofs/names_and_ids_tracker.cc:1419-1425). -/
def withEnds (direct : Int → St → Chk St) (lb ub lo hi : Int) (st : St) : Chk St :=
  if st.cuts.isNone then initPartition direct lb ub lo hi st else do ensureCut direct (hi + 1) (← ensureCut direct lo st)

/-- `need_invar` (gcs/innards/proofs/names_and_ids_tracker.cc:1384-1443). -/
def needInvar (lb ub : Int) (n : Nat) (lo hi : Int) (st : St) : Chk St := do
  let direct := needDirect lb ub n
  if lo > hi then return st
  else if lo = hi then direct lo st
  else if (lo, hi) ∈ st.invars then return st
  else
    let spanLo := max lo lb
    let spanHi := min hi ub
    if spanLo > spanHi then return definePlain (lo, hi) st
    else
      let st ← withEnds direct lb ub spanLo spanHi st
      match st.cuts.map (·.dropWhile (· ≠ spanLo)) with
      | some (x :: y :: more) =>
        if lo = spanLo ∧ hi = spanHi ∧ y = spanHi + 1 then return st
        else
          let st := definePlain (lo, hi) st
          let between ← walk (spanHi + 1) (x :: y :: more)
          return { st with clauses := st.clauses ++ [⟨false, (lo, hi)⟩ :: between.map (⟨true, ·⟩)] }
      | _ => .error .ub

/-- A literal asked for. -/
inductive Ask where
  | eq (v : Int)
  | range (lo hi : Int)
  deriving DecidableEq, Repr

/-- One request. -/
def ask (lb ub : Int) (n : Nat) : Ask → St → Chk St
  | .eq v, st => needDirect lb ub n v st
  | .range lo hi, st => needInvar lb ub n lo hi st

/-- Several requests. -/
def asks (lb ub : Int) (n : Nat) : List Ask → St → Chk St
  | [], st => .ok st
  | x :: xs, st => do asks lb ub n xs (← ask lb ub n x st)

end Gcs.Ranges
