import Verif.Model.Cons.Knapsack
import Verif.Model.Cons.MinDistance

/-!
# BinPacking (gcs/constraints/bin_packing/bin_packing.cc)

Each bin has either a variable for its load or a capacity, and both are in one list here. Not modelled: anything that is only for proofs, including phantoms and the cache of dead states; what is installed for the beginning of
search, which does nothing without proofs.
-/

namespace Gcs.BinPacking

/-- `_loads[b]` or `_capacities[b]`. -/
abbrev Cap := VarId ⊕ Int

/-- `floor`, `ceiling` and `still_possible` (bin_packing.cc:974-991), for bin `b`. Item number `i` and `sizes[i]` are a pair here: there are as many of the former as of the latter (:1079). -/
def scan (d : Doms) (b : Int) : List (VarId × Int) → Int → Int → List (VarId × Int) → Chk (Int × Int × List (VarId × Int))
  | [], floor, ceiling, still => .ok (floor, ceiling, still)
  | (x, s) :: ps, floor, ceiling, still => do
    let v ← optionalSingleValue d x
    if v = some b then scan d b ps (← iAdd floor s) (← iAdd ceiling s) still
    else if ← inDomain d x b then scan d b ps floor (← iAdd ceiling s) (still ++ [(x, s)])
    else scan d b ps floor ceiling still

section
variable {σ μ : Type}

/-- The body of the loop over `still_possible` for loads (bin_packing.cc:1006-1017). -/
def decideItem (b floor ceiling lo hi : Int) (p : VarId × Int) : Prog σ μ Unit := do
  let f ← Prog.lift (iAdd floor p.2)
  if f > hi then Prog.tell (.cond (Cond.ne p.1 b))
  else
    let c ← Prog.lift (iSub ceiling p.2)
    Prog.onlyIf (c < lo) (Prog.tell (.cond (Cond.eq p.1 b)))

/-- Stage 2 for a bin with a load (bin_packing.cc:993-1018). -/
def loadBounds (t : VarId) (b floor ceiling : Int) (still : List (VarId × Int)) : Prog σ μ Unit := do
  let lo ← Prog.ask (lowerBound · t)
  let hi ← Prog.ask (upperBound · t)
  Prog.onlyIf (floor > lo) (Prog.tell (.cond (Cond.ge t floor)))
  Prog.onlyIf (ceiling < hi) (do
    let c ← Prog.lift (iAdd ceiling 1)
    Prog.tell (.cond (Cond.lt t c)))
  Prog.forEach (decideItem b floor ceiling (if floor > lo then floor else lo) (if ceiling < hi then ceiling else hi)) still

/-- Stage 2 for a bin with a capacity (bin_packing.cc:1020-1028). -/
def limitBounds (c b floor : Int) (still : List (VarId × Int)) : Prog σ μ Unit := do
  Prog.onlyIf (floor > c) Prog.fail
  Prog.forEach (fun p => do
    let f ← Prog.lift (iAdd floor p.2)
    Prog.onlyIf (f > c) (Prog.tell (.cond (Cond.ne p.1 b)))) still

/-- The loop body of `run_stage2` (bin_packing.cc:967-1030), for a bin and its number. -/
def bounds2 (ps : List (VarId × Int)) (q : Cap × Nat) : Prog σ μ Unit := do
  let r ← Prog.ask fun d => scan d q.2 ps 0 0 []
  match q.1 with
  | .inl t => loadBounds t q.2 r.1 r.2.1 r.2.2
  | .inr c => limitBounds c q.2 r.1 r.2.2

/-- `run_stage2` (bin_packing.cc:955-1032). -/
def stage2 (ps : List (VarId × Int)) (bins : List Cap) : Prog σ μ Unit := Prog.forEach (bounds2 ps) bins.zipIdx

end

/-- `can_be_b` and `can_be_notb` for an item (bin_packing.cc:192-196, :572-576 and :837-841). -/
def flags (d : Doms) (b : Int) (x : VarId) : Chk (Bool × Bool) := do
  let c ← inDomain d x b
  let v ← optionalSingleValue d x
  return (c, decide (v ≠ some b))

/-- `per_bin_cap` (bin_packing.cc:172-179). This adds numbers that are not `Integer`s. -/
def total : List Int → Int → Chk Int
  | [], t => .ok t
  | s :: ss, t => do total ss (← rawAdd i64Max t s)

/-- From `fwd[i]` to `fwd[i + 1]` (bin_packing.cc:201-210). -/
def layer (cap : Int) (f : Bool × Bool) (s : Int) : List Int → List Int → Chk (List Int)
  | [], acc => .ok acc
  | w :: ws, acc =>
    let acc' := if f.2 then MinDistance.insertSorted w acc else acc
    if f.1 then do
      let w' ← rawAdd i64Max w s
      layer cap f s ws (if w' ≤ cap then MinDistance.insertSorted w' acc' else acc')
    else layer cap f s ws acc'

/-- `build_fwd_dag` (bin_packing.cc:185-242) from some item on, with the flags of the items and their sizes: the nodes of the layers. All nodes are added to the size of the item, whether or not this is a node (:238). -/
def dag (cap : Int) : List ((Bool × Bool) × Int) → List Int → Chk (List (List Int))
  | [], ws => .ok [ws]
  | (f, s) :: ps, ws => do
    let next ← layer cap f s ws []
    let _ ← AllDifferent.mapAll (rawAdd i64Max · s) ws
    return ws :: (← dag cap ps next)

/-! ## The sweep -/

/-- `recompute_forward` (bin_packing.cc:856-872), from the nodes of a layer that are reachable on, for the layers after it. A bitmap is the list of nodes whose bit is 1; and instead of looking up the positions of successors, the
successors are looked up, which have been computed (see `dag`). -/
def forward : List (List Int) → List ((Bool × Bool) × Int) → List Int → List (List Int)
  | nodes :: layers, (f, s) :: ps, ws =>
    let next := nodes.filter fun v => decide (∃ w ∈ ws, (f.2 = true ∧ v = w) ∨ (f.1 = true ∧ v = w + s))
    next :: forward layers ps next
  | _, _, _ => []

/-- `recompute_backward` (bin_packing.cc:877-892), with `last` for the layer after the last of the items. -/
def backward : List (List Int) → List ((Bool × Bool) × Int) → List Int → List (List Int)
  | nodes :: layers, (f, s) :: ps, last =>
    let rest := backward layers ps last
    (nodes.filter fun w => decide ((f.2 = true ∧ w ∈ rest.headD []) ∨ (f.1 = true ∧ w + s ∈ rest.headD []))) :: rest
  | _, _, last => [last]

/-- `Stage3Scratch` (bin_packing.cc:116-126). This is not restored on backtracking. -/
structure Scratch where
  fwd : List (List Int)
  bwd : List (List Int)
  prev : List (Bool × Bool)
  warm : Bool

/-- bin_packing.cc:1122-1133. -/
def fresh (n : Nat) : Scratch := ⟨List.replicate (n + 1) [], List.replicate (n + 1) [], List.replicate n (false, false), false⟩

/-- The items whose flags have changed (bin_packing.cc:833-849); `first_change` and `last_change` are the first and the last of them. -/
def changes (prev fs : List (Bool × Bool)) : List Nat := (List.range fs.length).filter fun i => decide (fs[i]? ≠ prev[i]?)

/-- Which items have no support (bin_packing.cc:937-952). -/
def unsupported (fs : List (Bool × Bool)) (sizes : List Int) (fwd bwd : List (List Int)) : List Nat :=
  (List.range fs.length).filter fun i => decide ((fs.getD i (false, false)).1 = true ∧
    ¬ ∃ w ∈ fwd.getD i [], w ∈ bwd.getD i [] ∧ w + sizes.getD i 0 ∈ fwd.getD (i + 1) [] ∧ w + sizes.getD i 0 ∈ bwd.getD (i + 1) [])

/-- `run_stage3_for_bin` (bin_packing.cc:819-953), as what becomes of the scratch, and which items are pruned. -/
def sweep (layers : List (List Int)) (sizes : List Int) (fs : List (Bool × Bool)) (sc : Scratch) : Scratch × List Nat :=
  let n := fs.length
  let ps := fs.zip sizes
  if sc.warm = false then
    let fwd := layers.headD [] :: forward layers.tail ps (layers.headD [])
    let bwd := backward layers ps (fwd.getD n [])
    (⟨fwd, bwd, fs, true⟩, unsupported fs sizes fwd bwd)
  else match changes sc.prev fs with
  | [] => (sc, [])
  | first :: more =>
    let last := (first :: more).getLastD 0
    let fwd := sc.fwd.take (first + 1) ++ forward (layers.drop (first + 1)) (ps.drop first) (sc.fwd.getD first [])
    let bwd := if fwd.getD n [] ≠ sc.fwd.getD n [] then backward layers ps (fwd.getD n [])
      else backward layers (ps.take (last + 1)) (sc.bwd.getD (last + 1) []) ++ sc.bwd.drop (last + 2)
    (⟨fwd, bwd, fs, true⟩, unsupported fs sizes fwd bwd)

/-! ## The other strategy -/

/-- A node `to` of a layer that has `parent` of the layer before it among its `predecessors` (bin_packing.cc:585-588), and whether the item is in the bin. A layer, which in the code is a map from nodes to their predecessors,
is the list of these; their order is of no importance. -/
structure Edge where
  to : Int
  parent : Int
  inside : Bool
deriving DecidableEq

/-- A layer (bin_packing.cc:597-625), where `u` is `load_upper_b`. -/
def edges (nodes : List Int) (u : Int) (f : Bool × Bool) (s : Int) (ws : List Int) : List Edge :=
  (ws.flatMap fun w => (if f.2 = true ∧ w ∈ nodes then [⟨w, w, false⟩] else []) ++ (if f.1 = true ∧ w + s ∈ nodes then [⟨w + s, w, true⟩] else [])).filter fun e => decide (e.to ≤ u)

/-- The loop over items (bin_packing.cc:596-658), with the layers so far in reverse, each with the item that leads to it and whether it can be in the bin. -/
def walk (u : Int) : List (List Int) → List (VarId × (Bool × Bool) × Int) → List Int → List (List Edge × VarId × Bool) → List Int × List (List Edge × VarId × Bool)
  | nodes :: layers, (x, f, s) :: ps, ws, done =>
    let es := edges nodes u f s ws
    walk u layers ps (es.map (·.to)).eraseDups ((es, x, f.1) :: done)
  | _, _, ws, done => (ws, done)

/-- The pass from the back (bin_packing.cc:770-798): the items that cannot be in the bin. -/
def back : List (List Edge × VarId × Bool) → List Int → List VarId
  | [], _ => []
  | (es, x, c) :: rest, ws =>
    let left := es.filter fun e => decide (e.to ∈ ws)
    (if c = true ∧ ∀ e ∈ left, e.inside = false then [x] else []) ++ back rest (left.map (·.parent))

/-- `load_upper_b` (bin_packing.cc:594). -/
def upperOf (d : Doms) : Cap → Chk Int
  | .inl t => upperBound d t
  | .inr c => .ok c

/-- What is left of the last layer (bin_packing.cc:663-716). -/
def possible (d : Doms) (q : Cap) (ws : List Int) : Chk (List Int) :=
  match q with
  | .inl t => do
    let ws' ← Disjunctive2D.keep (fun w => do return decide ((← lowerBound d t) ≤ w)) ws
    Disjunctive2D.keep (fun w => inDomain d t w) ws'
  | .inr _ => .ok ws

/-- What is inferred about the load (bin_packing.cc:728-760). -/
def aboutLoad (d : Doms) (q : Cap) (ws : List Int) : Chk (List Lit) :=
  match q, ws with
  | .inr _, _ => .ok []
  | .inl _, [] => .error .ub
  | .inl t, w :: ws => do
    let lo := ws.foldl min w
    let hi ← iAdd (ws.foldl max w) 1
    let vs ← collect (← eachValue d t)
    return .cond (Cond.ge t lo) :: .cond (Cond.lt t hi) :: (vs.filter fun v => decide (v > lo ∧ v < hi ∧ v ∉ w :: ws)).map fun v => .cond (Cond.ne t v)

/-- `propagate_bin` (bin_packing.cc:563-802), for bin `b`: a contradiction, or what is inferred. Nothing is looked up after the first inference. -/
def wholeBin (layers : List (List Int)) (ps : List (VarId × Int)) (q : Cap) (b : Int) (d : Doms) : Chk (Option (List Lit)) := do
  let fs ← AllDifferent.mapAll (fun p => flags d b p.1) ps
  let u ← upperOf d q
  let r := walk u layers.tail ((ps.zip fs).map fun p => (p.1.1, p.2, p.1.2)) [0] []
  let ws ← possible d q r.1
  if ws = [] then return none
  else
    let ls ← aboutLoad d q ws
    return some (ls ++ (back r.2 ws).map fun x => .cond (Cond.ne x b))

/-! ## Posting -/

section
variable {σ μ : Type}

/-- `BinPackingConsistency` and `BinPackingProofStrategy` (bin_packing.hh:29 and :42): `BC`, `GAC` with `PerCall` (which is the default), and `GAC` with `Upfront`. -/
inductive Mode where
  | bc
  | perCall
  | upfront
deriving DecidableEq

/-- One bin of stage 3. The scratch is always fresh here; `binPacking_sweep_idle` in `Props/Cons/BinPacking.lean` shows that it does not matter what it is. -/
def stage3 (mode : Mode) (ps : List (VarId × Int)) (q : (Cap × Nat) × List (List Int)) : Prog σ μ Unit :=
  match mode with
  | .bc => .ret ()
  | .perCall => do
    let fs ← Prog.ask fun d => AllDifferent.mapAll (fun p => flags d q.1.2 p.1) ps
    Prog.forEach (fun i => do
      let p ← Prog.lift (vecAt ps i)
      Prog.tell (.cond (Cond.ne p.1 q.1.2))) (sweep q.2 (ps.map (·.2)) fs (fresh ps.length)).2
  | .upfront => do
    match ← Prog.ask (wholeBin q.2 ps q.1.1 q.1.2) with
    | none => .fail
    | some ls => Prog.forEach (fun l => Prog.tell l) ls

/-- The propagation function (bin_packing.cc:1241-1259). -/
def propagate (mode : Mode) (ps : List (VarId × Int)) (bins : List Cap) (dags : List (List (List Int))) : Prog σ μ PState := do
  stage2 ps bins
  Prog.forEach (stage3 mode ps) (bins.zipIdx.zip dags)
  return .enable

/-- The checks at bin_packing.cc:1079-1105. -/
def refused (items : List VarId) (sizes : List Int) (bins : List Cap) (d : Doms) : Chk Bool := do
  if items.length ≠ sizes.length then return true
  else if ∃ s ∈ sizes, s < 0 then return true
  else if bins = [] then return true
  else if ← anyOf (fun x => do
    let r ← bounds d x
    return decide (r.1 < 0 ∨ r.2 > (bins.length : Int) - 1)) items then return true
  else anyOf (fun q => match q with
    | .inl t => do return decide ((← lowerBound d t) < 0)
    | .inr c => .ok (decide (c < 0))) bins

/-- bin_packing.cc:1118-1135. -/
def dags (ps : List (VarId × Int)) (bins : List Cap) (d : Doms) : Chk (List (List (List Int))) :=
  AllDifferent.mapAll (fun q => do
    let cap ← total (ps.map (·.2)) 0
    let fs ← AllDifferent.mapAll (fun p => flags d q.2 p.1) ps
    dag cap (fs.zip (ps.map (·.2))) [0]) bins.zipIdx

/-- There are graphs unless `_bounds_only` (bin_packing.cc:1108). -/
def graphs (mode : Mode) (ps : List (VarId × Int)) (bins : List Cap) (d : Doms) : Chk (List (List (List Int))) := if mode = .bc then .ok [] else dags ps bins d

/-- `BinPacking` (bin_packing.cc:1077-1261). -/
def install (mode : Mode) (items : List VarId) (sizes : List Int) (bins : List Cap) (d : Doms) : Chk (List (Item σ μ)) := do
  if ← refused items sizes bins d then throw .invalidProblem
  else
    let ds ← graphs mode (items.zip sizes) bins d
    return [.prop (propagate mode (items.zip sizes) bins ds) { onChange := items, onBounds := bins.filterMap Sum.getLeft? }]

/-- The form with loads (bin_packing.cc:1046-1049). -/
def installLoads (mode : Mode) (items : List VarId) (sizes : List Int) (loads : List VarId) : Doms → Chk (List (Item σ μ)) := install mode items sizes (loads.map .inl)

/-- The form with capacities (bin_packing.cc:1051-1054). -/
def installCapacities (mode : Mode) (items : List VarId) (sizes capacities : List Int) : Doms → Chk (List (Item σ μ)) := install mode items sizes (capacities.map .inr)

end
end Gcs.BinPacking
