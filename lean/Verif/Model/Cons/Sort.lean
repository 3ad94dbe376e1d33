import Verif.Model.Cons.Matching
import Verif.Model.Cons.AllDifferent

/-!
# Sort (gcs/constraints/sort/sort.cc)

The bounds of all variables are read at the start, and everything is computed from them; only then are inferences made. All of this is on `long long` and `size_t`, so `U + 1` is undefined if there is no such `long long`. When
an inference is not an obvious one, a set that shows it to be right is looked for, with or without proof logging, and if there is none then `UnexpectedException` is thrown. Not modelled: anything that is only for proofs
(the initialiser does nothing else).
-/

namespace Gcs.Sort
open Gac

/-- The bounds as they are read (sort.cc:198-208). `olx` and `oux` are the same as `lx` and `ux`, which are not written to. -/
structure Snap where
  n : Nat
  lx : Nat → Int
  ux : Nat → Int
  oly : Nat → Int
  ouy : Nat → Int

/-- `ly`, once normalised (sort.cc:212-213). -/
def Snap.ly (s : Snap) : Nat → Int
  | 0 => s.oly 0
  | j + 1 => max (s.oly (j + 1)) (s.ly j)

/-- `uy[n - 1 - k]`, once normalised (sort.cc:214-215). -/
def Snap.uyBack (s : Snap) : Nat → Int
  | 0 => s.ouy (s.n - 1)
  | k + 1 => min (s.ouy (s.n - 1 - (k + 1))) (s.uyBack k)

def Snap.uy (s : Snap) (j : Nat) : Int := s.uyBack (s.n - 1 - j)

/-- sort.cc:216-217. -/
def Snap.crossed (s : Snap) : Bool := (List.range s.n).any fun j => decide (s.ly j > s.uy j)

/-- `lo_i` (sort.cc:255). `lower_bound` searches for the first one that is not smaller, in something sorted. -/
def Snap.lo (s : Snap) (i : Nat) : Nat := (List.range s.n).findIdx fun j => decide (s.lx i ≤ s.uy j)

/-- `hi_i` (sort.cc:256). `upper_bound` searches for the first one that is larger, in something sorted. -/
def Snap.hi (s : Snap) (i : Nat) : Nat := (List.range s.n).findIdx fun j => decide (s.ux i < s.ly j)

/-- `cand` (sort.cc:273-276), with `c` for `b + 1`. -/
def inside (n : Nat) (lo hi : Nat → Nat) (a c : Nat) : List Nat := (List.range n).filter fun i => decide (a ≤ lo i ∧ hi i ≤ c)

/-- `find_band` (sort.cc:270-281), without the two ends, which are only for proofs. -/
def findBand (n : Nat) (lo hi : Nat → Nat) : Option (List Nat) :=
  (List.range (n + 1)).findSome? fun a => (List.range' a (n + 1 - a)).findSome? fun c =>
    if (inside n lo hi a c).length > c - a then some (inside n lo hi a c) else none

/-- The top of a priority queue, where `before a b` is that `a` is closer to the top than `b`. -/
def top (before : Nat → Nat → Bool) : List Nat → Option Nat
  | [] => none
  | i :: is => some (is.foldl (fun t k => if before k t then k else t) i)

/-- The two sweeps (sort.cc:332-352, and :356-377, where the positions are from the last to the first). `enters j i` is the condition of the inner loop. Since `by_lx` and `by_ux` are sorted by what it compares,
that loop takes everything it holds for that is not taken yet, whatever order `sort` leaves equal ones in. `none` is that `fail_hall` is called. -/
def sweep (enters fits before : Nat → Nat → Bool) : List Nat → List Nat → List Nat → Option (List Nat)
  | [], _, _ => some []
  | j :: js, waiting, queue =>
    let queue := queue ++ waiting.filter (enters j)
    match top before queue with
    | none => none
    | some i => if fits j i then (sweep enters fits before js (waiting.filter fun i => !enters j i) (queue.erase i)).map (i :: ·) else none

/-- `phi`, as a list (sort.cc:332-352). Pairs are compared by their first components first. -/
def Snap.down (s : Snap) : Option (List Nat) :=
  sweep (fun j i => decide (s.lx i ≤ s.uy j)) (fun j i => decide (s.ly j ≤ s.ux i)) (fun a b => decide (s.ux a < s.ux b ∨ s.ux a = s.ux b ∧ a < b)) (List.range s.n) (List.range s.n) []

/-- `phi2`, as a list in reverse (sort.cc:356-377). -/
def Snap.up (s : Snap) : Option (List Nat) :=
  sweep (fun j i => decide (s.ly j ≤ s.ux i)) (fun j i => decide (s.lx i ≤ s.uy j)) (fun a b => decide (s.lx b < s.lx a ∨ s.lx b = s.lx a ∧ b < a)) (List.range s.n).reverse (List.range s.n) []

/-- The edges that `strong_connect` follows (sort.cc:418-424). -/
def Snap.succ (s : Snap) (phi : Nat → Nat) (v : Nat) : List Nat :=
  if v < s.n then (List.range' (s.lo v) (s.hi v - s.lo v)).map (s.n + ·) else [phi (v - s.n)]

/-- The positions that number `i` can be moved to (sort.cc:462-469). -/
def Snap.near (s : Snap) (comp : Nat → Nat) (i : Nat) : List Nat := (List.range' (s.lo i) (s.hi i - s.lo i)).filter fun j => comp (s.n + j) = comp i

/-- `jl_in`, `jh_in`, `nlx` and `nux` for number `i` (sort.cc:459-473). If there is no such position then `jl` is `n`, and `ly[jl]` is out of bounds. -/
def Snap.span (s : Snap) (comp : Nat → Nat) (i : Nat) : Chk (Nat × Nat × Int × Int) :=
  match s.near comp i with
  | [] => .error .ub
  | j :: js => .ok (j, (j :: js).getLast (by simp), max (s.lx i) (s.ly j), min (s.ux i) (s.uy ((j :: js).getLast (by simp))))

/-- Whether what `find_band` looks for is there. -/
def certify (b : Bool) : Chk Unit := if b then .ok () else .error .unexpected

/-- Whether the new lower bound of `y[j]` is explained: sort.cc:495-500, :516, and :586-591. -/
def Snap.aboveOK (s : Snap) (p2 : Nat → Nat) (j : Nat) (L : Int) : Bool :=
  decide (s.ly j > s.oly j ∧ s.ly j ≥ s.lx (p2 j)) || decide (((List.range s.n).filter fun i => decide (s.lx i ≥ L)).length ≥ s.n - j) ||
    (findBand s.n (fun i => if s.lx i ≥ L then max (s.lo i) (j + 1) else s.lo i) s.hi).isSome

/-- Whether the new upper bound of `y[j]` is explained: sort.cc:654-658, :677, and :769-774. -/
def Snap.belowOK (s : Snap) (p1 : Nat → Nat) (j : Nat) (U : Int) : Bool :=
  decide (s.uy j < s.ouy j ∧ s.uy j ≤ s.ux (p1 j)) || decide (((List.range s.n).filter fun i => decide (s.ux i ≤ U)).length ≥ j + 1) ||
    (findBand s.n s.lo (fun i => if s.ux i ≤ U then min (s.hi i) j else s.hi i)).isSome

/-- Whether there is a set that `find_band` finds with `i` in it. -/
def hasIt (i : Nat) : Option (List Nat) → Bool
  | none => false
  | some S => decide (i ∈ S)

/-- Whether the new lower bound of `x[i]` is explained: sort.cc:843, and :860-865. -/
def Snap.fromOK (s : Snap) (i jl : Nat) : Bool := decide (jl = s.lo i) || hasIt i (findBand s.n s.lo (put s.hi i jl))

/-- Whether the new upper bound of `x[i]` is explained: sort.cc:915, and :929-934. -/
def Snap.toOK (s : Snap) (i jh : Nat) : Bool := decide (jh + 1 = s.hi i) || hasIt i (findBand s.n (put s.lo i (jh + 1)) s.hi)

section
variable {σ μ : Type}

/-- `fail_hall` (sort.cc:283-328). -/
def Snap.failHall (s : Snap) : Prog σ μ Unit := do
  Prog.lift (certify (findBand s.n s.lo s.hi).isSome)
  Prog.fail

/-- The body of the first loop of inferences (sort.cc:487-832), with `nly[j]` and `nuy[j]` from :381-384. -/
def Snap.inferY (s : Snap) (p1 p2 : Nat → Nat) (j : Nat) (y : VarId) : Prog σ μ Unit := do
  Prog.onlyIf (max (s.lx (p2 j)) (s.ly j) > s.oly j) (do
    Prog.lift (certify (s.aboveOK p2 j (max (s.lx (p2 j)) (s.ly j))))
    Prog.tell (.cond (Cond.ge y (max (s.lx (p2 j)) (s.ly j)))))
  Prog.onlyIf (min (s.ux (p1 j)) (s.uy j) < s.ouy j) (do
    Prog.lift (certify (s.belowOK p1 j (min (s.ux (p1 j)) (s.uy j))))
    let u ← Prog.lift (rawAdd i64Max (min (s.ux (p1 j)) (s.uy j)) 1)
    Prog.tell (.cond (Cond.lt y u)))

/-- The body of the second loop of inferences (sort.cc:833-979). -/
def Snap.inferX (s : Snap) (i : Nat) (t : Nat × Nat × Int × Int) (x : VarId) : Prog σ μ Unit := do
  Prog.onlyIf (t.2.2.1 > s.lx i) (do
    Prog.lift (certify (s.fromOK i t.1))
    Prog.tell (.cond (Cond.ge x t.2.2.1)))
  Prog.onlyIf (t.2.2.2 < s.ux i) (do
    Prog.lift (certify (s.toOK i t.2.1))
    let u ← Prog.lift (rawAdd i64Max t.2.2.2 1)
    Prog.tell (.cond (Cond.lt x u)))

/-- Once there are both matchings (sort.cc:379-979). -/
def Snap.narrow (s : Snap) (x y : List VarId) (p1 p2 : Nat → Nat) : Prog σ μ Unit := do
  let c ← Prog.lift (Scc.roots true (s.succ p1) (2 * s.n) (List.range (2 * s.n)) {})
  let ts ← Prog.lift (AllDifferent.mapAll (s.span c.comp) (List.range s.n))
  Prog.forEach (fun j => do
    let v ← Prog.lift (vecAt y j)
    s.inferY p1 p2 j v) (List.range s.n)
  Prog.forEach (fun i => do
    let v ← Prog.lift (vecAt x i)
    let t ← Prog.lift (vecAt ts i)
    s.inferX i t v) (List.range s.n)

/-- From the bounds that were read on (sort.cc:210-979). -/
def Snap.go (s : Snap) (x y : List VarId) : Prog σ μ Unit :=
  if s.crossed then Prog.fail
  else match s.down with
  | none => s.failHall
  | some phi =>
    match s.up with
    | none => s.failHall
    | some phi2 => s.narrow x y (phi.getD · 0) (phi2.reverse.getD · 0)

/-- What is read. -/
def Snap.of (bx bys : List (Int × Int)) : Snap := ⟨bx.length, fun i => (bx.getD i (0, 0)).1, fun i => (bx.getD i (0, 0)).2, fun j => (bys.getD j (0, 0)).1, fun j => (bys.getD j (0, 0)).2⟩

/-- `propagate_sortedness` (sort.cc:189-980). -/
def sortedness (x y : List VarId) : Prog σ μ Unit := do
  let bx ← Prog.ask fun d => AllDifferent.mapAll (bounds d ·) x
  let bys ← Prog.ask fun d => AllDifferent.mapAll (bounds d ·) y
  (Snap.of bx bys).go x y

/-- `install_sortedness_propagator` (sort.cc:983-1114). -/
def propagator (x y : List VarId) : Item σ μ := .prop (do
  sortedness x y
  return .enable) { onBounds := x ++ y }

/-- `Sort` (sort.cc:69-75 and :1116-1119). -/
def install (x y : List VarId) (_ : Doms) : Chk (List (Item σ μ)) :=
  if x.length ≠ y.length then .error .invalidProblem else if x = [] then .ok [] else .ok [propagator x y]

end
end Gcs.Sort
