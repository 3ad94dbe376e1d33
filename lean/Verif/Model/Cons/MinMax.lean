import Verif.Model.Cons.Equals

/-!
# Smallest and largest of several variables (`gcs/constraints/min_max`)

The parameter `mn` says whether it is the smallest (`ArrayMin`, `Min`) or the largest (`ArrayMax`, `Max`).
-/

namespace Gcs
open IntervalSet

namespace MinMax

/-- gcs/constraints/min_max/min_max.cc:137, whether a value of the result is possible for a variable. -/
def supports (d : Doms) (result var : VarId) : Chk Bool := do anyOfGen (inDomain d var ·) (← eachValue d result)

/-- gcs/constraints/min_max/min_max.cc:135-145: the first two variables that have a value in common with the result. -/
def findSupports (d : Doms) (result : VarId) : Option VarId → List VarId → Chk (Option VarId × Option VarId)
  | s, [] => .ok (s, none)
  | none, x :: xs => do if ← supports d result x then findSupports d result (some x) xs else findSupports d result none xs
  | some y, x :: xs => do if ← supports d result x then return (some y, some x) else findSupports d result (some y) xs

/-- One round of gcs/constraints/min_max/min_max.cc:256 and :269. -/
def tighter (mn : Bool) (acc : Option Int) (x : Int) : Option Int := some (match acc with
  | none => x
  | some y => if mn then min y x else max y x)

/-- gcs/constraints/min_max/min_max.cc:250-257, over the other variables. -/
def limit (d : Doms) (mn : Bool) : Option Int → List VarId → Chk (Option Int)
  | acc, [] => .ok acc
  | acc, x :: xs => do
    let b ← bounds d x
    limit d mn (tighter mn acc (if mn then b.2 else b.1)) xs

/-- `lim && (min ? r > *lim : r < *lim)` -/
def beyond (mn : Bool) (lim : Option Int) (r : Int) : Bool := match lim with
  | none => false
  | some l => if mn then r > l else r < l

/-- One round of gcs/constraints/min_max/min_max.cc:258-270. -/
def extreme (d : Doms) (mn : Bool) (others : List VarId) (lim : Option Int) : Option Int → List Int → Chk (Option Int)
  | acc, [] => .ok acc
  | acc, r :: rs => do
    if beyond mn lim r then extreme d mn others lim acc rs
    else if ← anyOf (inDomain d · r) others then extreme d mn others lim (tighter mn acc r) rs
    else extreme d mn others lim acc rs

/-- The same with what ends the generator. -/
def extremeGen (d : Doms) (mn : Bool) (others : List VarId) (lim : Option Int) (g : Gen Int) : Chk (Option Int) := do
  let r ← extreme d mn others lim none g.1
  match g.2 with
  | none => return r
  | some e => throw e

section
variable {σ μ : Type}

/-- gcs/constraints/min_max/min_max.cc:84-92, for one variable. -/
def pushResult (mn : Bool) (result var : VarId) : Prog σ μ Unit := do
  let b ← Prog.ask (bounds · var)
  if mn then Prog.tell (.cond (Cond.lt result (← Prog.lift (iAdd b.2 1))))
  else Prog.tell (.cond (Cond.ge result b.1))

/-- gcs/constraints/min_max/min_max.cc:96-103, for one variable. -/
def pushVar (mn : Bool) (result : VarId) (low : Int) (var : VarId) : Prog σ μ Unit :=
  if mn then Prog.tell (.cond (Cond.ge var low))
  else do
    let u ← Prog.ask (upperBound · result)
    Prog.tell (.cond (Cond.lt var (← Prog.lift (iAdd u 1))))

/-- gcs/constraints/min_max/min_max.cc:106-132, for one value. -/
def pruneResult (vars : List VarId) (result : VarId) (value : Int) : Prog σ μ Unit := do
  if ← Prog.ask fun d => anyOf (inDomain d · value) vars then return
  else Prog.tell (.cond (Cond.ne result value))

/-- gcs/constraints/min_max/min_max.cc:134-225. -/
def onlySupport (vars : List VarId) (result : VarId) : Prog σ μ Unit := do
  match ← Prog.ask (findSupports · result none vars) with
  | (none, _) => Prog.raise .unexpected
  | (some _, some _) => return
  | (some v, none) => do
    let s ← Prog.ask (copyOfValues · v)
    let t ← Prog.ask (copyOfValues · result)
    Equals.prune (v.isSimple && result.isSimple) v s t

/-- gcs/constraints/min_max/min_max.cc:271-291, for one value. -/
def pruneVar (mn : Bool) (result var : VarId) (lim other : Option Int) (v : Int) : Prog σ μ Unit := do
  let asExtreme ← Prog.ask fun d => do return (← inDomain d result v) && !(beyond mn lim v)
  let underOther := match other with
    | none => false
    | some o => if mn then decide (v > o) else decide (v < o)
  Prog.onlyIf (asExtreme = false ∧ underOther = false) (Prog.tell (.cond (Cond.ne var v)))

/-- gcs/constraints/min_max/min_max.cc:249-292, for the variable at place `i`. -/
def gac (mn : Bool) (vars : List VarId) (result : VarId) (i : Nat × VarId) : Prog σ μ Unit := do
  let others := vars.eraseIdx i.1
  let lim ← Prog.ask (limit · mn none others)
  let other ← Prog.ask fun d => do extremeGen d mn others lim (← eachValue d result)
  let g ← Prog.ask (eachValue · i.2)
  Prog.forGen (pruneVar mn result i.2 lim other) g

/-- The propagation function (gcs/constraints/min_max/min_max.cc:82-296). -/
def prop (mn : Bool) (vars : List VarId) (result : VarId) : Prog σ μ PState := do
  Prog.forEach (pushResult mn result) vars
  let b ← Prog.ask (bounds · result)
  Prog.forEach (pushVar mn result b.1) vars
  let g ← Prog.ask (eachValue · result)
  Prog.forGen (pruneResult vars result) g
  onlySupport vars result
  Prog.forEach (gac mn vars result) ((List.range vars.length).zip vars)
  return .enable

/-- gcs/constraints/min_max/min_max.cc:40-45 and :73-298. -/
def install (mn : Bool) (vars : List VarId) (result : VarId) (_ : Doms) : Chk (List (Item σ μ)) :=
  if vars = [] then .error .invalidProblem
  else .ok [.prop (prop mn vars result) { onChange := result :: vars }]

end
end MinMax
end Gcs
