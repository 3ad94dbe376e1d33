import Verif.Model.Cons.Steps
import Verif.Model.Cons.Matching

/-!
# AllDifferent, AllDifferentExcept (`gcs/constraints/all_different`)

The matching is kept between calls in a structure that the propagation function owns and that is not restored on backtracking (`GacAllDifferentScratch`, gac_all_different.cc:89-167). What it has in it at a call
is `old`, of which only the number of propagations so far is known: anything in which no value occurs twice. What a call leaves there is like that (`build_injective`). All other parts of the structure are
overwritten before they are read, but for the table of values, which depends on the values only.
-/

namespace Gcs

/-- `operator<=>` for `IntegerVariableID` (gcs/variable_id.hh:26-99): the alternatives of the variant in order, then the members. -/
def VarId.le : VarId → VarId → Bool
  | .simple i, .simple j => decide (i ≤ j)
  | .simple _, _ => true
  | .view _ _ _, .simple _ => false
  | .view i n k, .view j m l => decide (i < j) || (decide (i = j) && ((!n && m) || (n == m && decide (k ≤ l))))
  | .view _ _ _, .const _ => true
  | .const c, .const d => decide (c ≤ d)
  | .const _, _ => false

/-- `sort(xs)`, for an order in which only equal elements are of the same rank, so that any sorting algorithm gives the same. -/
def insertBy {α : Type} (le : α → α → Bool) (x : α) : List α → List α
  | [] => [x]
  | y :: ys => if le x y then x :: y :: ys else y :: insertBy le x ys

def sortBy {α : Type} (le : α → α → Bool) : List α → List α
  | [] => []
  | x :: xs => insertBy le x (sortBy le xs)

/-- `adjacent_find(xs) != xs.end()` -/
def repeats : List VarId → Bool
  | x :: y :: rest => decide (x = y) || repeats (y :: rest)
  | _ => false

namespace AllDifferent
open IntervalSet

/-- The loop at gac_all_different.cc:755-756, from the value with index `r` on. -/
def probe (d : Doms) (v : VarId) : Nat → List Int → Chk (List Nat)
  | _, [] => .ok []
  | r, y :: ys => do
    let b ← inDomain d v y
    let rs ← probe d v (r + 1) ys
    return if b then r :: rs else rs

/-- The least and the greatest value, `minmax_element` (gac_all_different.cc:715). -/
def least (y : Int) : List Int → Int
  | [] => y
  | z :: zs => least (if z < y then z else y) zs

def greatest (y : Int) : List Int → Int
  | [] => y
  | z :: zs => greatest (if z < y then y else z) zs

/-- gac_all_different.cc:707-725: the least value and the number of slots, if there is a table. In the code this is done in the first call only; if it throws there, solving ends. -/
def table : List Int → Chk (Option (Int × Nat))
  | [] => .ok none
  | y :: ys =>
    if (y :: ys).length ≥ 24 then do
      let lo := least y ys
      let w ← iSub (greatest y ys) lo
      let span := w.toNat + 1
      return if span ≤ 64 * (y :: ys).length + 1024 then some (lo, span) else none
    else .ok none

/-- gac_all_different.cc:741-745, for a value: the index it marks. `val_to_idx_plus_one[y - lo]` is one more than the index of `y` if `y` is one of the values, as no value is there twice; else it is 0. -/
def slot (vals : List Int) (t : Int × Nat) (y : Int) : Chk (Option Nat) := do
  if y < t.1 then return none
  else
    let o ← iSub y t.1
    if o.toNat < t.2 then return vals.idxOf? y else return none

/-- gac_all_different.cc:740-746. -/
def marks (vals : List Int) (t : Int × Nat) : List Int → Chk (List Nat)
  | [] => .ok []
  | y :: ys => do
    let r ← slot vals t y
    let rs ← marks vals t ys
    return r.toList ++ rs

/-- gac_all_different.cc:739-749. Values are looked up as they are enumerated in the code, so an exception from the enumeration comes after ones from looking up. -/
def sweep (d : Doms) (vals : List Int) (t : Int × Nat) (v : VarId) : Chk (List Nat) := do
  let g ← eachValue d v
  let ms ← marks vals t g.1
  match g.2 with
  | some e => throw e
  | none => return (List.range vals.length).filter fun r => decide (r ∈ ms)

/-- `for (auto & x : xs) ...`, with the results. -/
def mapAll {α β : Type} (f : α → Chk β) : List α → Chk (List β)
  | [] => .ok []
  | x :: xs => do
    let y ← f x
    let ys ← mapAll f xs
    return y :: ys

/-- The loop at gac_all_different.cc:773-780: the phantoms, and the number of vertices on the right. -/
def phantoms (d : Doms) (excluded : List Int) : Nat → List VarId → Chk (List (Option Nat) × Nat)
  | k, [] => .ok ([], k)
  | k, v :: vs => do
    if ← anyOf (inDomain d v ·) excluded then
      let x ← phantoms d excluded (k + 1) vs
      return (some k :: x.1, x.2)
    else
      let x ← phantoms d excluded k vs
      return (none :: x.1, x.2)

/-- gac_all_different.cc:730-758: the edges to values, for each variable. -/
def edges (d : Doms) (vars : List VarId) (vals : List Int) : Option (Int × Nat) → Chk (List (List Nat))
  | none => mapAll (fun v => probe d v 0 vals) vars
  | some t => mapAll (sweep d vals t) vars

/-- gac_all_different.cc:703-783. -/
def graph (d : Doms) (vars : List VarId) (vals excluded : List Int) : Chk Gac.Graph := do
  let t ← table vals
  let es ← edges d vars vals t
  let ps ← phantoms d excluded vals.length vars
  return ⟨vars.length, vals.length, ps.2, fun i => es.getD i [] ++ (ps.1.getD i none).toList⟩

section
variable {σ μ : Type}

/-- `tracker.infer(vars[i] != vals[r])` -/
def delete (vars : List VarId) (vals : List Int) (e : Nat × Nat) : Prog σ μ Unit := do
  let v ← Prog.lift (vecAt vars e.1)
  let y ← Prog.lift (vecAt vals e.2)
  Prog.tell (.cond (Cond.ne v y))

/-- `propagate_gac_all_different` (gac_all_different.cc:698-938). -/
def gac (vars : List VarId) (vals excluded : List Int) (old : Nat → List (Option Nat)) : Prog σ μ Unit := .read fun s => do
  let G ← Prog.lift (graph s.doms vars vals excluded)
  match ← Prog.lift (Gac.prune G (if excluded = [] then old s.total else [])) with
  | none => Prog.tell .ff
  | some dels => Prog.forEach (delete vars vals) dels

/-- The inner loop at all_different.cc:113-115 and all_different_except.cc:107-110, for the values of a variable. -/
def addVals (excluded : List Int) : List Int → List Int → List Int
  | acc, [] => acc
  | acc, y :: ys => if y ∈ excluded ∨ y ∈ acc then addVals excluded acc ys else addVals excluded (acc ++ [y]) ys

/-- The loop at all_different.cc:112-115 and all_different_except.cc:106-110. -/
def compress (d : Doms) (excluded : List Int) : List Int → List VarId → Chk (List Int)
  | acc, [] => .ok acc
  | acc, v :: vs => do compress d excluded (addVals excluded acc (← collect (← eachValue d v))) vs

/-- Failing at once (encoding.cc:41-47). -/
def refuse : Item σ μ := .init .simpleDefinition Prog.fail

/-- The propagation function at all_different.cc:161-211, without the first stage. -/
def gacProp (vars : List VarId) (vals : List Int) (old : Nat → List (Option Nat)) : Prog σ μ PState := do
  gac vars vals [] old
  return .enableButIdempotent

end
end AllDifferent

namespace AllDifferentExcept

section
variable {σ μ : Type}

/-- The loop at all_different_except.cc:94-100: variables that occur more than once in the sorted list, once each; and all_different_except.cc:183, every variable once. -/
def dups : List VarId → List VarId
  | x :: y :: rest => if x = y then (if (dups (y :: rest)).head? = some y then dups (y :: rest) else y :: dups (y :: rest)) else dups (y :: rest)
  | _ => []

def once {α : Type} [DecidableEq α] : List α → List α
  | x :: y :: rest => if x = y then once (y :: rest) else x :: once (y :: rest)
  | xs => xs

/-- The initialiser at all_different_except.cc:157-176, for one variable. -/
def exclude (excluded : List Int) (x : VarId) : Prog σ μ Unit := do
  let g ← Prog.ask (eachValue · x)
  let ys ← Prog.lift (collect g)
  Prog.forEach (fun y => Prog.tell (.cond (Cond.ne x y))) (ys.filter fun y => y ∉ excluded)

/-- The propagation function at all_different_except.cc:193-196. -/
def prop (vars : List VarId) (vals excluded : List Int) (old : Nat → List (Option Nat)) : Prog σ μ PState := do
  AllDifferent.gac vars vals excluded old
  return .enable

/-- all_different_except.cc:71-81: the excluded values, sorted and without repetition, that some variable can have. -/
def usable (d : Doms) (vars : List VarId) : List Int → Chk (List Int)
  | [] => .ok []
  | y :: ys => do
    let b ← anyOf (inDomain d · y) vars
    let zs ← usable d vars ys
    return if b then y :: zs else zs

/-- `AllDifferentExcept` (all_different_except.cc:62-199). -/
def install (vars : List VarId) (excluded : List Int) (old : Nat → List (Option Nat)) (d : Doms) : Chk (List (Item σ μ)) := do
  let vs := sortBy VarId.le vars
  let ex ← usable d vs (once (sortBy (fun x y => decide (x ≤ y)) excluded))
  let vals ← AllDifferent.compress d ex [] vs
  if repeats vs then
    if excluded = [] then return [AllDifferent.refuse]
    else return [.init .simpleDefinition (Prog.forEach (exclude ex) (dups vs)), .prop (prop (once vs) vals ex old) { onChange := once vs }]
  else return [.prop (prop vs vals ex old) { onChange := vs }]

end
end AllDifferentExcept
end Gcs
