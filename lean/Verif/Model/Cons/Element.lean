import Verif.Model.Cons.Inverse
import Verif.Model.Cons.Equals

/-!
# Element (`gcs/constraints/element/element.cc`)

For any number of dimensions. An index variable comes with the number its dimension is indexed from.
-/

namespace Gcs
open IntervalSet

/-- `MakeNDVector<IntegerVariableID, k>::Type` (element.hh:18-31). The entries of `MakeNDVector<Integer, k>` are represented as constants. -/
def Arr : Nat → Type
  | 0 => VarId
  | k + 1 => List (Arr k)

/-- The elements of the first dimension. -/
def Arr.rows {k : Nat} (A : Arr (k + 1)) : List (Arr k) := A

namespace Element

/-- `get_array_var` and `get_array_value` (element.cc:115-143). -/
def entry : (k : Nat) → Arr k → List Int → Chk VarId
  | 0, v, _ => .ok v
  | _ + 1, _, [] => .error .ub
  | k + 1, rows, p :: ps => do entry k (← atIndex (Arr.rows rows) p) ps

/-- All entries (`collect_array_variables`, element.cc:263-277), for an array with regular dimensions. -/
def entries : (k : Nat) → Arr k → List VarId
  | 0, v => [v]
  | k + 1, rows => (Arr.rows rows).flatMap (entries k)

/-- The numbers of elements in each dimension (`get_dimension_size`, element.cc:91-103), up to the first that is empty. -/
def sizes : (k : Nat) → Arr k → List Nat
  | 0, _ => []
  | k + 1, A => A.rows.length :: match A.rows with
    | [] => []
    | r :: _ => sizes k r

/-- The number of elements, of an array that has at least one dimension. -/
def len : (k : Nat) → Arr k → Nat
  | 0, _ => 0
  | _ + 1, A => A.rows.length

/-- `check_array_dimensions` (element.cc:61-80). There it ends with the last dimension, for which here the elements are asked as well, and say yes. -/
def check : (k : Nat) → Arr k → Nat → Bool
  | 0, _, _ => true
  | k + 1, A, n => decide (A.rows.length = n) && A.rows.all fun r => check k r (match A.rows with | [] => 0 | r :: _ => len k r)

/-- `any_array_variable_is_nonconstant` (element.cc:145-162). -/
def nonconstants (d : Doms) (vs : List VarId) : Chk Bool := anyOf (fun v => do return ! (← hasSingleValue d v)) vs

/-- `scope_has_aliasing` (element.cc:290-312): a variable occurs twice. They are sorted there, and neighbours compared. -/
def aliased (vs : List VarId) : Bool := decide (¬ (vs.filterMap VarId.underlyingIndex).Nodup)

section
variable (ints : Bool) (k : Nat) (A : Arr k) (result : VarId)

/-- Whether an entry can have a value of the result (element.cc:353-369). `ints` is whether the array is of integers. -/
def supports (d : Doms) (v : VarId) : Chk Bool :=
  match ints, v with
  | true, .const c => inDomain d result c
  | _, _ => domainsIntersect d v result

/-- `look_for_support` (element.cc:348-390), for index variables from number `j` on, with the positions in the dimensions before. -/
def support (d : Doms) (dim : Nat) (val : Int) : Nat → List (VarId × Int) → List Int → Chk Bool
  | _, [], elem => do supports ints result d (← entry k A elem)
  | j, (v, s) :: rest, elem => do
    if j = dim then support d dim val (j + 1) rest (elem ++ [← iSub val s])
    else anyOfGen (fun x => do support d dim val (j + 1) rest (elem ++ [← iSub x s])) (← eachValue d v)

/-- A loop that may stop early, with the state `b`. -/
def foldGen {β : Type} (stop : β → Bool) (f : β → Int → Chk β) : β → List Int → Option Err → Chk β
  | b, [], none => .ok b
  | _, [], some e => .error e
  | b, x :: xs, e => do if stop b then return b else foldGen stop f (← f b x) xs e

/-- The nested loops of `collect_supported_bounds` (element.cc:468-503) and `collect_supported_values` (element.cc:577-612). -/
def visit {β : Type} (d : Doms) (stop : β → Bool) (leaf : β → List Int → Chk β) : List (VarId × Int) → List Int → β → Chk β
  | [], elem, b => leaf b elem
  | (v, s) :: rest, elem, b => do
    let g ← eachValue d v
    foldGen stop (fun b x => do visit d stop leaf rest (elem ++ [← iSub x s]) b) b g.1 g.2

/-- Taking away the values of an entry (element.cc:584-604). -/
def discount (d : Doms) (s : IntervalSet) (elem : List Int) : Chk IntervalSet := do
  let v ← entry k A elem
  match ints, v with
  | true, .const c => return erase c s
  | _, _ =>
    let b ← bounds d v
    let n ← iAdd (← iSub b.2 b.1) 1
    if (← domainSize d v) = n then return eraseRange b.1 b.2 s
    else
      let g ← eachValue d v
      foldGen (fun _ => false) (fun s x => .ok (erase x s)) s g.1 g.2

/-- Taking the bounds of an entry into account (element.cc:475-495). The bounds of an integer are the integer. -/
def widen (d : Doms) (cur : Int × Int) (found : Option (Int × Int)) (elem : List Int) : Chk (Option (Int × Int)) := do
  let b ← bounds d (← entry k A elem)
  if cur.2 ≥ b.1 ∧ cur.1 ≤ b.2 then
    match found with
    | none => return some b
    | some f => return some (if b.1 < f.1 then b.1 else f.1, if f.2 < b.2 then b.2 else f.2)
  else return found

/-- element.cc:470-471. -/
def covered (cur : Int × Int) : Option (Int × Int) → Bool
  | none => false
  | some f => decide (f.1 ≤ cur.1 ∧ f.2 ≥ cur.2)

/-- The values of the index variables, if all have one (element.cc:669-680), as positions. -/
def fixedAt (d : Doms) : List (VarId × Int) → Chk (Option (List Int))
  | [] => .ok (some [])
  | (v, s) :: rest => do
    match ← optionalSingleValue d v with
    | none => return none
    | some x =>
      let p ← iSub x s
      match ← fixedAt d rest with
      | none => return none
      | some ps => return some (p :: ps)

end

section
variable {σ μ : Type} (ints : Bool) (k : Nat) (A : Arr k) (result : VarId) (idx : List (VarId × Int))

def claim (al : Bool) : PState := if al then .enable else .enableButIdempotent

/-- The propagation function for an index variable (element.cc:329-450). -/
def indexProp (al : Bool) (dim : Nat) (x : VarId) : Prog σ μ PState := do
  let g ← Prog.ask (eachValue · x)
  Prog.forGen (fun val => do
    let b ← Prog.ask fun d => support ints k A result d dim val 0 idx []
    Prog.onlyIf (b = false) (Prog.tell (.cond (Cond.ne x val)))) g
  return claim al

/-- The propagation function for the bounds of the result (element.cc:459-561). -/
def boundsProp : Prog σ μ PState := do
  let cur ← Prog.ask (bounds · result)
  let found ← Prog.ask fun d => visit d (covered cur) (widen k A d cur) idx [] none
  match found with
  | none => return .enable
  | some f =>
    Prog.onlyIf (f.1 > cur.1) (Prog.tell (.cond (Cond.ge result f.1)))
    Prog.onlyIf (f.2 < cur.2) (do Prog.tell (.cond (← Prog.lift (Cond.le result f.2))))
    return .enable

/-- The propagation function for the values of the result (element.cc:570-655). -/
def valuesProp (al : Bool) : Prog σ μ PState := do
  let s0 ← Prog.ask (copyOfValues · result)
  let s ← Prog.ask fun d => visit d IntervalSet.isEmpty (discount ints k A d) idx [] s0
  Prog.forGen (fun v => Prog.tell (.cond (Cond.ne result v))) (each s)
  return claim al

/-- The propagation function for the entry that is chosen (element.cc:664-701). -/
def equalityProp (al : Bool) : Prog σ μ PState := do
  match ← Prog.ask (fixedAt · idx) with
  | none => return claim al
  | some ps =>
    let v ← Prog.lift (entry k A ps)
    let _ ← Equals.enforce result v
    return claim al

/-- The initialisers that trim the index variables (element.cc:180-184). -/
def defineIndices (d : Doms) : List (VarId × Int) → List Nat → Chk (List (Item σ μ))
  | (v, s) :: rest, n :: ns => do
    let is ← defineRange d s n [v]
    let js ← defineIndices d rest ns
    return is ++ js
  | _, _ => .ok []

/-- The index propagators (element.cc:314-452), for index variables from number `dim` on. `before` are the index variables before. -/
def indexProps (al : Bool) (watched : List VarId) : Nat → List VarId → List (VarId × Int) → List (Item σ μ)
  | _, _, [] => []
  | dim, before, (x, s) :: rest =>
    .prop (indexProp ints k A result idx al dim x) { onChange := watched ++ [result] ++ (before ++ rest.map (·.1)) } :: indexProps al watched (dim + 1) (before ++ [x]) rest

/-- `NDimensionalElement` (element.cc:82-87 and :164-706). `bc` is `_bounds_only`; the number of index variables is the number of dimensions (element.hh:93-151). -/
def install (bc : Bool) (d : Doms) : Chk (List (Item σ μ)) := do
  if check k A (len k A) = false then throw .invalidProblem
  else if 0 ∈ sizes k A then return [AllDifferent.refuse]
  else
    let defs ← defineIndices d idx (sizes k A)
    let vs := entries k A
    let non ← nonconstants d vs
    let watched := if non then vs else []
    let xs := idx.map (·.1)
    let al := aliased (result :: xs ++ if ints then [] else vs)
    return defs ++ indexProps ints k A result idx al watched 0 [] idx ++
      [if bc then .prop (boundsProp k A result idx) { onChange := xs, onBounds := watched ++ [result] } else .prop (valuesProp ints k A result idx al) { onChange := watched ++ xs }] ++
      if non then [.prop (equalityProp k A result idx al) { onChange := xs ++ [result] }] else []

end
end Element
end Gcs
