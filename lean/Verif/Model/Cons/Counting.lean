import Verif.Model.Cons.Steps

/-!
# AtMostOne, In, Count, NValue, Among (`gcs/constraints/{at_most_one,in,count,n_value,among}`)
-/

namespace Gcs
open IntervalSet

/-- `is_constant_variable` (gcs/innards/variable_id_utils.cc:9-13). -/
def VarId.constValue : VarId → Option Int
  | .const c => some c
  | _ => none

namespace AtMostOne

section
variable {σ μ : Type}

/-- The loop at gcs/constraints/at_most_one/at_most_one.cc:104-110. -/
def fixedTo (d : Doms) (v : Int) : Nat → List VarId → Chk Nat
  | k, [] => .ok k
  | k, x :: xs => do
    if (← optionalSingleValue d x) = some v then
      if k + 1 = 2 then return 2 else fixedTo d v (k + 1) xs
    else fixedTo d v k xs

/-- The loop at gcs/constraints/at_most_one/at_most_one.cc:119-128: how often, and where last. -/
def whereFixed (d : Doms) (v : Int) : Nat → Nat → Nat → List VarId → Chk (Nat × Nat)
  | _, count, idx, [] => .ok (count, idx)
  | i, count, idx, x :: xs => do
    if (← optionalSingleValue d x) = some v then
      if count + 1 > 1 then return (count + 1, i) else whereFixed d v (i + 1) (count + 1) i xs
    else whereFixed d v (i + 1) count idx xs

/-- The propagation function at gcs/constraints/at_most_one/at_most_one.cc:98-138. -/
def prop (vars : List VarId) (val : VarId) : Prog σ μ PState := do
  let g ← Prog.ask (eachValue · val)
  Prog.forGen (fun v => do
    let k ← Prog.ask (fixedTo · v 0 vars)
    if k ≥ 2 then Prog.tell (.cond (Cond.ne val v))) g
  match ← Prog.ask (optionalSingleValue · val) with
  | none => return .enable
  | some v =>
    let r ← Prog.ask (whereFixed · v 0 0 0 vars)
    if r.1 = 1 then
      Prog.forEach (fun x => Prog.tell (.cond (Cond.ne x v))) (vars.eraseIdx r.2)
      return .enable
    else return .enable

/-- `AtMostOne` (gcs/constraints/at_most_one/at_most_one.cc:46-60 and :82-140). -/
def install (vars : List VarId) (val : VarId) (_ : Doms) : Chk (List (Item σ μ)) :=
  if vars.length ≥ 2 then .ok [.prop (prop vars val) { onChange := vars ++ [val] }] else .ok []

end
end AtMostOne

namespace InSet

section
variable {σ μ : Type}

/-- The loop at gcs/constraints/in/in.cc:169-176; the runs found so far, last first. -/
def runs (vals : List Int) : List (Int × Int) → List Int → Chk (List (Int × Int))
  | rs, [] => .ok rs
  | rs, v :: vs =>
    if v ∈ vals then runs vals rs vs
    else match rs with
      | [] => runs vals [(v, v)] vs
      | (l, u) :: rs' => do
        let w ← iAdd u 1
        if w = v then runs vals ((l, v) :: rs') vs else runs vals ((v, v) :: (l, u) :: rs') vs

/-- The loop at gcs/constraints/in/in.cc:216-227: the first and, if there is another, the second variable that overlaps. -/
def supports (d : Doms) (var : VarId) (first : Option VarId) : List VarId → Chk (Option VarId × Bool)
  | [] => .ok (first, false)
  | V :: Vs => do
    if ← anyOfGen (inDomain d var ·) (← eachValue d V) then
      match first with
      | none => supports d var (some V) Vs
      | some f => return (some f, true)
    else supports d var first Vs

/-- Step 1 (gcs/constraints/in/in.cc:161-213). `val_vals` is sorted there, and searched by bisection. -/
def narrow (var : VarId) (vars : List VarId) (vals : List Int) : Prog σ μ Unit := do
  let g ← Prog.ask (eachValue · var)
  if vars = [] then
    let vs ← Prog.lift (collect g)
    let rs ← Prog.lift (runs vals [] vs)
    Prog.forEach (fun r => Prog.tell (.cond ⟨var, .notInRange, r.1, r.2⟩)) rs.reverse
  else
    Prog.forGen (fun v => do
      if v ∈ vals then return ()
      else if ← Prog.ask fun d => anyOf (inDomain d · v) vars then return ()
      else Prog.tell (.cond (Cond.ne var v))) g

/-- Step 3 (gcs/constraints/in/in.cc:234-279). -/
def mirror (var V : VarId) : Prog σ μ Unit := do
  let g ← Prog.ask (eachValue · V)
  Prog.forGen (fun v => do
    if ← Prog.ask (inDomain · var v) then return () else Prog.tell (.cond (Cond.ne V v))) g

/-- Steps 2 and 3 (gcs/constraints/in/in.cc:216-279). -/
def last (var : VarId) (vars : List VarId) (vals : List Int) : Prog σ μ Unit := do
  let s ← Prog.ask (supports · var none vars)
  let c ← Prog.ask fun d => anyOf (inDomain d var ·) vals
  match c, s with
  | false, (some V, false) => mirror var V
  | _, _ => return ()

/-- The propagation function at gcs/constraints/in/in.cc:158-288. -/
def prop (var : VarId) (vars : List VarId) (vals : List Int) : Prog σ μ PState := do
  narrow var vars vals
  last var vars vals
  match ← Prog.ask (optionalSingleValue · var) with
  | some x => if x ∈ vals then return .disableUntilBacktrack else return .enable
  | none => return .enable

/-- `In` (gcs/constraints/in/in.cc:55-109 and :143-290). -/
def install (var : VarId) (vars : List VarId) (vals : List Int) (_ : Doms) : Chk (List (Item σ μ)) :=
  let vars' := vars.filter (·.constValue.isNone)
  let vals' := vals ++ vars.filterMap VarId.constValue
  if vars' = [] ∧ vals' = [] then .ok [.init .simpleDefinition Prog.fail]
  else .ok [.prop (prop var vars' vals') { onChange := var :: vars' }]

end
end InSet

namespace Count

section
variable {σ μ : Type}

/-- The loop at gcs/constraints/count/count.cc:141-150. -/
def mustMight (d : Doms) (v : Int) : Int → Int → List VarId → Chk (Int × Int)
  | must, might, [] => .ok (must, might)
  | must, might, x :: xs => do
    match ← optionalSingleValue d x with
    | some y => if y = v then mustMight d v (← iInc must) (← iInc might) xs else mustMight d v must might xs
    | none => if ← inDomain d x v then mustMight d v must (← iInc might) xs else mustMight d v must might xs

/-- One round of the loop at gcs/constraints/count/count.cc:139-225; the state is the lowest and highest count. -/
def round (vars : List VarId) (val many : VarId) (st : Option (Int × Int)) (v : Int) : Prog σ μ (Option (Int × Int)) := do
  let r ← Prog.ask (mustMight · v 0 0 vars)
  if r.2 < (← Prog.ask (lowerBound · many)) then
    Prog.tell (.cond (Cond.ne val v))
    return st
  else if r.1 > (← Prog.ask (upperBound · many)) then
    Prog.tell (.cond (Cond.ne val v))
    return st
  else if ← Prog.ask (fun d => anyOfGen (inDomain d many ·) (loopUp r.1 r.2)) then
    match st with
    | none => return some r
    | some s => return some (if r.1 < s.1 then r.1 else s.1, if r.2 > s.2 then r.2 else s.2)
  else
    Prog.tell (.cond (Cond.ne val v))
    return st

/-- The propagation function at gcs/constraints/count/count.cc:99-271. -/
def prop (vars : List VarId) (val many : VarId) : Prog σ μ PState := do
  let k ← Prog.ask fun d => howMany (domainsIntersect d val ·) vars
  let bound ← Prog.lift (do iAdd (← ofSize k) 1)
  Prog.tell (.cond (Cond.lt many bound))
  let voi ← Prog.ask (optionalSingleValue · val)
  let must ← (match voi with
    | some v => Prog.ask fun d => howMany (fun x => do return (← optionalSingleValue d x) = some v) vars
    | none => return 0)
  let must' ← Prog.lift (ofSize must)
  Prog.tell (.cond (Cond.ge many must'))
  let g ← Prog.ask (eachValue · val)
  let vs ← Prog.forEachWith (round vars val many) none g.1
  match g.2 with
  | some e => Prog.raise e
  | none =>
    match vs with
    | none => return .enable
    | some r =>
      Prog.tell (.cond (Cond.ge many r.1))
      let u ← Prog.lift (iAdd r.2 1)
      Prog.tell (.cond (Cond.lt many u))
      return .enable

/-- `Count` (gcs/constraints/count/count.cc:42-45 and :80-273). -/
def install (vars : List VarId) (val many : VarId) (_ : Doms) : Chk (List (Item σ μ)) :=
  .ok [.prop (prop vars val many) { onChange := vars ++ [val], onBounds := [many] }]

end
end Count

namespace NValue

section
variable {σ μ : Type}

/-- `std::set::insert`, the set as a list. -/
def insert (s : List Int) (x : Int) : List Int := if x ∈ s then s else x :: s

/-- gcs/constraints/n_value/n_value.cc:98-102. -/
def possible (d : Doms) (s : List Int) : List VarId → Chk (List Int)
  | [] => .ok s
  | x :: xs => do possible d ((← collect (← eachValue d x)).foldl insert s) xs

/-- gcs/constraints/n_value/n_value.cc:106-111. -/
def definite (d : Doms) (s : List Int) : List VarId → Chk (List Int)
  | [] => .ok s
  | x :: xs => do
    match ← optionalSingleValue d x with
    | some v => definite d (insert s v) xs
    | none => definite d s xs

/-- The propagation function at gcs/constraints/n_value/n_value.cc:96-120. -/
def prop (many : VarId) (vars : List VarId) : Prog σ μ PState := do
  let p ← Prog.ask (possible · [] vars)
  let c ← Prog.lift (do Cond.le many (← ofSize p.length))
  Prog.tell (.cond c)
  let s ← Prog.ask (definite · [] vars)
  let k ← Prog.lift (ofSize s.length)
  let floor := if vars = [] then 0 else 1
  Prog.tell (.cond (Cond.ge many (if floor < k then k else floor)))
  return .enable

/-- `NValue` (gcs/constraints/n_value/n_value.cc:42-58 and :80-122): the values collected when it is posted are only used for the proof, but collecting them may throw. -/
def install (many : VarId) (vars : List VarId) (root : Doms) : Chk (List (Item σ μ)) := do
  let _ ← possible root [] vars
  return [.prop (prop many vars) { onBounds := [many], onChange := vars }]

end
end NValue

namespace Among

section
variable {σ μ : Type}

/-- gcs/constraints/among/among.cc:126. -/
def cannot (d : Doms) (vals : List Int) (x : VarId) : Chk Bool := do return ! (← anyOf (inDomain d x ·) vals)

/-- gcs/constraints/among/among.cc:130. -/
def must (d : Doms) (vals : List Int) (x : VarId) : Chk Bool := do return ! (← anyOfGen (fun v => .ok (decide (v ∉ vals))) (← eachValue d x))

/-- How many variables are in each of the three parts (gcs/constraints/among/among.cc:124-140): those that cannot have one of the values, those that must, and the others. -/
def parts (d : Doms) (vals : List Int) : List VarId → Chk (Nat × Nat × Nat)
  | [] => .ok (0, 0, 0)
  | x :: xs => do
    let r ← parts d vals xs
    if ← cannot d vals x then return (r.1 + 1, r.2.1, r.2.2)
    else if ← must d vals x then return (r.1, r.2.1 + 1, r.2.2)
    else return (r.1, r.2.1, r.2.2 + 1)

/-- One round of the loop at gcs/constraints/among/among.cc:203-234. -/
def forbid (vals : List Int) (x : VarId) : Prog σ μ Unit := do
  let vs ← Prog.ask fun d => do collect (← eachValue d x)
  if vs.any (· ∉ vals) then Prog.forEach (fun v => Prog.tell (.cond (Cond.ne x v))) vals

/-- One round of the loop at gcs/constraints/among/among.cc:252-288. -/
def demand (vals : List Int) (x : VarId) : Prog σ μ Unit := do
  if ← Prog.ask fun d => anyOf (inDomain d x ·) vals then
    let g ← Prog.ask (eachValue · x)
    Prog.forGen (fun v => if v ∈ vals then return () else Prog.tell (.cond (Cond.ne x v))) g

/-- The propagation function at gcs/constraints/among/among.cc:120-298. -/
def prop (vars : List VarId) (vals : List Int) (many : VarId) : Prog σ μ PState := do
  let r ← Prog.ask (parts · vals vars)
  let no ← Prog.lift (ofSize r.1)
  let yes ← Prog.lift (ofSize r.2.1)
  let either ← Prog.lift (ofSize r.2.2)
  Prog.tell (.cond (Cond.ge many yes))
  let bound ← Prog.lift (do iAdd (← iSub (← ofSize vars.length) no) 1)
  Prog.tell (.cond (Cond.lt many bound))
  let b ← Prog.ask (bounds · many)
  let _ ← Prog.lift (Cond.le many b.2)
  if yes = b.2 then
    if b.1 ≠ b.2 then Prog.raise .unexpected
    else
      Prog.forEach (forbid vals) vars
      return .disableUntilBacktrack
  else
    let most ← Prog.lift (iAdd yes either)
    if most = b.1 then
      if b.1 ≠ b.2 then Prog.raise .unexpected
      else if either > 0 then
        Prog.forEach (demand vals) vars
        return .disableUntilBacktrack
      else return .enable
    else return .enable

/-- `Among` (gcs/constraints/among/among.cc:68-71 and :89-300). The values are sorted and made unique, which changes neither what is inferred nor whether anything throws, only the order. The initialiser only
writes to the proof. -/
def install (vars : List VarId) (vals : List Int) (many : VarId) (_ : Doms) : Chk (List (Item σ μ)) :=
  .ok [.prop (prop vars vals many) { onChange := vars, onBounds := [many] }]

end
end Among
end Gcs
