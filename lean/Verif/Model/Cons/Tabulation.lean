import Verif.Model.Cons.Table
import Verif.Model.Cons.Multiply
import Verif.Model.Cons.Arithmetic
import Verif.Model.Heuristics

/-!
# Tabulation (`gcs/constraints/innards/tabulation.cc`, `gcs/constraints/innards/arithmetic_utils.hh`)

Constraints over few combinations of values make a table of those that are accepted. In the code the table is made by an initialiser that runs after the cheaper ones of all constraints, and the selector is allocated
then. Here the table is made when the constraint is posted, from the domains at that time, and the selector is a variable that is there already. Proofs are not modelled.
-/

namespace Gcs

namespace Tabulation

/-- `AffineForm` (arithmetic_utils.hh:20-25). -/
structure Affine where
  var : Option Nat
  coeff : Int
  offset : Int
  deriving DecidableEq, Repr

/-- `affine_of` (arithmetic_utils.hh:27-34). -/
def affineOf : VarId → Affine
  | .simple i => ⟨some i, 1, 0⟩
  | .view i ng k => ⟨some i, if ng then -1 else 1, k⟩
  | .const c => ⟨none, 0, c⟩

/-- `product_if_representable` (arithmetic_utils.hh:43-49). -/
def productIfRepresentable (a b : Int) : Option Int := match iMul a b with
  | .ok r => some r
  | .error _ => none

/-- `TabulationVariables::position_of` (tabulation.hh:188-195): the variables afterwards, and the position. -/
def positionOf (vars : List VarId) (v : VarId) : List VarId × Nat := match vars.idxOf? v with
  | some i => (vars, i)
  | none => (vars ++ [v], vars.length)

/-- `TabulationBranch` (tabulation.hh:81-86). -/
inductive Branch where
  | free
  | holds
  | negated
  deriving DecidableEq, Repr

/-- `DeterminedVariable` (tabulation.hh:68-72). -/
structure Determined where
  var : VarId
  value : List Int → Chk (Option Int)

/-- `TabulationReification` (tabulation.hh:109-113). -/
structure Reification where
  var : VarId
  branch : Int → Branch

/-- `find(vars, v) - vars.begin()`, throwing if it is not there (tabulation.cc:53-56 and :67-70). -/
def findPos (vars : List VarId) (v : VarId) : Chk Nat := match vars.idxOf? v with
  | some i => .ok i
  | none => .error .unexpected

/-- The position of the reification variable (tabulation.cc:51-57). -/
def reifPos (vars : List VarId) : Option Reification → Chk (Option Nat)
  | none => .ok none
  | some r => do return some (← findPos vars r.var)

/-- Whether a position is a better choice than the one so far (tabulation.cc:73). -/
def larger (d : Doms) (vars : List VarId) (pos : Nat) : Option (Nat × Determined) → Chk Bool
  | none => .ok true
  | some b => do return (← domainSize d (← vecAt vars pos)) > (← domainSize d (← vecAt vars b.1))

/-- The choice of the level that is skipped (tabulation.cc:64-77). -/
def choose (d : Doms) (vars : List VarId) (rp : Option Nat) : Option (Nat × Determined) → List Determined → Chk (Option (Nat × Determined))
  | best, [] => .ok best
  | best, x :: xs => do
    let pos ← findPos vars x.var
    if some pos = rp then .error .unexpected
    else if ← larger d vars pos best then choose d vars rp (some (pos, x)) xs
    else choose d vars rp best xs

/-- Into a sorted list, after elements that are equal: sorting like this is stable. -/
def insertSize (p : Int × Nat) : List (Int × Nat) → List (Int × Nat)
  | [] => [p]
  | q :: qs => if p.1 < q.1 then p :: q :: qs else q :: insertSize p qs

/-- `stable_sort` by domain size (tabulation.cc:83). The sizes are all computed first. -/
def sortBySize (d : Doms) (vars : List VarId) : List (Int × Nat) → List Nat → Chk (List Nat)
  | acc, [] => .ok (acc.map (·.2))
  | acc, i :: is => do
    let s ← domainSize d (← vecAt vars i)
    sortBySize d vars (insertSize (s, i) acc) is

/-- `order` (tabulation.cc:79-87). -/
def order (d : Doms) (vars : List VarId) (rp dp : Option Nat) : Chk (List Nat) := do
  let mid ← sortBySize d vars [] ((List.range vars.length).filter fun i => decide (some i ≠ dp ∧ some i ≠ rp))
  return rp.toList ++ mid ++ dp.toList

/-- All that the function gives for members of the list. -/
def collect {α β : Type} (f : α → Chk (List β)) : List α → Chk (List β)
  | [] => .ok []
  | x :: xs => do
    let r ← f x
    return r ++ (← collect f xs)

/-- `search` (tabulation.cc:123-171), from a level on which the reification variable is not branched on. The order to branch in is what is left of it. -/
def search (d : Doms) (vars : List VarId) (accept : List Int → Chk Bool) (value : Option (List Int → Chk (Option Int))) : Branch → List Nat → List Int → Chk (List (List (Option Int)))
  | _, [], asg => do return if ← accept asg then [asg.map some] else []
  | b, p :: rest, asg =>
    match value, decide (rest = [] ∧ b = .holds) with
    | some f, true => do
      match ← f asg with
      | none => return []
      | some x =>
        if ← inDomain d (← vecAt vars p) x then do return if ← accept (asg.set p x) then [(asg.set p x).map some] else []
        else return []
    | _, _ => do
      let vals ← valuesOf d (← vecAt vars p)
      collect (fun x => search d vars accept value b rest (asg.set p x)) vals

/-- `search` on the first level (tabulation.cc:141-160). -/
def searchTop (d : Doms) (vars : List VarId) (accept : List Int → Chk Bool) (value : Option (List Int → Chk (Option Int))) (reif : Option Reification) (ord : List Nat) : Chk (List (List (Option Int))) :=
  match reif, ord with
  | some r, p :: rest => do
    let vals ← valuesOf d (← vecAt vars p)
    collect (fun x => match r.branch x with
      | .free => .ok [(List.replicate vars.length none).set p (some x)]
      | b => search d vars accept value b rest ((List.replicate vars.length 0).set p x)) vals
  | _, _ => search d vars accept value .holds ord (List.replicate vars.length 0)

/-- `build_table_in_proof` (tabulation.cc:45-184), without the proof: the tuples. -/
def build (d : Doms) (vars : List VarId) (dets : List Determined) (reif : Option Reification) (accept : List Int → Chk Bool) : Chk (List (List (Option Int))) := do
  let rp ← reifPos vars reif
  let c ← choose d vars rp none dets
  let ord ← order d vars rp (c.map (·.1))
  searchTop d vars accept (c.map (·.2.value)) reif ord

/-- The consistency levels `Auto`, `BC` and `Tabulated` (gcs/consistency.hh). -/
inductive Level where
  | auto
  | bc
  | tabulated
  deriving DecidableEq, Repr

/-- The variable left out of the budget (tabulation.cc:244-247). -/
def skipped (d : Doms) : Option VarId → List Determined → Chk (Option VarId)
  | s, [] => .ok s
  | none, x :: xs => skipped d (some x.var) xs
  | some w, x :: xs => do if (← domainSize d x.var) > (← domainSize d w) then skipped d (some x.var) xs else skipped d (some w) xs

/-- The loop at tabulation.cc:249-252. -/
def budget (d : Doms) (skip : Option VarId) (limit : Int) : Int → List VarId → Chk Bool
  | size, [] => .ok (size ≤ limit)
  | size, v :: vs => do
    if some v ≠ skip then
      match iMul size (← domainSize d v) with
      | .ok s => budget d skip limit s vs
      | .error _ => return false
    else budget d skip limit size vs

/-- `want_tabulation` (tabulation.cc:233-256). The threshold, which the environment can change, is `limit`. -/
def want (limit : Int) (d : Doms) (vars : List VarId) (dets : List Determined) : Level → Chk Bool
  | .tabulated => .ok true
  | .bc => .ok false
  | .auto => do budget d (← skipped d none dets) limit 1 vars

/-- `TabulationPlan` (tabulation.hh:273-278). -/
structure Plan where
  vars : List VarId
  dets : List Determined
  accept : List Int → Chk Bool

section
variable {σ μ : Type}

/-- `install_tabulation` (tabulation.hh:299-327), given the tuples: the initialiser fails if there are none. -/
def items (sel : VarId) (vars : List VarId) (tuples : List (List (Option Int))) (fresh : Nat → Bool) (cache : Nat → Nat → Int → Option Nat) : List (Item σ μ) :=
  if tuples = [] then [.init .expensive (.tell .ff)] else [.prop (Table.prop sel vars tuples fresh cache) { onChange := vars }]

end

section
variable {σ μ : Type}

/-- The table of a plan, if one is wanted (e.g. gcs/constraints/plus_minus/plus.cc:170-182 and :208-210). -/
def Plan.table (limit : Int) (level : Level) (p : Plan) (root : Doms) : Chk (Option (List VarId × List (List (Option Int)))) := do
  if ← want limit root p.vars p.dets level then return some (p.vars, ← build root p.vars p.dets none p.accept) else return none

/-- A constraint that installs its propagators and then the table. -/
def addTable (base : Doms → Chk (List (Item σ μ))) (tab : Doms → Chk (Option (List VarId × List (List (Option Int))))) (sel : VarId) (fresh : Nat → Bool) (cache : Nat → Nat → Int → Option Nat) (root : Doms) :
    Chk (List (Item σ μ)) := do
  let t ← tab root
  let is ← base root
  return is ++ (match t with
    | some (vars, ts) => items sel vars ts fresh cache
    | none => [])

end

/-- `p ? a.coeff * vals[*p] + a.offset : a.offset` (e.g. gcs/constraints/plus_minus/plus.cc:172-174). -/
def slot (a : Affine) (p : Option Nat) (vals : List Int) : Chk Int := match p with
  | some p => do iAdd (← iMul a.coeff (← vecAt vals p)) a.offset
  | none => .ok a.offset

/-- `a.var ? optional{enum_vars.position_of(*a.var)} : nullopt` (e.g. gcs/constraints/plus_minus/plus.cc:143-145). -/
def register (vars : List VarId) (a : Affine) : List VarId × Option Nat := match a.var with
  | some i => ((positionOf vars (.simple i)).1, some (positionOf vars (.simple i)).2)
  | none => (vars, none)

/-- Three operands one after another: the distinct variables, and where each is. -/
def register3 (a b c : Affine) : List VarId × Option Nat × Option Nat × Option Nat :=
  let ra := register [] a
  let rb := register ra.1 b
  let rc := register rb.1 c
  (rc.1, ra.2, rb.2, rc.2)

/-- `+` for Plus, `-` for Minus. -/
def combine (sub : Bool) (a b : Int) : Chk Int := if sub then iSub a b else iAdd a b

/-- `if (p && *p != pos) other += a.coeff * vals[*p]`, or `-=` (gcs/constraints/plus_minus/plus.cc:158-163 and minus.cc:168-173). -/
def addOther (sub : Bool) (a : Affine) (p : Option Nat) (pos : Nat) (vals : List Int) (other : Int) : Chk Int := match p with
  | some p => if p ≠ pos then do combine sub other (← iMul a.coeff (← vecAt vals p)) else .ok other
  | none => .ok other

/-- `(p && *p == pos ? a.coeff : 0_i)` (gcs/constraints/plus_minus/plus.cc:154). -/
def coeffAt (a : Affine) (p : Option Nat) (pos : Nat) : Int := if p = some pos then a.coeff else 0

/-- The net coefficient of a variable (gcs/constraints/plus_minus/plus.cc:154 and minus.cc:164). -/
def netAt (sub : Bool) (a b c : Affine) (pa pb pc : Option Nat) (pos : Nat) : Chk Int := do
  iSub (← combine sub (coeffAt a pa pos) (coeffAt b pb pos)) (coeffAt c pc pos)

/-- The value of the variable at `pos` (gcs/constraints/plus_minus/plus.cc:156-167 and minus.cc:166-177). -/
def solveSum (sub : Bool) (a b c : Affine) (pa pb pc : Option Nat) (pos : Nat) (net : Int) (vals : List Int) : Chk (Option Int) := do
  let o0 ← iSub (← combine sub a.offset b.offset) c.offset
  let o1 ← addOther false a pa pos vals o0
  let o2 ← addOther sub b pb pos vals o1
  let o3 ← addOther true c pc pos vals o2
  if (← iMod (← iNeg o3) net) ≠ 0 then return none
  else return some (← iDiv (← iNeg o3) net)

/-- The variables that are functions of the others (gcs/constraints/plus_minus/plus.cc:152-168 and minus.cc:162-178), from position `pos` on. -/
def sumDets (sub : Bool) (a b c : Affine) (pa pb pc : Option Nat) : Nat → List VarId → Chk (List Determined)
  | _, [] => .ok []
  | pos, v :: vs => do
    let net ← netAt sub a b c pa pb pc pos
    let rest ← sumDets sub a b c pa pb pc (pos + 1) vs
    return if net ≠ 0 then ⟨v, solveSum sub a b c pa pb pc pos net⟩ :: rest else rest

/-- The acceptance test (gcs/constraints/plus_minus/plus.cc:171-180 and minus.cc:181-190): a sum that does not fit is not accepted. -/
def sumAccept (sub : Bool) (a b c : Affine) (pa pb pc : Option Nat) (vals : List Int) : Chk Bool := do
  let av ← slot a pa vals
  let bv ← slot b pb vals
  let cv ← slot c pc vals
  match combine sub av bv with
  | .ok s => return decide (s = cv)
  | .error _ => return false

/-- `Plus::prepare` and `Minus::prepare` (gcs/constraints/plus_minus/plus.cc:136-185 and minus.cc:146-195). -/
def sumPlan (sub : Bool) (x y z : VarId) : Chk Plan := do
  let r := register3 (affineOf x) (affineOf y) (affineOf z)
  let dets ← sumDets sub (affineOf x) (affineOf y) (affineOf z) r.2.1 r.2.2.1 r.2.2.2 0 r.1
  return ⟨r.1, dets, sumAccept sub (affineOf x) (affineOf y) (affineOf z) r.2.1 r.2.2.1 r.2.2.2⟩

/-- The product as a value of the result's variable (gcs/constraints/multiply/multiply.cc:155-162). -/
def solveProduct (a b c : Affine) (pa pb : Option Nat) (vals : List Int) : Chk (Option Int) := do
  let v1 ← slot a pa vals
  let v2 ← slot b pb vals
  match productIfRepresentable v1 v2 with
  | none => return none
  | some product =>
    if (← iMod (← iSub product c.offset) c.coeff) ≠ 0 then return none
    else return some (← iDiv (← iSub product c.offset) c.coeff)

/-- The acceptance test (gcs/constraints/multiply/multiply.cc:165-171). -/
def productAccept (a b c : Affine) (pa pb pc : Option Nat) (vals : List Int) : Chk Bool := do
  let v1 ← slot a pa vals
  let v2 ← slot b pb vals
  let v3 ← slot c pc vals
  match productIfRepresentable v1 v2 with
  | none => return false
  | some product => return decide (product = v3)

/-- The plan for a product of variables (gcs/constraints/multiply/multiply.cc:137-174). -/
def productPlan (x y z : VarId) : Plan :=
  let r := register3 (affineOf x) (affineOf y) (affineOf z)
  ⟨r.1, match affineOf z, r.2.2.2 with
    | ⟨some k, c, o⟩, some p3 => if some p3 ≠ r.2.1 ∧ some p3 ≠ r.2.2.1 then [⟨.simple k, solveProduct (affineOf x) (affineOf y) ⟨some k, c, o⟩ r.2.1 r.2.2.1⟩] else []
    | _, _ => [],
   productAccept (affineOf x) (affineOf y) (affineOf z) r.2.1 r.2.2.1 r.2.2.2⟩

/-- `condition_holds_at` (gcs/constraints/innards/tabulation.cc:30-42). -/
def holdsAt (c : Cond) (x : Int) : Bool := match c.op with
  | .equal => x = c.value
  | .notEqual => x ≠ c.value
  | .greaterEqual => x ≥ c.value
  | .less => x < c.value
  | .inRange => x ≥ c.value ∧ x ≤ c.upper
  | .notInRange => x < c.value ∨ x > c.upper

/-- `ReifiedTabulation` (gcs/constraints/innards/tabulation.hh:206-212), and the variables afterwards. -/
structure Reified where
  vars : List VarId
  accept : List Int → Chk Bool
  dets : List Determined
  reif : Option Reification

/-- `reify_tabulation` (gcs/constraints/innards/tabulation.cc:186-221). -/
def reify (r : Reif) (vars : List VarId) (accept : List Int → Chk Bool) (dets : List Determined) : Reified := match r with
  | .mustHold => ⟨vars, accept, dets, none⟩
  | .mustNotHold => ⟨vars, fun vals => do return !(← accept vals), [], none⟩
  | .ifCond c =>
    let p := positionOf vars c.var
    ⟨p.1, fun vals => do if holdsAt c (← vecAt vals p.2) then accept vals else return true, dets.filter (·.var ≠ c.var), some ⟨c.var, fun x => if holdsAt c x then .holds else .free⟩⟩
  | .notIf c =>
    let p := positionOf vars c.var
    ⟨p.1, fun vals => do if holdsAt c (← vecAt vals p.2) then return !(← accept vals) else return true, [], some ⟨c.var, fun x => if holdsAt c x then .negated else .free⟩⟩
  | .iffCond c =>
    let p := positionOf vars c.var
    ⟨p.1, fun vals => do
      let h := holdsAt c (← vecAt vals p.2)
      return h == (← accept vals), dets.filter (·.var ≠ c.var), some ⟨c.var, fun x => if holdsAt c x then .holds else .negated⟩⟩

/-- The sum of the terms at the values, leaving one out (gcs/constraints/linear/linear_equality.cc:286-288 and :305-308). -/
def dotFrom (skip : Option Nat) (vals : List Int) : Nat → Int → List Linear.Term → Chk Int
  | _, acc, [] => .ok acc
  | j, acc, t :: ts => do
    if some j = skip then dotFrom skip vals (j + 1) acc ts
    else dotFrom skip vals (j + 1) (← iAdd acc (← iMul t.coeff (← vecAt vals j))) ts

/-- `base_accept` (gcs/constraints/linear/linear_equality.cc:285-290). -/
def linearAccept (ts : List Linear.Term) (value : Int) (vals : List Int) : Chk Bool := do return decide ((← dotFrom none vals 0 0 ts) = value)

/-- The value of a variable in terms of the others (gcs/constraints/linear/linear_equality.cc:303-313). -/
def linearSolve (ts : List Linear.Term) (value : Int) (idx : Nat) (coeff : Int) (vals : List Int) : Chk (Option Int) := do
  let other ← dotFrom (some idx) vals 0 0 ts
  if (← iMod (← iSub value other) coeff) ≠ 0 then return none
  else return some (← iDiv (← iSub value other) coeff)

/-- gcs/constraints/linear/linear_equality.cc:300-314, from term number `idx` on. -/
def linearDets (all : List Linear.Term) (value : Int) : Nat → List Linear.Term → List Determined
  | _, [] => []
  | idx, t :: ts => ⟨.simple t.var, linearSolve all value idx t.coeff⟩ :: linearDets all value (idx + 1) ts

/-- The variables that are registered (gcs/constraints/linear/linear_equality.cc:275-276). -/
def registerAll : List VarId → List VarId → List VarId
  | vars, [] => vars
  | vars, v :: vs => registerAll (positionOf vars v).1 vs

/-- The variables and the table for a linear equality (gcs/constraints/linear/linear_equality.cc:265-320). -/
def linearTable (terms : List WTerm) (value : Int) (r : Reif) (root : Doms) : Chk (List VarId × List (List (Option Int))) := do
  let _ ← r.test root
  let x ← Linear.tidy terms
  let v ← iAdd value x.2
  let p := reify r (registerAll [] (x.1.map fun t => .simple t.var)) (linearAccept x.1 v) (linearDets x.1 v 0 x.1)
  return (p.vars, ← build root p.vars p.dets p.reif p.accept)

end Tabulation

section
variable {σ μ : Type}
open Tabulation

/-- `Plus` at any consistency level (gcs/constraints/plus_minus/plus.cc:136-185 and :198-211). -/
def Plus.installAt (limit : Int) (level : Level) (sel x y z : VarId) (fresh : Nat → Bool) (cache : Nat → Nat → Int → Option Nat) : Doms → Chk (List (Item σ μ)) :=
  addTable (Plus.install x y z) (fun root => do (← sumPlan false x y z).table limit level root) sel fresh cache

/-- `Minus` at any consistency level (gcs/constraints/plus_minus/minus.cc:146-195 and :208-221). -/
def Minus.installAt (limit : Int) (level : Level) (sel x y z : VarId) (fresh : Nat → Bool) (cache : Nat → Nat → Int → Option Nat) : Doms → Chk (List (Item σ μ)) :=
  addTable (Minus.install x y z) (fun root => do (← sumPlan true x y z).table limit level root) sel fresh cache

/-- `ReifiedLinearEquality` with `consistency::Tabulated`: nothing but the table (gcs/constraints/linear/linear_equality.cc:172-195 and :265-320). -/
def Linear.equalityTabulated (terms : List WTerm) (value : Int) (r : Reif) (sel : VarId) (fresh : Nat → Bool) (cache : Nat → Nat → Int → Option Nat) : Doms → Chk (List (Item σ μ)) :=
  addTable (fun _ => .ok []) (fun root => do return some (← linearTable terms value r root)) sel fresh cache

/-- The size without the first of the largest (gcs/constraints/multiply/multiply.cc:97-113): whether it is within the limit. -/
def Multiply.small (limit largest : Int) (d : Doms) : Bool → Int → List Linear.Term → Chk Bool
  | _, size, [] => .ok (size ≤ limit)
  | skipped, size, t :: ts => do
    let k ← domainSize d (.simple t.var)
    if skipped = false ∧ k = largest then small limit largest d true size ts
    else match iMul size k with
      | .ok s => small limit largest d skipped s ts
      | .error _ => return false

/-- gcs/constraints/multiply/multiply.cc:98-100. -/
def Multiply.largest (d : Doms) : Int → List Linear.Term → Chk Int
  | acc, [] => .ok acc
  | acc, t :: ts => do largest d (max acc (← domainSize d (.simple t.var))) ts

/-- `linear_level` (gcs/constraints/multiply/multiply.cc:84-118): whether the linear equality is to be a table. -/
def Multiply.linearTabulated (limit : Int) (level : Level) (terms : List WTerm) (root : Doms) : Chk Bool := match level with
  | .bc => .ok false
  | .tabulated => .ok true
  | .auto => do
    let x ← Linear.tidy terms
    small limit (← largest root 0 x.1) root false 1 x.1

/-- `Multiply` at any consistency level (gcs/constraints/multiply/multiply.cc:75-211). -/
def Multiply.installAt (limit : Int) (level : Level) (sel x y z : VarId) (fresh : Nat → Bool) (cache : Nat → Nat → Int → Option Nat) (root : Doms) : Chk (List (Item σ μ)) := do
  match ← linearForm x y z with
  | some (ts, v) =>
    if ← linearTabulated limit level ts root then Linear.equalityTabulated ts v .mustHold sel fresh cache root
    else Linear.equality ts v .mustHold root
  | none => addTable (Multiply.install x y z) (fun root => (productPlan x y z).table limit level root) sel fresh cache root

end
end Gcs
