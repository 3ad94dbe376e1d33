import Verif.Model.Cons.Stages
import Verif.Model.Cons.Tabulation

/-!
# Powers (`gcs/constraints/power/power.cc`, `power_table.cc`)

The variables that hold intermediate powers are allocated by the constraint in the code. Here they are a parameter, variables that are there already, and `ranges` says with which bounds they are allocated. Rows of the
proof model are not modelled.
-/

namespace Gcs.Power
open Stages

/-- `clamp`, where the lower end is at most the upper one. -/
def clamp (x lo hi : Int) : Int := if x < lo then lo else if hi < x then hi else x

/-- `saturating_product` (power.cc:55-60). -/
def saturating (a b m : Int) : Int := match Tabulation.productIfRepresentable a b with
  | some p => clamp p (-m) m
  | none => if decide (a > 0) = decide (b > 0) then m else -m

/-- The bounds of the next intermediate power (power.cc:179-184), `p` being those of the one before and `x` those of the base. -/
def nextRange (x : Int × Int) (m : Int) (p : Int × Int) : Int × Int :=
  let c1 := saturating p.1 x.1 m
  let c2 := saturating p.1 x.2 m
  let c3 := saturating p.2 x.1 m
  let c4 := saturating p.2 x.2 m
  (min c1 (min c2 (min c3 c4)), max c1 (max c2 (max c3 c4)))

/-- The bounds of a number of intermediate powers. -/
def rangesFrom (x : Int × Int) (m : Int) : Nat → Int × Int → List (Int × Int)
  | 0, _ => []
  | k + 1, p => nextRange x m p :: rangesFrom x m k (nextRange x m p)

/-- The absolute value, as it is found in `m` (power.cc:170). -/
def size (x : Int) : Chk Int := if x < 0 then iNeg x else .ok x

/-- `m` (power.cc:169-170). -/
def magnitude (root : Doms) (result : VarId) : Chk Int := do
  let b ← bounds root result
  let l ← size b.1
  let h ← size b.2
  return max 1 (max l h)

/-- The exponents for which there is a chain of multiplications: `2 <= k <= 62`, and the base is not a constant. -/
abbrev Chained (base : VarId) (k : Int) : Prop := base.isConst = false ∧ 2 ≤ k ∧ k ≤ 62

/-- The bounds of all intermediate powers (power.cc:169-188). The bounds of one that has just been allocated are those it was allocated with. -/
def ranges (base result : VarId) (k : Int) (root : Doms) : Chk (List (Int × Int)) :=
  if Chained base k then do
    let m ← magnitude root result
    let x ← bounds root base
    return rangesFrom x m (k.toNat - 2) x
  else .ok []

/-- The multiplications (power.cc:172-192): factors and product. -/
def chain (base result : VarId) : VarId → List Nat → List (VarId × VarId × VarId)
  | prev, [] => [(prev, base, result)]
  | prev, i :: is => (prev, base, .simple i) :: chain base result (.simple i) is

/-- `add_gated_equality` (power.cc:99-103). -/
def gatedEquality (result : VarId) (gate : Cond) (value : Int) : Chk (List Spec) := do
  let nv ← iNeg value
  return [le [(1, result)] value (some gate), le [(-1, result)] nv (some gate)]

/-- What `prepare` decides on: linear pieces, multiplications, and whether the base must not be zero. -/
structure Plan where
  specs : List Spec
  links : List (VarId × VarId × VarId)
  pruneZero : Bool

/-- `Power::prepare` for a constant exponent (power.cc:80-193), without tabulation. Nothing if there is no result that can be represented. -/
def plan (base result : VarId) (k : Int) (aux : List Nat) : Chk (Option Plan) := match base with
  | .const b => do
    match ← checkedIntegerPower b k with
    | some v => return some ⟨[equality [(1, result)] v], [], false⟩
    | none => return none
  | _ =>
    if k = 0 then .ok (some ⟨[equality [(1, result)] 1], [], false⟩)
    else if k = 1 then .ok (some ⟨[equality [(1, base), (-1, result)] 0], [], false⟩)
    else if k < 0 ∨ k > 62 then do
      let parity : Int := if k.tmod 2 = 0 then 1 else -1
      let first ← if k < 0 then do
          let p ← gatedEquality result (Cond.ge base 2) 0
          let q ← gatedEquality result (Cond.lt base (-1)) 0
          pure (p ++ q)
        else do
          let z ← gatedEquality result (Cond.eq base 0) 0
          pure ([le [(1, base)] 1 none, le [(-1, base)] 1 none] ++ z)
      let one ← gatedEquality result (Cond.eq base 1) 1
      let minus ← gatedEquality result (Cond.eq base (-1)) parity
      return some ⟨first ++ one ++ minus, [], decide (k < 0)⟩
    else .ok (some ⟨[], chain base result base aux, false⟩)

section
variable {σ μ : Type}

/-- The base is not zero (power.cc:290-291). -/
def avoidZero (prune : Bool) (base : VarId) : Prog σ μ Unit :=
  if prune = true then do
    if ← Prog.ask (inDomain · base 0) then Prog.tell (.cond (Cond.ne base 0)) else return
  else return

/-- The multiplications of the chain (power.cc:296-297). -/
def multiplyAll : List (VarId × VarId × VarId) → Prog σ μ Unit
  | [] => .ret ()
  | l :: ls => do
    Multiply.pass l.1 l.2.1 l.2.2
    multiplyAll ls

/-- The body of the loop (power.cc:289-298): whether there was a contradiction. -/
def body (stages : List Stage) (links : List (VarId × VarId × VarId)) (prune : Bool) (base : VarId) : Prog σ μ Bool := do
  avoidZero prune base
  if ← Stages.all stages then return true
  else do
    multiplyAll links
    return false

/-- The propagation function (power.cc:287-305). -/
def prop (stages : List Stage) (links : List (VarId × VarId × VarId)) (prune : Bool) (base : VarId) : Prog σ μ PState := Prog.untilQuietOr (body stages links prune base)

/-- `make_data` for all links (power.cc:109-112, multiply/signed_multiply.cc:31-44). -/
def readLinks (root : Doms) : List (VarId × VarId × VarId) → Chk Unit
  | [] => .ok ()
  | l :: ls => do
    let _ ← bounds root l.1
    let _ ← bounds root l.2.1
    readLinks root ls

/-- The variables of the links. -/
def linkVars (links : List (VarId × VarId × VarId)) : List VarId := links.flatMap fun l => [l.1, l.2.1, l.2.2]

/-- `Power` with a constant exponent, without tabulation (power.cc:80-193 and :260-307). -/
def install (base result : VarId) (k : Int) (aux : List Nat) (root : Doms) : Chk (List (Item σ μ)) := do
  match ← plan base result k aux with
  | none => return [AllDifferent.refuse]
  | some p =>
    let _ ← ranges base result k root
    readLinks root p.links
    let stages ← make p.specs
    return [.prop (prop stages p.links p.pruneZero base) { onBounds := Multiply.watched [] (base :: result :: linkVars p.links) }]

end

section
open Tabulation

/-- The result as a value of its variable (power.cc:214-220). -/
def solve (k : Int) (a c : Affine) (pa : Option Nat) (vals : List Int) : Chk (Option Int) := do
  let xv ← slot a pa vals
  match ← checkedIntegerPower xv k with
  | none => return none
  | some want =>
    if (← iMod (← iSub want c.offset) c.coeff) ≠ 0 then return none
    else return some (← iDiv (← iSub want c.offset) c.coeff)

/-- The acceptance test (power.cc:223-228). -/
def accept (k : Int) (a c : Affine) (pa pc : Option Nat) (vals : List Int) : Chk Bool := do
  let xv ← slot a pa vals
  let zv ← slot c pc vals
  match ← checkedIntegerPower xv k with
  | none => return false
  | some want => return decide (want = zv)

/-- The variables that are enumerated and the plan (power.cc:205-230). The base is registered once in the code; registering it a second time changes nothing. -/
def tabulation (base result : VarId) (k : Int) : Tabulation.Plan :=
  let r := register3 (affineOf base) (affineOf base) (affineOf result)
  ⟨r.1, match affineOf result, r.2.2.2 with
    | ⟨some z, c, o⟩, some pz => if some pz ≠ r.2.1 then [⟨.simple z, solve k (affineOf base) ⟨some z, c, o⟩ r.2.1⟩] else []
    | _, _ => [],
   accept k (affineOf base) (affineOf result) r.2.1 r.2.2.2⟩

/-- The table, if there is one: not if the base is a constant (power.cc:199-200). -/
def tableAt (limit : Int) (level : Level) (base result : VarId) (k : Int) (root : Doms) : Chk (Option (List VarId × List (List (Option Int)))) :=
  if base.isConst = true then .ok none else (tabulation base result k).table limit level root

/-- `Power` with a constant exponent at any consistency level (power.cc:80-234 and :260-312). -/
def installAt {σ μ : Type} (limit : Int) (level : Level) (sel base result : VarId) (k : Int) (aux : List Nat) (fresh : Nat → Bool) (cache : Nat → Nat → Int → Option Nat) : Doms → Chk (List (Item σ μ)) :=
  addTable (install base result k aux) (tableAt limit level base result k) sel fresh cache

/-- The tuples of `PowerTable` for one base (power_table.cc:37-43). Whether a value of the exponent is in its domain is asked too. -/
def tuplesFor (root : Doms) (exponent result : VarId) (v1 : Int) (es : List Int) : Chk (List (List (Option Int))) :=
  Tabulation.collect (fun v2 => do
    if ← inDomain root exponent v2 then
      match ← checkedIntegerPower v1 v2 with
      | some r => do return if ← inDomain root result r then [[some v1, some v2, some r]] else []
      | none => return []
    else return []) es

/-- The tuples of `PowerTable` (power_table.cc:35-43). -/
def tuples (base exponent result : VarId) (root : Doms) : Chk (List (List (Option Int))) := do
  let bs ← valuesOf root base
  Tabulation.collect (fun v1 => do tuplesFor root exponent result v1 (← valuesOf root exponent)) bs

/-- `PowerTable` (power_table.cc:31-50), which is what `Power` installs if the exponent is not a constant (power.cc:86-91). -/
def installTable {σ μ : Type} (sel base exponent result : VarId) (fresh : Nat → Bool) (cache : Nat → Nat → Int → Option Nat) (root : Doms) : Chk (List (Item σ μ)) := do
  Table.install sel [base, exponent, result] (← tuples base exponent result root) fresh cache

end
end Gcs.Power
