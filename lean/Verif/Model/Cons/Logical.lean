import Verif.Model.Cons.Reified

/-!
# And, Or, ParityOdd (`gcs/constraints/logical/logical.cc`, `gcs/constraints/parity/parity.cc`)
-/

namespace Gcs

/-- `to_lits` (gcs/constraints/logical/logical.cc:45-52 and gcs/constraints/parity/parity.cc:42-49). -/
def nonZero (vars : List VarId) : List Lit := vars.map fun v => .cond (Cond.ne v 0)

namespace Logical

section
variable {σ μ : Type}

/-- The loop at gcs/constraints/logical/logical.cc:111-121; none if it returns from the function. -/
def scanOff (d : Doms) (anyFalse : Bool) (undecided : Option Lit) : List Lit → Chk (Option (Bool × Option Lit))
  | [] => .ok (some (anyFalse, undecided))
  | l :: ls => do
    match ← testLiteral d l with
    | .definitelyTrue => scanOff d anyFalse undecided ls
    | .definitelyFalse => scanOff d true undecided ls
    | .undecided => if undecided.isSome then return none else scanOff d anyFalse (some l) ls

/-- The loop at gcs/constraints/logical/logical.cc:148-157. -/
def scanOpen (d : Doms) (anyFalse : Option Lit) (allTrue : Bool) : List Lit → Chk (Option Lit × Bool)
  | [] => .ok (anyFalse, allTrue)
  | l :: ls => do
    match ← testLiteral d l with
    | .definitelyTrue => scanOpen d anyFalse allTrue ls
    | .definitelyFalse => scanOpen d (some l) false ls
    | .undecided => scanOpen d anyFalse false ls

/-- The propagation function at gcs/constraints/logical/logical.cc:97-182. -/
def prop (lits : List Lit) (full : Lit) : Prog σ μ PState := do
  match ← Prog.ask (testLiteral · full) with
  | .definitelyTrue =>
    Prog.forEach Prog.tell lits
    return .disableUntilBacktrack
  | .definitelyFalse =>
    match ← Prog.ask (scanOff · false none lits) with
    | none => return .enable
    | some (true, _) => return .disableUntilBacktrack
    | some (false, none) =>
      Prog.tell .ff
      return .enable
    | some (false, some u) =>
      Prog.tell u.not
      return .disableUntilBacktrack
  | .undecided =>
    match ← Prog.ask (scanOpen · none true lits) with
    | (some _, _) =>
      Prog.tell full.not
      return .disableUntilBacktrack
    | (none, true) =>
      Prog.tell full
      return .disableUntilBacktrack
    | (none, false) => return .enable

/-- `install_propagators_logical` (gcs/constraints/logical/logical.cc:54-185), with `reif_state` computed in `And::prepare` (:242-246). -/
def install (lits : List Lit) (full : Lit) (root : Doms) : Chk (List (Item σ μ)) := do
  match ← testLiteral root full with
  | .definitelyTrue => return [.init .simpleDefinition (Prog.forEach Prog.tell lits)]
  | _ =>
    if lits.any (· = .ff) then return [.init .simpleDefinition (Prog.tell full.not)]
    else return [.prop (prop lits full) ((lits.foldl Triggers.addFor {}).addFor full)]

/-- `And` (gcs/constraints/logical/logical.cc:217-257). -/
def and (lits : List Lit) (full : Lit) : Doms → Chk (List (Item σ μ)) := install lits full

/-- `Or` (gcs/constraints/logical/logical.cc:268-310). -/
def or (lits : List Lit) (full : Lit) : Doms → Chk (List (Item σ μ)) := install (lits.map Lit.not) full.not

end
end Logical

namespace Parity

section
variable {σ μ : Type}

/-- The loop at gcs/constraints/parity/parity.cc:101-125; none if it returns from the function. The counter is a `long`, which cannot overflow for a vector that fits in memory. -/
def scan (d : Doms) (ones : Nat) (unknown : Option Lit) : List Lit → Chk (Option (Nat × Option Lit))
  | [] => .ok (some (ones, unknown))
  | l :: ls => do
    match ← testLiteral d l with
    | .definitelyTrue => scan d (ones + 1) unknown ls
    | .definitelyFalse => scan d ones unknown ls
    | .undecided => if unknown.isSome then return none else scan d ones (some l) ls

/-- The propagation function at gcs/constraints/parity/parity.cc:97-143. -/
def prop (lits : List Lit) : Prog σ μ PState := do
  match ← Prog.ask (scan · 0 none lits) with
  | none => return .enable
  | some (k, none) => if k % 2 = 1 then return .disableUntilBacktrack else Prog.fail
  | some (k, some u) =>
    if k % 2 = 1 then
      Prog.tell u.not
      return .disableUntilBacktrack
    else
      Prog.tell u
      return .disableUntilBacktrack

/-- `ParityOdd` (gcs/constraints/parity/parity.cc:52-146). -/
def odd (lits : List Lit) (_ : Doms) : Chk (List (Item σ μ)) := .ok [.prop (prop lits) (lits.foldl Triggers.addFor {})]

end
end Parity
end Gcs
