import Verif.Model.Nogoods
import Verif.Model.Cons.Steps
import Verif.Model.Constraint

/-!
# NegativeTable (`gcs/constraints/table/negative_table.cc`)

A forbidden tuple is treated as a nogood. The propagator (`:202-310`) does with tuples what `install_refined_nogoods` does with nogoods, so the model of that one is used: the tuples, which the propagation function
has captured, are the store of nogoods, kept in a part of captured memory that nobody writes, next to `set_up` (`:319`). A position with a wildcard is always broken, so it is never chosen: here such positions
are left out, and the others numbered without them. The numbers are seen only in the scratch state of watches.
-/

namespace Gcs.NegativeTable

/-- `vars[p] == t[p]` for all positions that do not have wildcards (negative_table.cc:79-110). -/
def conds : List VarId → List (Option Int) → List Cond
  | v :: vs, some x :: t => Cond.eq v x :: conds vs t
  | _ :: vs, none :: t => conds vs t
  | _, _ => []

section
variable {σ μ : Type}

/-- The body of the loop at negative_table.cc:167-187. -/
def detectOne (g : List Cond) : Prog σ μ Unit :=
  (Prog.ask (Nogoods.findUnbroken · none 0 g)).bind fun
  | none => .fail
  | some p => (Prog.ask (Nogoods.findUnbroken · (some p) 0 g)).bind fun
    | none => match g[p]? with
      | some c => .infer (.cond c.not) false fun _ => .ret ()
      | none => .raise .ub
    | some _ => .ret ()

/-- `detect_root_negative_table` (negative_table.cc:162-188). -/
def detectRoot (gs : List (List Cond)) : Prog σ μ Unit := Prog.forEach detectOne gs

/-- `NegativeTable` (negative_table.cc:127-138, :312-364), as propagator number `me`. -/
def install (cell : Cell μ NogoodMem) (me : Nat) (vars : List VarId) (tuples : List (List (Option Int))) : Chk (List (Item σ μ)) :=
  if tuples.any (fun t => decide (t.length ≠ vars.length)) then .error .invalidProblem
  else .ok [.init .simpleDefinition (detectRoot (tuples.map (conds vars))), .prop (Nogoods.refined cell me) { scopeOnly := vars }]

/-- What the propagator has captured when it is installed (negative_table.cc:319, :355). -/
def memory (vars : List VarId) (tuples : List (List (Option Int))) : NogoodMem := { store := tuples.map (conds vars) }

end
end Gcs.NegativeTable
