import Verif.Model.Search
import Verif.Model.Heuristics
import Verif.Model.Cons.Table

/-!
# AutoTable (`gcs/presolvers/auto_table/auto_table.cc`)

The presolver: find all ways to fix some variables that propagation does not refute, and add a table with these. Proofs and statistics are not modelled.
-/

namespace Gcs.AutoTable

section
variable {σ μ : Type}

/-- The tuple made at auto_table.cc:61-63. -/
def values (d : Doms) : List VarId → Chk (List Int)
  | [] => .ok []
  | v :: vs => do
    let x ← valueOf d v
    let r ← values d vs
    return x :: r

/-- The loop at auto_table.cc:89-95, where `sub` is `solve_subproblem`. Tuples are returned here, where the code appends them to a vector. As in `Model/Search.lean`, the branches come as a list. -/
def branches (sub : Cond → Sys σ μ → Chk (List (List Int) × Sys σ μ)) : List Cond → Sys σ μ → Chk (List (List Int) × Sys σ μ)
  | [], s => .ok ([], s)
  | g :: gs, s => do
    let e ← s.st.newEpoch false
    let st ← e.2.guess (.cond g)
    let x ← sub g { s with st := st }
    let s1 ← x.2.backtrack e.1
    let y ← branches sub gs s1
    return (x.1 ++ y.1, y.2)

/-- The branching of auto_table.cc:121, `dom_then_deg` and `smallest_first`. -/
def branch (E : Engine σ μ) (vars : List VarId) (d : Doms) : Chk (List Cond) := branchWith (domThenDeg (fun v => (E.degreeOf v : Int)) vars) smallestFirst d

/-- `solve_subproblem` (auto_table.cc:40-107). The recursion is bounded by `fuel`. -/
def subproblem (E : Engine σ μ) (vars : List VarId) : Nat → Option Cond → Sys σ μ → Chk (List (List Int) × Sys σ μ)
  | 0, _, _ => .error .diverge
  | fuel + 1, guess, s => do
    let y ← Sys.propagate E (guess.toList.map .cond) (fun _ => false) s
    if y.1 = false then return ([], y.2)
    else
      let bs ← branch E vars y.2.doms
      if bs = [] then
        let t ← values y.2.doms vars
        return ([t], y.2)
      else branches (fun g c => subproblem E vars fuel (some g) c) bs y.2

/-- `AutoTable::run` up to and including the test for there being tuples (auto_table.cc:110-140), giving the tuples. `none`: `run` returns false. -/
def run (E : Engine σ μ) (vars : List VarId) (fuel : Nat) (s : Sys σ μ) : Chk (Option (List (List Int)) × Sys σ μ) := do
  let e ← s.st.newEpoch true
  let st ← e.2.guess .tt
  let x ← subproblem E vars fuel none { s with st := st }
  let s1 ← x.2.backtrack e.1
  return (if x.1 = [] then none else some x.1, s1)

/-- The domain of the selector that `AutoTable::run` allocates, after all other variables (auto_table.cc:142-144). -/
def selector (tuples : List (List Int)) : IntervalSet := [(0, (tuples.length : Int) - 1)]

/-- What is installed (auto_table.cc:146-156), `n` being the number of variables so far. Unlike for `Table`, the selector is no trigger. -/
def item (n : Nat) (vars : List VarId) (tuples : List (List Int)) (fresh : Nat → Bool) (cache : Nat → Nat → Int → Option Nat) : Item σ μ :=
  .prop (Table.prop (.simple n) vars (tuples.map (·.map some)) fresh cache) { onChange := vars }

end
end Gcs.AutoTable
