import Verif.Model.Search
import Verif.Model.Constraint

/-!
# `solve_with`

`gcs/solve.cc:280-470`, without presolvers and proof logging: run the initialisers, then search.
-/

namespace Gcs

section
variable {σ μ : Type}

/-- `solve_with` from gcs/solve.cc:349 on, for the propagators in `S`. If an initialiser fails, there is no search and `callbacks.completed` is called (:453-458). -/
def solve (V : SearchEnv σ μ) (S : Setup σ μ) (depthFuel fuel : Nat) (sched : Option Restarts) (s : Sys σ μ) : Chk (Explored σ μ × Bool) := do
  let x ← Sys.initialise S.order s
  if x.1 then search V depthFuel fuel sched x.2 else return ((.complete, false, x.2, {}), true)

end
end Gcs
