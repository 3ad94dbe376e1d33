/-!
# What Circuit asks for
-/

namespace Gcs

/-- Following the successors leads from the first node to the second one. -/
inductive Leads (succ : List Int) : Nat → Nat → Prop
  | here (i : Nat) : Leads succ i i
  | on {i j k : Nat} : succ[i]? = some (j : Int) → Leads succ j k → Leads succ i k

/-- The successors are nodes, and following them leads from everywhere to everywhere: they form one cycle through all nodes. -/
def Tour (succ : List Int) : Prop := (∀ v ∈ succ, 0 ≤ v ∧ v < succ.length) ∧ ∀ i j, i < succ.length → j < succ.length → Leads succ i j

end Gcs
