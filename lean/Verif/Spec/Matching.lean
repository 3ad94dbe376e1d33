import Verif.Model.Cons.Matching

/-!
# What the graph algorithms are to find
-/

namespace Gcs.Gac

/-- A graph as built: edges end at the values and phantoms there are. -/
structure Graph.WF (G : Graph) : Prop where
  edges : ∀ i < G.nL, ∀ r ∈ G.adj i, r < G.nR
  vals : G.nVals ≤ G.nR

/-- A choice of an edge for each variable such that no two choose the same. -/
structure Choice (G : Graph) (c : Nat → Nat) : Prop where
  edge : ∀ i < G.nL, c i ∈ G.adj i
  inj : ∀ i < G.nL, ∀ j < G.nL, c i = c j → i = j

/-- No value is in the list twice. -/
def Injective (old : List (Option Nat)) : Prop := ∀ i j r : Nat, old[i]? = some (some r) → old[j]? = some (some r) → i = j

/-- A matching: both vectors agree, and every pair is an edge. -/
structure Match.OK (G : Graph) (M : Match) : Prop where
  edge : ∀ i r, M.m i = some r → i < G.nL ∧ r ∈ G.adj i
  back : ∀ i r, M.m i = some r ↔ M.inv r = some i

end Gcs.Gac
