import Verif.Spec.Semantics

/-!
# Automata, and which words they accept

`step i q x q'` says that if the `i`-th value of a word is `x`, and the automaton is in state `q`, it may go to state `q'`.
-/

namespace Gcs

/-- There is a way of reading the word, in state `q` and at position `i`, that ends in a final state. -/
def Accepts (step : Nat → Nat → Int → Nat → Prop) (final : List Int) : Nat → Nat → List Int → Prop
  | _, q, [] => (q : Int) ∈ final
  | i, q, x :: xs => ∃ q', step i q x q' ∧ Accepts step final (i + 1) q' xs

/-- For each state, a map from values to sets of states. -/
def Regular.Moves (transitions : List (List (Int × List Int))) (_ q : Nat) (x : Int) (q' : Nat) : Prop := ∃ m s, transitions[q]? = some m ∧ (x, s) ∈ m ∧ (q' : Int) ∈ s

/-- For each state, a map from values to states, or to -1 (which is no state). -/
def Regular.MapMoves (t : List (List (Int × Int))) (_ q : Nat) (x : Int) (q' : Nat) : Prop := ∃ m, t[q]? = some m ∧ (x, (q' : Int)) ∈ m

/-- For each state, a row of states, or -1 for none, for the values 0, 1, 2 and so on. -/
def Regular.RowMoves (t : List (List Int)) (_ q : Nat) (x : Int) (q' : Nat) : Prop := ∃ row j, t[q]? = some row ∧ x = (j : Nat) ∧ row[j]? = some (q' : Int)

/-- For each layer and node, a map from values to nodes of the next layer, or to -1 (which is no node). -/
def MDD.Moves (layers : List (List (List (Int × Int)))) (i q : Nat) (x : Int) (q' : Nat) : Prop := ∃ l m, layers[i]? = some l ∧ l[q]? = some m ∧ (x, (q' : Int)) ∈ m

/-- A map has one entry for a key. -/
def IsMap {α β : Type} (m : List (α × β)) : Prop := (m.map (·.1)).Nodup

end Gcs
