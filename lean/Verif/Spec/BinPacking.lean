/-!
# What bin packing says
-/

namespace Gcs

/-- How much is put in bin `b`, if item number `i` is in bin `items[i]`. -/
def binLoad (items sizes : List Int) (b : Int) : Int := (((items.zip sizes).filter fun p => decide (p.1 = b)).map (·.2)).sum

/-- Every item is in one of the bins, and each bin has its load. -/
def BinsLoaded (items sizes loads : List Int) : Prop := (∀ x ∈ items, 0 ≤ x ∧ x < loads.length) ∧ ∀ b t, loads[b]? = some t → binLoad items sizes (b : Nat) = t

/-- Every item is in one of the bins, and no bin has more than its capacity. -/
def BinsFit (items sizes capacities : List Int) : Prop := (∀ x ∈ items, 0 ≤ x ∧ x < capacities.length) ∧ ∀ b c, capacities[b]? = some c → binLoad items sizes (b : Nat) ≤ c

end Gcs
