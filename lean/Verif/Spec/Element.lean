import Verif.Model.Cons.Element
import Verif.Spec.Semantics

/-!
# Arrays and their elements
-/

namespace Gcs

/-- The entry at some positions, one for each dimension, if there is one. -/
def Arr.at? : (k : Nat) → Arr k → List Int → Option VarId
  | 0, v, [] => some v
  | 0, _, _ :: _ => none
  | _ + 1, _, [] => none
  | k + 1, rows, p :: ps => if p < 0 then none else (Arr.rows rows)[p.toNat]?.bind fun r => Arr.at? k r ps

/-- The result is the entry at the values of the index variables, each of which is counted from some number. -/
def IsElement (k : Nat) (A : Arr k) (result : VarId) (idx : List (VarId × Int)) (a : Asg) : Prop :=
  ∃ v, Arr.at? k A (idx.map fun q => q.1.eval a - q.2) = some v ∧ result.eval a = v.eval a

/-- The numbers of elements in each dimension. -/
def Arr.Regular : (k : Nat) → Arr k → List Nat → Prop
  | 0, _, ns => ns = []
  | _ + 1, _, [] => False
  | k + 1, rows, n :: ns => (Arr.rows rows).length = n ∧ ∀ r ∈ Arr.rows rows, Arr.Regular k r ns

theorem Arr.at?_cons {k : Nat} {A : Arr (k + 1)} {p : Int} {ps : List Int} {v : VarId} : Arr.at? (k + 1) A (p :: ps) = some v ↔ ∃ (i : Nat) (r : Arr k), p = i ∧ A.rows[i]? = some r ∧ Arr.at? k r ps = some v := by
  rw [show Arr.at? (k + 1) A (p :: ps) = if p < 0 then none else A.rows[p.toNat]?.bind fun r => Arr.at? k r ps from rfl]
  constructor
  · intro h
    split at h
    · cases h
    · rw [Option.bind_eq_some_iff] at h
      obtain ⟨r, h1, h2⟩ := h
      exact ⟨_, r, by omega, h1, h2⟩
  · rintro ⟨i, r, rfl, h1, h2⟩
    rw [if_neg (by omega), Int.toNat_natCast, h1]
    exact h2

theorem Arr.at?_zero {A : Arr 0} {v : VarId} : Arr.at? 0 A [] = some v ↔ A = v := ⟨fun h => Option.some.inj h, fun h => congrArg some h⟩

/-- With one dimension: `result = vs[x - s]`. -/
theorem isElement_one {vs : List VarId} {result x : VarId} {s : Int} {a : Asg} :
    IsElement 1 vs result [(x, s)] a ↔ ∃ (i : Nat) (v : VarId), x.eval a = s + i ∧ vs[i]? = some v ∧ result.eval a = v.eval a := by
  simp only [IsElement, List.map_cons, List.map_nil]
  constructor
  · rintro ⟨v, h, h4⟩
    obtain ⟨i, r, h1, h2, h3⟩ := Arr.at?_cons.1 h
    cases Arr.at?_zero.1 h3
    exact ⟨i, v, by omega, h2, h4⟩
  · rintro ⟨i, v, h1, h2, h3⟩
    exact ⟨v, Arr.at?_cons.2 ⟨i, v, by omega, h2, Arr.at?_zero.2 rfl⟩, h3⟩

/-- With two dimensions: `result = rows[x - s][y - t]`. -/
theorem isElement_two {rows : List (List VarId)} {result x y : VarId} {s t : Int} {a : Asg} :
    IsElement 2 rows result [(x, s), (y, t)] a ↔
      ∃ (i j : Nat) (r : List VarId) (v : VarId), x.eval a = s + i ∧ y.eval a = t + j ∧ rows[i]? = some r ∧ r[j]? = some v ∧ result.eval a = v.eval a := by
  simp only [IsElement, List.map_cons, List.map_nil]
  constructor
  · rintro ⟨v, h, h6⟩
    obtain ⟨i, r, h1, h2, h⟩ := Arr.at?_cons.1 h
    obtain ⟨j, u, h3, h4, h5⟩ := Arr.at?_cons.1 h
    cases Arr.at?_zero.1 h5
    exact ⟨i, j, r, v, by omega, by omega, h2, h4, h6⟩
  · rintro ⟨i, j, r, v, h1, h2, h3, h4, h5⟩
    exact ⟨v, Arr.at?_cons.2 ⟨i, r, by omega, h3, Arr.at?_cons.2 ⟨j, v, by omega, h4, Arr.at?_zero.2 rfl⟩⟩, h5⟩

end Gcs
