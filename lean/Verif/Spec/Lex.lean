import Verif.Spec.Semantics

/-!
# Lexicographic order
-/

namespace Gcs

/-- `xs` comes after `ys`, or is equal to it if that is enough. The longer list is the greater one if the other is the first part of it. -/
def LexGreater (orEqual : Bool) : List Int → List Int → Prop
  | [], [] => orEqual = true
  | [], _ :: _ => False
  | _ :: _, [] => True
  | x :: xs, y :: ys => x > y ∨ x = y ∧ LexGreater orEqual xs ys

/-- This is the usual order on lists. -/
theorem lexGreater_iff : ∀ (orEqual : Bool) (xs ys : List Int), LexGreater orEqual xs ys ↔ ys < xs ∨ orEqual = true ∧ xs = ys
  | oe, [], [] => by simp [LexGreater]
  | oe, [], _ :: _ => by simp [LexGreater]
  | oe, _ :: _, [] => by simp [LexGreater]
  | oe, x :: xs, y :: ys => by
    simp only [LexGreater, lexGreater_iff oe xs ys, List.cons_lt_cons_iff, List.cons.injEq]
    constructor
    · rintro (h | ⟨rfl, h | ⟨h1, h2⟩⟩)
      · exact .inl (.inl h)
      · exact .inl (.inr ⟨rfl, h⟩)
      · exact .inr ⟨h1, rfl, h2⟩
    · rintro ((h | ⟨rfl, h⟩) | ⟨h1, rfl, h2⟩)
      · exact .inl h
      · exact .inr ⟨rfl, .inl h⟩
      · exact .inr ⟨rfl, .inr ⟨h1, h2⟩⟩

/-- What is not greater is less, or equal if that was not enough. -/
theorem lexGreater_not : ∀ (orEqual : Bool) (xs ys : List Int), ¬ LexGreater orEqual xs ys ↔ LexGreater (!orEqual) ys xs
  | oe, [], [] => by simp [LexGreater]
  | oe, [], _ :: _ => by simp [LexGreater]
  | oe, _ :: _, [] => by simp [LexGreater]
  | oe, x :: xs, y :: ys => by
    simp only [LexGreater, ← lexGreater_not oe xs ys]
    constructor
    · intro h
      rcases Int.lt_trichotomy x y with k | k | k
      · exact .inl k
      · exact .inr ⟨k.symm, fun h' => h (.inr ⟨k, h'⟩)⟩
      · exact absurd (.inl k) h
    · rintro (h | ⟨rfl, h⟩) (k | ⟨k, k'⟩)
      · omega
      · omega
      · omega
      · exact h k'

end Gcs
