import Verif.Model.Names

/-! What a name is. -/

namespace Gcs.Names

/-- Underscores, a letter, and then letters, digits, brackets, braces, underscores and dashes. -/
def Shape (t : List Char) : Prop :=
  ∃ us c rest, t = us ++ c :: rest ∧ (∀ u ∈ us, u = '_') ∧ c.isAlpha = true ∧ ∀ x ∈ rest, x.isAlphanum = true ∨ x ∈ ['[', ']', '_', '-', '{', '}']

/-- Brackets and braces come in pairs, one inside another. -/
inductive Nested : List Char → Prop
  | nil : Nested []
  | other {c : Char} {t : List Char} : c ∉ ['[', ']', '{', '}'] → Nested t → Nested (c :: t)
  | square {a b : List Char} : Nested a → Nested b → Nested ('[' :: (a ++ ']' :: b))
  | curly {a b : List Char} : Nested a → Nested b → Nested ('{' :: (a ++ '}' :: b))

/-- A name a user may give. -/
def Good (t : List Char) : Prop := Shape t ∧ Nested t

end Gcs.Names
