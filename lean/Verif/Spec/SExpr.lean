import Verif.Model.SExpr

/-!
# The grammar of s-expressions

What text stands for which s-expression, without saying how to read it.
-/

namespace Gcs.SExpr

/-- Only white space. -/
def Blank (t : List Char) : Prop := ∀ c ∈ t, c ∈ [' ', '\t', '\n', '\r', '\x0c', '\x0b']

/-- A character that may be part of an atom. -/
def Inside (c : Char) : Prop := c ∉ [' ', '\t', '\n', '\r', '\x0c', '\x0b', '(', ')']

/-- A proper atom. -/
def Token (a : List Char) : Prop := a ≠ [] ∧ ∀ c ∈ a, Inside c

mutual
/-- The text of one term, without white space around it. -/
inductive Text : List Char → SExpr → Prop
  | atom {a : List Char} : Token a → Text a (.atom a)
  | list {t : List Char} {es : List SExpr} : Texts t es → Text ('(' :: (t ++ [')'])) (.list es)

/-- The text of several terms. Terms may be next to each other without white space, except for two atoms. -/
inductive Texts : List Char → List SExpr → Prop
  | nil {ws : List Char} : Blank ws → Texts ws []
  | cons {ws t rest : List Char} {e : SExpr} {es : List SExpr} : Blank ws → Text t e → Texts rest es →
      ((∃ a, e = .atom a) → ∀ c r, rest = c :: r → ¬ Inside c) → Texts (ws ++ t ++ rest) (e :: es)
end

/-- All atoms are proper ones. -/
inductive Proper : SExpr → Prop
  | atom {a : List Char} : Token a → Proper (.atom a)
  | list {es : List SExpr} : (∀ e ∈ es, Proper e) → Proper (.list es)

end Gcs.SExpr
