/-!
# Regular expressions: how they are written, and which words they match

The syntax is that of the header (`gcs/constraints/regular/regex.hh`): numbers are symbols, expressions are concatenated by writing them one after the other, and there are `|`, groups, `.`, classes, negated classes and
quantifiers.
-/

namespace Gcs.Regex

/-- What a text consists of: numbers, and the characters that mean something. -/
inductive Tok where
  | num (n : Nat)
  | bar | plus | star | groupOpen | groupClose | opt | quantOpen | quantClose | comma | any | classOpen | classClose | dash | caret
  deriving DecidableEq, Repr

/-- Regular expressions. A class is a list of ranges, given by their ends in either order. -/
inductive Expr where
  | lit (n : Nat)
  | any
  | cls (negated : Bool) (items : List (Nat × Nat))
  | seq (a b : Expr)
  | alt (a b : Expr)
  | star (a : Expr)
  | plus (a : Expr)
  | opt (a : Expr)
  | exactly (a : Expr) (n : Nat)
  | atLeast (a : Expr) (n : Nat)
  | between (a : Expr) (n m : Nat)

/-! ## What they match -/

/-- The word is made of `n` words of a language, one after the other. -/
def Times (L : List Int → Prop) : Nat → List Int → Prop
  | 0, w => w = []
  | n + 1, w => ∃ u v, w = u ++ v ∧ L u ∧ Times L n v

/-- The number is in one of the ranges. -/
def InClass (items : List (Nat × Nat)) (x : Int) : Prop := ∃ p ∈ items, ((p.1 : Int) ≤ x ∧ x ≤ p.2) ∨ ((p.2 : Int) ≤ x ∧ x ≤ p.1)

/-- The expression matches the whole word. `A` are the values that `.` stands for. -/
def Expr.Matches (A : Int → Prop) : Expr → List Int → Prop
  | .lit n, w => w = [(n : Int)]
  | .any, w => ∃ x, w = [x] ∧ A x
  | .cls false items, w => ∃ x, w = [x] ∧ InClass items x
  | .cls true items, w => ∃ x, w = [x] ∧ A x ∧ ¬ InClass items x
  | .seq a b, w => ∃ u v, w = u ++ v ∧ a.Matches A u ∧ b.Matches A v
  | .alt a b, w => a.Matches A w ∨ b.Matches A w
  | .star a, w => ∃ k, Times (a.Matches A) k w
  | .plus a, w => ∃ k, 1 ≤ k ∧ Times (a.Matches A) k w
  | .opt a, w => w = [] ∨ a.Matches A w
  | .exactly a n, w => Times (a.Matches A) n w
  | .atLeast a n, w => ∃ k, n ≤ k ∧ Times (a.Matches A) k w
  | .between a n m, w => ∃ k, n ≤ k ∧ k ≤ m ∧ Times (a.Matches A) k w

/-! ## How they are written -/

/-- What is in a class: numbers, and ranges of numbers; at least one of them. -/
inductive Items : List (Nat × Nat) → List Tok → Prop where
  | one (n : Nat) : Items [(n, n)] [.num n]
  | range (n m : Nat) : Items [(n, m)] [.num n, .dash, .num m]
  | oneMore (n : Nat) {items : List (Nat × Nat)} {ts : List Tok} : Items items ts → Items ((n, n) :: items) (.num n :: ts)
  | rangeMore (n m : Nat) {items : List (Nat × Nat)} {ts : List Tok} : Items items ts → Items ((n, m) :: items) (.num n :: .dash :: .num m :: ts)

/-- The kinds of expression: a quantifier binds more tightly than concatenation, which binds more tightly than `|`. -/
inductive Level where
  | expr | term | factor | atom
  deriving DecidableEq

/-- The expression can be written like this. -/
inductive Reads : Level → Expr → List Tok → Prop where
  | term {a : Expr} {ts : List Tok} : Reads .term a ts → Reads .expr a ts
  | alt {a b : Expr} {ts us : List Tok} : Reads .term a ts → Reads .expr b us → Reads .expr (.alt a b) (ts ++ .bar :: us)
  | factor {a : Expr} {ts : List Tok} : Reads .factor a ts → Reads .term a ts
  | seq {a b : Expr} {ts us : List Tok} : Reads .factor a ts → Reads .term b us → Reads .term (.seq a b) (ts ++ us)
  | atom {a : Expr} {ts : List Tok} : Reads .atom a ts → Reads .factor a ts
  | star {a : Expr} {ts : List Tok} : Reads .atom a ts → Reads .factor (.star a) (ts ++ [.star])
  | plus {a : Expr} {ts : List Tok} : Reads .atom a ts → Reads .factor (.plus a) (ts ++ [.plus])
  | opt {a : Expr} {ts : List Tok} : Reads .atom a ts → Reads .factor (.opt a) (ts ++ [.opt])
  | exactly {a : Expr} {ts : List Tok} (n : Nat) : Reads .atom a ts → Reads .factor (.exactly a n) (ts ++ [.quantOpen, .num n, .quantClose])
  | atLeast {a : Expr} {ts : List Tok} (n : Nat) : Reads .atom a ts → Reads .factor (.atLeast a n) (ts ++ [.quantOpen, .num n, .comma, .quantClose])
  | between {a : Expr} {ts : List Tok} {n m : Nat} : n ≤ m → Reads .atom a ts → Reads .factor (.between a n m) (ts ++ [.quantOpen, .num n, .comma, .num m, .quantClose])
  | lit (n : Nat) : Reads .atom (.lit n) [.num n]
  | any : Reads .atom .any [.any]
  | cls {items : List (Nat × Nat)} {ts : List Tok} : Items items ts → Reads .atom (.cls false items) (.classOpen :: (ts ++ [.classClose]))
  | notCls {items : List (Nat × Nat)} {ts : List Tok} : Items items ts → Reads .atom (.cls true items) (.classOpen :: .caret :: (ts ++ [.classClose]))
  | group {a : Expr} {ts : List Tok} : Reads .expr a ts → Reads .atom a (.groupOpen :: (ts ++ [.groupClose]))

/-- The characters, apart from digits, that mean something. -/
def signs : List (Char × Tok) :=
  [('|', .bar), ('+', .plus), ('*', .star), ('(', .groupOpen), (')', .groupClose), ('?', .opt), ('{', .quantOpen), ('}', .quantClose), (',', .comma), ('.', .any), ('[', .classOpen), (']', .classClose), ('-', .dash), ('^', .caret)]

/-- Decimal digits. -/
def digits : List Char := ['0', '1', '2', '3', '4', '5', '6', '7', '8', '9']

/-- The number that is written with these digits. -/
def value (ds : List Char) : Nat := ds.foldl (fun n c => 10 * n + digits.idxOf c) 0

/-- What a text consists of. Spaces only matter for where a number ends: as many digits as possible make one number. -/
inductive Lexes : List Char → List Tok → Prop where
  | nil : Lexes [] []
  | space {c : Char} {s : List Char} {ts : List Tok} : c ∈ [' ', '\t', '\n'] → Lexes s ts → Lexes (c :: s) ts
  | sign {c : Char} {t : Tok} {s : List Char} {ts : List Tok} : (c, t) ∈ signs → Lexes s ts → Lexes (c :: s) (t :: ts)
  | number {ds s : List Char} {ts : List Tok} : ds ≠ [] → (∀ c ∈ ds, c ∈ digits) → (∀ c, s.head? = some c → c ∉ digits) → Lexes s ts → Lexes (ds ++ s) (.num (value ds) :: ts)

/-- The text is a regular expression, written out. -/
def Writes (e : Expr) (s : List Char) : Prop := ∃ ts, Lexes s ts ∧ Reads .expr e ts

/-- No number in the text is too large. -/
def Small (s : List Char) : Prop := ∀ ds, ds <:+: s → (∀ c ∈ ds, c ∈ digits) → value ds < 2 ^ 63 - 1

end Gcs.Regex
