/-!
# S-expressions (`gcs/innards/s_expr.hh`, `s_expr.cc`)

Text is a list of characters. The depth of the recursion is not limited here.
-/

namespace Gcs

/-- `SExpr` (gcs/innards/s_expr.hh:55-79). -/
inductive SExpr where
  | atom (a : List Char)
  | list (l : List SExpr)

/-- The messages of `SExprParseError` thrown by the functions below. -/
inductive SErr where
  | expectingTerm | unexpectedClose | unclosed | empty | trailing
  /-- the bound on the recursion was reached; the code has none -/
  | diverge
  deriving DecidableEq, Repr

namespace SExpr

/-- `is_space` (gcs/innards/s_expr.cc:62-65). -/
def isSpace (c : Char) : Bool := c = ' ' ∨ c = '\t' ∨ c = '\n' ∨ c = '\r' ∨ c = '\x0c' ∨ c = '\x0b'

/-- What the loop at gcs/innards/s_expr.cc:114 takes into an atom. -/
def isAtomChar (c : Char) : Bool := !isSpace c && c ≠ '(' && c ≠ ')'

/-- `skip_whitespace` (gcs/innards/s_expr.cc:76-80): the text from `pos` on. -/
def skip : List Char → List Char
  | [] => []
  | c :: t => if isSpace c then skip t else c :: t

/-- gcs/innards/s_expr.cc:113-116: the atom and what follows it. -/
def takeAtom : List Char → List Char × List Char
  | [] => ([], [])
  | c :: t => if isAtomChar c then (c :: (takeAtom t).1, (takeAtom t).2) else ([], c :: t)

mutual
/-- `read_one` (gcs/innards/s_expr.cc:89-117), with what remains to be read. -/
def readOne : Nat → List Char → Except SErr (SExpr × List Char)
  | 0, _ => .error .diverge
  | f + 1, t =>
    match skip t with
    | [] => .error .expectingTerm
    | c :: r =>
      if c = ')' then .error .unexpectedClose
      else if c = '(' then readChildren f [] r
      else .ok (.atom (takeAtom (c :: r)).1, (takeAtom (c :: r)).2)
  termination_by structural f => f

/-- The loop at gcs/innards/s_expr.cc:100-110. -/
def readChildren : Nat → List SExpr → List Char → Except SErr (SExpr × List Char)
  | 0, _, _ => .error .diverge
  | f + 1, children, t =>
    match skip t with
    | [] => .error .unclosed
    | c :: r =>
      if c = ')' then .ok (.list children, r)
      else
        match readOne f (c :: r) with
        | .ok (e, r') => readChildren f (children ++ [e]) r'
        | .error e => .error e
  termination_by structural f => f
end

/-- `parse_s_expr` (gcs/innards/s_expr.cc:121-130). -/
def parse (text : List Char) : Except SErr SExpr :=
  match skip text with
  | [] => .error .empty
  | t =>
    match readOne (2 * t.length + 2) t with
    | .ok (e, r) => if skip r = [] then .ok e else .error .trailing
    | .error e => .error e

/-- The loop of `parse_s_expr_seq` (gcs/innards/s_expr.cc:136-138). -/
def readAll : Nat → List SExpr → List Char → Except SErr (List SExpr)
  | 0, _, _ => .error .diverge
  | f + 1, result, t =>
    match skip t with
    | [] => .ok result
    | c :: r =>
      match readOne (2 * (c :: r).length + 2) (c :: r) with
      | .ok (e, r') => readAll f (result ++ [e]) r'
      | .error e => .error e

/-- `parse_s_expr_seq` (gcs/innards/s_expr.cc:132-139). -/
def parseSeq (text : List Char) : Except SErr (List SExpr) := readAll (text.length + 1) [] text

mutual
/-- `format("{}", e)` (gcs/innards/s_expr.hh:124-142). -/
def format : SExpr → List Char
  | .atom a => a
  | .list l => '(' :: (formatAll true l ++ [')'])

/-- The loop over the children, with the local variable `first` (gcs/innards/s_expr.hh:131-137). -/
def formatAll : Bool → List SExpr → List Char
  | _, [] => []
  | first, e :: es => (if first then [] else [' ']) ++ format e ++ formatAll false es
end

/-- `format("{:#}", e)`. -/
def formatBare : SExpr → List Char
  | .atom a => a
  | .list l => formatAll true l

end SExpr
end Gcs
