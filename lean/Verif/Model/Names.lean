/-!
# Names of variables and constraints (`gcs/problem.cc`)

The part of `Problem` that hands out names. Text is a list of characters.
-/

namespace Gcs

/-- What the functions below throw. -/
inductive NErr where
  | illegal | unbalanced | mismatched | duplicate | wrongNumber
  /-- `InvalidProblemDefinitionException` -/
  | invalidProblem
  deriving DecidableEq, Repr

/-- `ConstraintID` once posted (gcs/constraint_id.hh:27-56). -/
inductive ConsId where
  | numbered (n : Nat)
  | named (s : List Char)
  deriving DecidableEq, Repr

namespace Names

/-- One piece of the regular expression at gcs/problem.cc:68: a character of a class, or any number of them. -/
inductive Piece where
  | one (p : Char → Bool)
  | many (p : Char → Bool)

/-- Any number of characters of a class, and then the rest. -/
def matchMany (p : Char → Bool) (rest : List Char → Bool) : List Char → Bool
  | [] => rest []
  | c :: t => rest (c :: t) || (p c && matchMany p rest t)

/-- `std::regex_match`, for expressions made of such pieces: the whole text has to match. -/
def regexMatch : List Piece → List Char → Bool
  | [], t => t.isEmpty
  | .one _ :: _, [] => false
  | .one p :: ps, c :: t => p c && regexMatch ps t
  | .many p :: ps, t => matchMany p (regexMatch ps) t

/-- `[a-zA-Z]` -/
def letter (c : Char) : Bool := ('a' ≤ c && c ≤ 'z') || ('A' ≤ c && c ≤ 'Z')

/-- `[a-zA-Z0-9\[\]_\-\{\}]` -/
def nameChar (c : Char) : Bool := letter c || ('0' ≤ c && c ≤ '9') || c = '[' || c = ']' || c = '_' || c = '-' || c = '{' || c = '}'

/-- `allowed` (gcs/problem.cc:68). -/
def allowed : List Piece := [.many (· = '_'), .one letter, .many nameChar]

/-- The loop over the brackets (gcs/problem.cc:75-90), with the top of the stack first. -/
def brackets (stack : List Char) : List Char → Except NErr Unit
  | [] => if stack.isEmpty then .ok () else .error .unbalanced
  | c :: t =>
    if c = '[' || c = '{' then brackets (c :: stack) t
    else if c = ']' || c = '}' then
      match stack with
      | [] => .error .unbalanced
      | o :: stack => if (c = ']' && o ≠ '[') || (c = '}' && o ≠ '{') then .error .mismatched else brackets stack t
    else brackets stack t

/-- `check_name` (gcs/problem.cc:65-101): the names afterwards, or what is thrown. -/
def checkName (names : List (List Char)) (name : List Char) : Except NErr (List (List Char)) :=
  if regexMatch allowed name = false then .error .illegal
  else
    match brackets [] name with
    | .error e => .error e
    | .ok () => if name ∈ names then .error .duplicate else .ok (name :: names)

/-- What `Problem::Imp` (gcs/problem.cc:46-57) keeps: the names in `integer_variables`, the identities of `constraints`, `names`, the two counters (64 bits), and how many variables `initial_state` has. -/
structure Imp where
  vars : List (List Char) := []
  cons : List ConsId := []
  names : List (List Char) := []
  nextAnon : Nat := 0
  nextCon : Nat := 0
  allocated : Nat := 0

/-- `++` on an `unsigned long long`. -/
def next (n : Nat) : Nat := (n + 1) % 2 ^ 64

/-- `"_" + to_string(n)` -/
def numberName (n : Nat) : List Char := '_' :: Nat.toDigits 10 n

/-- `as_string(ConstraintID)` (gcs/constraint_id.hh:31-49). -/
def _root_.Gcs.ConsId.label : ConsId → List Char
  | .numbered n => numberName n
  | .named s => s

/-- The part of `create_integer_variable` after the check of the bounds (gcs/problem.cc:108-110, 121-123). The variable has been allocated when `check_name` throws. -/
def addVariable (s : Imp) : Option (List Char) → Imp × Option NErr
  | none => ({ s with allocated := s.allocated + 1, nextAnon := next s.nextAnon, vars := s.vars ++ [numberName (next s.nextAnon)] }, none)
  | some name =>
    match checkName s.names name with
    | .error e => ({ s with allocated := s.allocated + 1 }, some e)
    | .ok names => ({ s with allocated := s.allocated + 1, names := names, vars := s.vars ++ [name] }, none)

/-- `create_integer_variable` (gcs/problem.cc:103-112). -/
def createVariable (s : Imp) (lower upper : Int) (name : Option (List Char)) : Imp × Option NErr :=
  if lower > upper then (s, some .invalidProblem) else addVariable s name

/-- `post` (gcs/problem.cc:150-155). -/
def post (s : Imp) : Imp × Option NErr := ({ s with nextCon := next s.nextCon, cons := s.cons ++ [.numbered (next s.nextCon)] }, none)

/-- `create_integer_variable` with a list of values (gcs/problem.cc:114-128). -/
def createVariableOf (s : Imp) (domain : List Int) (name : Option (List Char)) : Imp × Option NErr :=
  if domain.isEmpty then (s, some .invalidProblem)
  else
    match addVariable s name with
    | (s, some e) => (s, some e)
    | (s, none) => post s

/-- The loop of `create_integer_variable_vector` (gcs/problem.cc:135-136), from index `n` on, `left` more to go. `create_n_integer_variables` (gcs/problem.hh:346-358) does the same. -/
def createVector (s : Imp) (lower upper : Int) (name : Option (List Char)) (n : Nat) : Nat → Imp × Option NErr
  | 0 => (s, none)
  | left + 1 =>
    match createVariable s lower upper (name.map fun t => t ++ '[' :: (Nat.toDigits 10 n ++ [']'])) with
    | (s, some e) => (s, some e)
    | (s, none) => createVector s lower upper name (n + 1) left

/-- `post_named` (gcs/problem.cc:157-162). -/
def postNamed (s : Imp) (name : List Char) : Imp × Option NErr :=
  match checkName s.names name with
  | .error e => (s, some e)
  | .ok names => ({ s with names := names, cons := s.cons ++ [.named name] }, none)

/-- `post_autonumbered` (gcs/problem.cc:164-176). -/
def postAutonumbered (s : Imp) (expected : Nat) : Imp × Option NErr :=
  if expected ≠ next s.nextCon then (s, some .wrongNumber) else post s

/-- The calls a user may make. -/
inductive Call where
  | variable (lower upper : Int) (name : Option (List Char))
  | variableOf (domain : List Int) (name : Option (List Char))
  | vector (howMany : Nat) (lower upper : Int) (name : Option (List Char))
  | post
  | postNamed (name : List Char)
  | postAutonumbered (expected : Nat)

def call (s : Imp) : Call → Imp × Option NErr
  | .variable l u name => createVariable s l u name
  | .variableOf d name => createVariableOf s d name
  | .vector k l u name => createVector s l u name 0 k
  | .post => post s
  | .postNamed name => postNamed s name
  | .postAutonumbered n => postAutonumbered s n

/-- A history of calls. The user may catch what is thrown and go on. -/
def history : Imp → List Call → Imp
  | s, [] => s
  | s, c :: cs => history (call s c).1 cs

end Names
end Gcs
