import Verif.Model.Integer

/-!
# L2: variables, views, conditions, literals

Models `gcs/variable_id.hh`, `gcs/variable_id.cc`, `gcs/variable_condition.hh`, `gcs/innards/literal.hh` and `gcs/innards/literal.cc`.
-/

namespace Gcs

/-- gcs/variable_id.hh:26-99: `IntegerVariableID`, a variant of simple variable, view (`negate_first`, `then_add`), constant. -/
inductive VarId where
  | simple (index : Nat)
  | view (actual : Nat) (negateFirst : Bool) (thenAdd : Int)
  | const (value : Int)
  deriving DecidableEq, Repr

namespace VarId

/-- gcs/variable_id.cc:9-26. -/
def addOffset (v : VarId) (o : Int) : Chk VarId :=
  match v with
  | simple i => .ok (if o = 0 then simple i else view i false o)
  | const c => do return const (← iAdd c o)
  | view i neg add => do
    let thenAdd ← iAdd add o
    if ¬ neg ∧ thenAdd = 0 then return simple i
    else return view i neg thenAdd

/-- gcs/variable_id.cc:28-38. -/
def subOffset (v : VarId) (o : Int) : Chk VarId :=
  match v with
  | simple i => do return view i false (← iNeg o)
  | const c => do return const (← iSub c o)
  | view i neg add => do return view i neg (← iSub add o)

/-- gcs/variable_id.cc:40-50. -/
def negate (v : VarId) : Chk VarId :=
  match v with
  | simple i => .ok (view i true 0)
  | const c => do return const (← iNeg c)
  | view i neg add => do return view i (!neg) (← iNeg add)

end VarId

/-- gcs/variable_condition.hh:16-24. -/
inductive CondOp where
  | equal | notEqual | greaterEqual | less | inRange | notInRange
  deriving DecidableEq, Repr

/-- gcs/variable_condition.hh:39-58. `upper` is unused (0) for the four scalar operators. -/
structure Cond where
  var : VarId
  op : CondOp
  value : Int
  upper : Int := 0
  deriving DecidableEq, Repr

namespace Cond

/-- gcs/variable_condition.hh:113-116. -/
def eq (v : VarId) (x : Int) : Cond := ⟨v, .equal, x, 0⟩
/-- gcs/variable_condition.hh:127-130. -/
def ne (v : VarId) (x : Int) : Cond := ⟨v, .notEqual, x, 0⟩
/-- gcs/variable_condition.hh:141-144. -/
def lt (v : VarId) (x : Int) : Cond := ⟨v, .less, x, 0⟩
/-- gcs/variable_condition.hh:155-158. -/
def ge (v : VarId) (x : Int) : Cond := ⟨v, .greaterEqual, x, 0⟩
/-- gcs/variable_condition.hh:173-176. -/
def le (v : VarId) (x : Int) : Chk Cond := do return ⟨v, .less, ← iAdd x 1, 0⟩
/-- gcs/variable_condition.hh:191-194. -/
def gt (v : VarId) (x : Int) : Chk Cond := do return ⟨v, .greaterEqual, ← iAdd x 1, 0⟩
/-- gcs/variable_condition.hh:208-215. -/
def inRange (v : VarId) (lo hi : Int) : Chk Cond :=
  if lo > hi then .error .invalidProblem
  else if lo = hi then .ok ⟨v, .equal, lo, 0⟩
  else .ok ⟨v, .inRange, lo, hi⟩
/-- gcs/variable_condition.hh:229-236. -/
def notInRange (v : VarId) (lo hi : Int) : Chk Cond :=
  if lo > hi then .error .invalidProblem
  else if lo = hi then .ok ⟨v, .notEqual, lo, 0⟩
  else .ok ⟨v, .notInRange, lo, hi⟩

/-- gcs/variable_condition.hh:245-257. -/
def not (c : Cond) : Cond :=
  match c.op with
  | .equal => ⟨c.var, .notEqual, c.value, 0⟩
  | .notEqual => ⟨c.var, .equal, c.value, 0⟩
  | .less => ⟨c.var, .greaterEqual, c.value, 0⟩
  | .greaterEqual => ⟨c.var, .less, c.value, 0⟩
  | .inRange => ⟨c.var, .notInRange, c.value, c.upper⟩
  | .notInRange => ⟨c.var, .inRange, c.value, c.upper⟩

end Cond

/-- gcs/innards/literal.hh:53. -/
inductive Lit where
  | cond (c : Cond)
  | tt
  | ff
  deriving DecidableEq, Repr

namespace Lit

/-- gcs/innards/literal.cc:26-39. -/
def not : Lit → Lit
  | cond c => cond c.not
  | tt => ff
  | ff => tt

/-- gcs/innards/literal.cc:71-97. -/
def isLiterallyTrueOrFalse : Lit → Option Bool
  | cond c =>
    match c.var with
    | .simple _ => none
    | .view _ _ _ => none
    | .const x =>
      match c.op with
      | .equal => some (x = c.value)
      | .notEqual => some (x ≠ c.value)
      | .greaterEqual => some (x ≥ c.value)
      | .less => some (x < c.value)
      | .inRange => some (x ≥ c.value ∧ x ≤ c.upper)
      | .notInRange => some (x < c.value ∨ x > c.upper)
  | tt => some true
  | ff => some false

/-- gcs/innards/literal.cc:99-102. -/
def isLiterallyTrue (l : Lit) : Bool := (isLiterallyTrueOrFalse l).getD false

/-- gcs/innards/literal.cc:104-108. -/
def isLiterallyFalse (l : Lit) : Bool :=
  match isLiterallyTrueOrFalse l with
  | some b => !b
  | none => false

end Lit
end Gcs
