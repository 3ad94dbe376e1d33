/-!
# L0: checked integers

Models `gcs/integer.hh`, `gcs/innards/integer_overflow.hh` and `gcs/innards/power.cc`.
A `long long` value is an `Int`; the range is explicit.
-/

namespace Gcs

/-- Abnormal outcomes of modelled C++ code. -/
inductive Err where
  /-- `IntegerOverflow` thrown (gcs/innards/integer_overflow.hh:11-17) -/
  | overflow
  /-- undefined behaviour: empty container access, out of range index, signed overflow in raw arithmetic -/
  | ub
  /-- `UnexpectedException` (gcs/exception.hh) -/
  | unexpected
  /-- `InvalidProblemDefinitionException` (gcs/exception.hh) -/
  | invalidProblem
  /-- `VariableDoesNotHaveUniqueValue` (gcs/current_state.hh) -/
  | noUniqueValue
  /-- `UnimplementedException` (gcs/exception.hh) -/
  | unimplemented
  /-- not in the code: a bound given to a loop of the model was reached -/
  | diverge
  deriving DecidableEq, Repr

instance {ε α : Type} [DecidableEq ε] [DecidableEq α] : DecidableEq (Except ε α)
  | .ok a, .ok b => if h : a = b then isTrue (by rw [h]) else isFalse (by intro h'; cases h'; exact h rfl)
  | .error a, .error b => if h : a = b then isTrue (by rw [h]) else isFalse (by intro h'; cases h'; exact h rfl)
  | .ok _, .error _ => isFalse (by intro h; cases h)
  | .error _, .ok _ => isFalse (by intro h; cases h)

/-- Result of code that may throw. -/
abbrev Chk (α : Type) := Except Err α

/-- `std::numeric_limits<long long>::max()` (gcs/integer.hh:108-111). -/
def i64Max : Int := 9223372036854775807
/-- `std::numeric_limits<long long>::min()` (gcs/integer.hh:103-106). -/
def i64Min : Int := -9223372036854775808

/-- A value representable as `Integer`. -/
abbrev InI64 (x : Int) : Prop := i64Min ≤ x ∧ x ≤ i64Max

/-! ## Portable overflow detection (fallback branches), any two's complement width.

`max` is the largest value, `-max-1` the smallest. Raw C++ arithmetic on the type is modelled by
operations that give `ub` when the exact result is out of range or the divisor is zero. -/

/-- Is `x` representable in the two's complement type with largest value `max`? -/
abbrev InW (max x : Int) : Prop := -max - 1 ≤ x ∧ x ≤ max

/-- Raw C++ result: undefined behaviour if out of range. -/
def rawOut (max x : Int) : Chk Int := if InW max x then .ok x else .error .ub
/-- Raw signed `+`. -/
def rawAdd (max a b : Int) : Chk Int := rawOut max (a + b)
/-- Raw signed `-`. -/
def rawSub (max a b : Int) : Chk Int := rawOut max (a - b)
/-- Raw signed `*`. -/
def rawMul (max a b : Int) : Chk Int := rawOut max (a * b)
/-- Raw signed `/`: truncating; undefined for zero divisor and for unrepresentable quotient. -/
def rawDiv (max a b : Int) : Chk Int := if b = 0 then .error .ub else rawOut max (Int.tdiv a b)

/-- Outcome of `*_overflows`: `none` when it returns true, `some r` when it returns false with `*out = r`. -/
abbrev OvResult := Option Int

/-- gcs/innards/integer_overflow.hh:39-57, the `#else` branch. -/
def addOverflows (max a b : Int) : Chk OvResult := do
  if b ≥ 0 then
    if a > (← rawSub max max b) then return none
  else
    if a < (← rawSub max (-max - 1) b) then return none
  return some (← rawAdd max a b)

/-- gcs/innards/integer_overflow.hh:59-77, the `#else` branch. -/
def subOverflows (max a b : Int) : Chk OvResult := do
  if b ≥ 0 then
    if a < (← rawAdd max (-max - 1) b) then return none
  else
    if a > (← rawAdd max max b) then return none
  return some (← rawSub max a b)

/-- gcs/innards/integer_overflow.hh:79-115, the signed `#else` branch. -/
def mulOverflows (max a b : Int) : Chk OvResult := do
  if a > 0 then
    if b > 0 then
      if a > (← rawDiv max max b) then return none
    else
      if b < (← rawDiv max (-max - 1) a) then return none
  else
    if b > 0 then
      if a < (← rawDiv max (-max - 1) b) then return none
    else
      if a ≠ 0 then
        if b < (← rawDiv max max a) then return none
  return some (← rawMul max a b)

/-! ## `Integer` operators -/

/-- Shared shape: throw on the overflow outcome, return the result otherwise. -/
def throwIf (r : Chk OvResult) : Chk Int := do
  match ← r with
  | none => .error .overflow
  | some v => .ok v

/-- `operator+` (gcs/integer.hh:121-127), through the fallback detection. -/
def iAdd (a b : Int) : Chk Int := throwIf (addOverflows i64Max a b)
/-- `operator-` (gcs/integer.hh:136-142). -/
def iSub (a b : Int) : Chk Int := throwIf (subOverflows i64Max a b)
/-- `operator*` (gcs/integer.hh:151-157). -/
def iMul (a b : Int) : Chk Int := throwIf (mulOverflows i64Max a b)
/-- `operator/` (gcs/integer.hh:159-166): C++ division truncates. -/
def iDiv (a b : Int) : Chk Int :=
  if b = 0 then .error .overflow
  else if a = i64Min ∧ b = -1 then .error .overflow
  else rawDiv i64Max a b
/-- `operator%` (gcs/integer.hh:168-175): C++ remainder, sign of the dividend. Raw `%` is undefined when the
quotient is. -/
def iMod (a b : Int) : Chk Int :=
  if b = 0 then .error .overflow
  else if a = i64Min ∧ b = -1 then .error .overflow
  else do let _ ← rawDiv i64Max a b; rawOut i64Max (Int.tmod a b)
/-- unary `operator-` (gcs/integer.hh:177-182). -/
def iNeg (a : Int) : Chk Int := if a = i64Min then .error .overflow else rawOut i64Max (-a)
/-- `abs` (gcs/integer.hh:212-217). -/
def iAbs (a : Int) : Chk Int := if a = i64Min then .error .overflow else rawOut i64Max a.natAbs
/-- prefix `operator++` (gcs/integer.hh:70-76). -/
def iInc (a : Int) : Chk Int := if a = i64Max then .error .overflow else rawAdd i64Max a 1
/-- prefix `operator--` (gcs/integer.hh:85-91). -/
def iDec (a : Int) : Chk Int := if a = i64Min then .error .overflow else rawSub i64Max a 1

/-! ## Power -/

/-- `power2` (gcs/innards/power.cc:14-19); `digits` of `long long` is 63. -/
def power2 (i : Int) : Chk Int :=
  if i < 0 ∨ i ≥ 63 then .error .unimplemented else .ok (2 ^ i.toNat)

/-- The square-and-multiply loop (gcs/innards/power.cc:40-52). `e` is positive on entry; the recursion is on `e`,
halved each time round. `none` is the early `return nullopt`. -/
def powLoop (result b : Int) (e : Nat) : Chk (Option Int) :=
  if _h : e = 0 then .ok (some result)
  else do
    let r ← if e % 2 = 1 then mulOverflows i64Max result b else pure (some result)
    match r with
    | none => return none
    | some result' =>
      if e / 2 > 0 then
        match ← mulOverflows i64Max b b with
        | none => return none
        | some b' => powLoop result' b' (e / 2)
      else powLoop result' b (e / 2)
  termination_by e
  decreasing_by all_goals omega

/-- `checked_integer_power` (gcs/innards/power.cc:21-53). -/
def checkedIntegerPower (base exp : Int) : Chk (Option Int) :=
  if exp = 0 then .ok (some 1)
  else if base = 1 then .ok (some 1)
  else if base = -1 then .ok (some (if exp % 2 = 0 then 1 else -1))
  else if exp < 0 then
    if base = 0 then .ok none else .ok (some 0)
  else if base = 0 then .ok (some 0)
  else powLoop 1 base exp.toNat

end Gcs
