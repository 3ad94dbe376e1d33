import Verif.Model.Constraint

/-!
# Ways of writing propagation functions

Shorthands for the patterns that propagation functions in `gcs/constraints` consist of. Reasons, justifications and hints are only used for proof logging and are left out throughout; computing them may throw
in the code (for instance when `v <= k` is written down for the largest `k`), which is not modelled.
-/

namespace Gcs

section
variable {α : Type}

/-- `any_of(xs, p)` and loops that stop at the first `x` with `p x`. -/
def anyOf (p : α → Chk Bool) : List α → Chk Bool
  | [] => .ok false
  | x :: xs => do if ← p x then return true else anyOf p xs

/-- The same over a generator: what ends the generator early is thrown when it is reached. -/
def anyOfGen (p : α → Chk Bool) (g : IntervalSet.Gen α) : Chk Bool := do
  if ← anyOf p g.1 then return true
  else match g.2 with
    | none => return false
    | some e => throw e

/-- Everything a generator yields. -/
def collect (g : IntervalSet.Gen α) : Chk (List α) :=
  match g.2 with
  | none => .ok g.1
  | some e => .error e

/-- The number of `x` with `p x`. -/
def howMany (p : α → Chk Bool) : List α → Chk Nat
  | [] => .ok 0
  | x :: xs => do
    let b ← p x
    let k ← howMany p xs
    return if b then k + 1 else k

/-- `Integer(n)` for a size. A vector with more than `2^63 - 1` elements does not fit into memory; here it throws. -/
def ofSize (k : Nat) : Chk Int := if InI64 (k : Int) then .ok k else .error .overflow

end
end Gcs

namespace Gcs.Prog

section
variable {σ μ α β : Type}

/-- A computation that does not look at the state, throwing what it throws. -/
def lift : Chk α → Prog σ μ α
  | .ok v => .ret v
  | .error e => .raise e

/-- `inference.infer*(...)`. -/
def tell (l : Lit) : Prog σ μ Unit := .infer l false fun _ => .ret ()

/-- `if (! inference.infer_*_or_stop(...)) return PropagatorState::Enable;` and what follows it. -/
def orStop (l : Lit) (k : Prog σ μ PState) : Prog σ μ PState := .infer l true fun b => if b then k else .ret .enable

/-- `for (auto & x : xs) ...` -/
def forEach (f : α → Prog σ μ Unit) : List α → Prog σ μ Unit
  | [] => .ret ()
  | x :: xs => (f x).bind fun _ => forEach f xs

/-- `for (auto & x : xs) ...` with variables that the loop changes. -/
def forEachWith (f : β → α → Prog σ μ β) (b : β) : List α → Prog σ μ β
  | [] => .ret b
  | x :: xs => (f b x).bind fun b' => forEachWith f b' xs

/-- `for (auto x : generator) ...` -/
def forGen (f : α → Prog σ μ Unit) (g : IntervalSet.Gen α) : Prog σ μ Unit :=
  (forEach f g.1).bind fun _ => match g.2 with
    | none => .ret ()
    | some e => .raise e

/-- `while (true) { auto before = inference.count_inferences(); body; if (inference.count_inferences() == before) break; }`. Inferences are counted (gcs/innards/inference_tracker.hh) exactly if they change a
domain, so domains are compared here (`count_iff_changed`). Loops are given a bound, and it is shown that it is not reached (`ver_untilQuiet`). -/
def untilQuietLoop (body : Prog σ μ Unit) : Nat → Prog σ μ Unit
  | 0 => .raise .diverge
  | k + 1 => .read fun s => body.bind fun _ => .read fun s' => if s'.doms = s.doms then .ret () else untilQuietLoop body k

def untilQuiet (body : Prog σ μ Unit) : Prog σ μ Unit := .read fun s => untilQuietLoop body ((s.doms.map IntervalSet.card).sum + 1)

/-- `if (c) ...` -/
def onlyIf (c : Prop) [Decidable c] (p : Prog σ μ Unit) : Prog σ μ Unit := if c then p else .ret ()

end
end Gcs.Prog
