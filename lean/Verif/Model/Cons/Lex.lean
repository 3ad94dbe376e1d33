import Verif.Model.Cons.ValueConsistent
import Verif.Model.Cons.Reified

/-!
# Lexicographic comparison (`gcs/constraints/lex/lex.cc`)

The pairs of variables at the same positions are listed, as far as the shorter list goes. How many pairs are known to be equal (`LexState`) is kept in a constraint state.
-/

namespace Gcs.Lex

/-- `fixed_equal` (lex.cc:93-95 and :297-300). -/
def same (b1 b2 : Int × Int) : Bool := decide (b1.1 = b1.2 ∧ b2.1 = b2.2 ∧ b1.1 = b2.1)

/-- The loop at lex.cc:92-99, for the pairs from number `alpha` on. -/
def advance (d : Doms) : Nat → List (VarId × VarId) → Chk Nat
  | alpha, [] => .ok alpha
  | alpha, p :: ps => do
    let b1 ← bounds d p.1
    let b2 ← bounds d p.2
    if same b1 b2 then advance d (alpha + 1) ps else return alpha

/-- How the loop at lex.cc:161-173 ends: with `found_beta`, with `prefix_blocked`, or with neither. -/
inductive Ahead where
  | found | blocked | neither
  deriving DecidableEq

/-- The loop at lex.cc:161-173, for the pairs after number `alpha`. -/
def look (d : Doms) : List (VarId × VarId) → Chk Ahead
  | [] => .ok .neither
  | p :: ps => do
    let b1 ← bounds d p.1
    let b2 ← bounds d p.2
    if b1.2 > b2.1 then return .found
    else if b1.2 < b2.1 then return .blocked
    else look d ps

/-- `equal_prefix_satisfies` (lex.cc:83 and :286). -/
def equalSatisfies (vars1 vars2 : List VarId) (orEqual : Bool) : Bool := decide (vars1.length > vars2.length) || (orEqual && decide (vars1.length = vars2.length))

section
variable {σ μ : Type}

/-- `run_lex_pass` (lex.cc:74-221), given how many pairs were known to be equal. The result contains how many are now. -/
def pass (ps : List (VarId × VarId)) (eqs : Bool) (alpha0 : Nat) : Prog σ μ (PState × Nat) := do
  let alpha ← Prog.ask (advance · alpha0 (ps.drop alpha0))
  if alpha = ps.length then
    if eqs then return (.disableUntilBacktrack, alpha) else .fail
  else match ps[alpha]? with
  | none => .raise .ub
  | some (x, y) =>
    let b1 ← Prog.ask (bounds · x)
    let b2 ← Prog.ask (bounds · y)
    let le ← Prog.lift (Cond.le y b1.2)
    Prog.tell (.cond (Cond.ge x b2.1))
    Prog.tell (.cond le)
    let nb1 ← Prog.ask (bounds · x)
    let nb2 ← Prog.ask (bounds · y)
    if nb1.1 > nb2.2 then return (.disableUntilBacktrack, alpha)
    else
      let k ← Prog.ask (look · (ps.drop (alpha + 1)))
      if k ≠ .found ∧ (eqs = false ∨ k = .blocked) then
        if nb1.2 > nb2.1 then
          let gt ← Prog.lift (Cond.gt x nb2.1)
          Prog.tell (.cond gt)
          Prog.tell (.cond (Cond.lt y nb1.2))
          let fb1 ← Prog.ask (bounds · x)
          let fb2 ← Prog.ask (bounds · y)
          return (if fb1.1 > fb2.2 then .disableUntilBacktrack else .enable, alpha)
        else .fail
      else return (.enable, alpha)

/-- The same, with the constraint state read at the start and written at the end (lex.cc:85-86, :111, :218). -/
def stage (B : Kind σ Nat) (h : Nat) (vars1 vars2 : List VarId) (orEqual : Bool) : Prog σ μ PState := .read fun s =>
  match (s.st.cstates.headD [])[h]? with
  | none => .raise .ub
  | some c =>
    match B.get c with
    | none => .raise .unexpected
    | some alpha => (pass (vars1.zip vars2) (equalSatisfies vars1 vars2 orEqual) alpha).bind fun r => .setState h (B.put r.2) (.ret r.1)

/-- The loop at lex.cc:296-317, and :319-328. -/
def judge (d : Doms) (eqs : Bool) : List (VarId × VarId) → Chk Verdict
  | [] => .ok (if eqs then .mustHold else .mustNotHold)
  | p :: ps => do
    let b1 ← bounds d p.1
    let b2 ← bounds d p.2
    if same b1 b2 then judge d eqs ps
    else if b1.1 > b2.2 then return .mustHold
    else if b1.2 < b2.1 then return .mustNotHold
    else return .stillUndecided

/-- `LexCompareGreaterThanOrMaybeEqual` (lex.cc:474-479 and :542-583). The handle of the constraint state is a parameter. -/
def install (B : Kind σ Nat) (h : Nat) (vars1 vars2 : List VarId) (r : Reif) (orEqual : Bool) (d : Doms) : Chk (List (Item σ μ)) := do
  let e ← r.test d
  return installDispatcher e r { onBounds := vars1 ++ vars2 } (stage B h vars1 vars2 orEqual) (stage B h vars2 vars1 (!orEqual))
    (Prog.ask (judge · (equalSatisfies vars1 vars2 orEqual) (vars1.zip vars2)))

end
end Gcs.Lex
