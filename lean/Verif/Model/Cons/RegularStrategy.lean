import Verif.Model.Cons.Layered

/-!
# The proof strategies of Regular (`gcs/constraints/regular/regular.cc`, `regular_legacy.cc`, `regular_bacchus.cc`)

`Regular` hands over to `RegularLegacy` or `RegularBacchus` if it is asked for another proof strategy. As far as solutions are concerned, the propagator of `RegularLegacy` does what that of `Regular` does (`propagate_regular` and what it calls, regular_legacy.cc:118-382 and
regular.cc:151-356, differ only in what is written to proofs), and that of `RegularBacchus` what that of `MDD` does, for an automaton that is the same in each layer. Not modelled: everything that is written to proofs; without
a proof, the initialisers do nothing.
-/

namespace Gcs

namespace RegularBacchus
open Layered

/-- `find_transition` (regular_bacchus.cc:58-64), for transitions as in `_transitions`: for each state, a map from values to states, or -1. -/
def auto (transitions : List (List (Int × Int))) (final : List Int) : Auto :=
  ⟨fun _ q v => match transitions[q]? with
    | some m => match m.lookup v with
      | some t => if t = -1 then [] else [t.toNat]
      | none => []
    | none => [], final⟩

/-- All states that occur exist. This is not checked by the code, but what happens otherwise is undefined. -/
def inRange (numStates : Nat) (transitions : List (List (Int × Int))) : Bool :=
  decide (0 < numStates) && decide (numStates ≤ transitions.length) && transitions.all fun m => m.all fun p => decide (p.2 = -1 ∨ 0 ≤ p.2 ∧ p.2 < numStates)

section
variable {σ μ : Type}

/-- `RegularBacchus` (regular_bacchus.cc:230-238, 260-271, 318-442): the propagator is `propagate_regular` (regular_bacchus.cc:172-212), with `initialise_graph` (:89-138), `decrement_outdeg` (:140-154) and `decrement_indeg` (:156-170). There is no
special case for no variables. -/
def install (numStates : Nat) (transitions : List (List (Int × Int))) (final : List Int) (st : Store σ) (vars : List VarId) : Chk (List (Item σ μ)) :=
  if inRange numStates transitions then .ok [.prop (prop (auto transitions final) .automaton st vars) { onChange := vars }] else .error .ub

end
end RegularBacchus

namespace Regular
open Layered

/-- `RegularProofStrategy` (regular.hh:38). -/
inductive Strategy
  | upfront
  | perCall
  | bacchus
  deriving DecidableEq

/-- The deterministic map for one state (regular.cc:539-543). -/
def single : List (Int × List Int) → Chk (List (Int × Int))
  | [] => .ok []
  | (x, s) :: m =>
    match toSet s with
    | [y] => do
      let r ← single m
      return (x, y) :: r
    | _ => .error .unimplemented

/-- `dfa` (regular.cc:537-543). -/
def dfa : List (List (Int × List Int)) → Chk (List (List (Int × Int)))
  | [] => .ok []
  | m :: t => do
    let u ← single m
    let r ← dfa t
    return u :: r

section
variable {σ μ : Type}

/-- `Regular` with a proof strategy (regular.cc:525-548), for an automaton that is not given by a regular expression. -/
def installWith (strategy : Strategy) (numStates : Nat) (transitions : List (List (Int × List Int))) (final : List Int) (st : Store σ) (vars : List VarId) : Chk (List (Item σ μ)) :=
  match strategy with
  | .upfront => install numStates transitions final st vars
  | .perCall => install numStates transitions final st vars
  | .bacchus => do RegularBacchus.install numStates (← dfa transitions) final st vars

end
end Regular
end Gcs
