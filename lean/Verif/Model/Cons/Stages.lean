import Verif.Model.Cons.Linear

/-!
# Linear pieces of a compound constraint (`gcs/constraints/innards/linear_stages.hh`, `linear_stages.cc`)

`Power`, `Divide` and `Modulus` are propagated by a list of linear (in)equalities, some of which only apply once a condition is known to hold. Rows of the proof model are not modelled.
-/

namespace Gcs

section
variable {σ μ α : Type}

/-- Run something, and then look at `inference.contradicted()`: true after a failed `infer_*_or_stop`. -/
def Prog.contradicts : Prog σ μ α → Prog σ μ Bool
  | .ret _ => .ret false
  | .raise e => .raise e
  | .fail => .fail
  | .read k => .read fun s => (k s).contradicts
  | .infer l o k => .infer l o fun b => if b = true then (k true).contradicts else (k false).bind fun _ => .ret true
  | .progress k => .progress fun b => (k b).contradicts
  | .watch l p k => .watch l p k.contradicts
  | .clearWatches k => .clearWatches k.contradicts
  | .setWatchState a b k => .setWatchState a b k.contradicts
  | .setState h c k => .setState h c k.contradicts
  | .setMem m k => .setMem m k.contradicts

/-- `do { if (! body) return Enable; } while (inference.made_progress_since_last_check()); return EnableButIdempotent;` The body says whether there was a contradiction. As for `untilQuiet`, domains are compared, and loops
are given a bound that is shown not to be reached (`ver_untilQuietOr`). -/
def Prog.untilQuietOrLoop (body : Prog σ μ Bool) : Nat → Prog σ μ PState
  | 0 => .raise .diverge
  | k + 1 => .read fun s => body.bind fun b => if b = true then .ret .enable else .read fun s' => if s'.doms = s.doms then .ret .enableButIdempotent else Prog.untilQuietOrLoop body k

def Prog.untilQuietOr (body : Prog σ μ Bool) : Prog σ μ PState := .read fun s => Prog.untilQuietOrLoop body ((s.doms.map IntervalSet.card).sum + 1)

end

namespace Stages

/-- `StageSpec` (linear_stages.hh:60-69). -/
structure Spec where
  sum : List WTerm
  value : Int
  equality : Bool
  gate : Option Cond

/-- `LinearStage` (linear_stages.hh:38-45). -/
structure Stage where
  terms : List Linear.Term
  value : Int
  equality : Bool
  gate : Option Cond

/-- `add_equality_stage` (linear_stages.cc:37-40). -/
def equality (sum : List WTerm) (value : Int) : Spec := ⟨sum, value, true, none⟩

/-- `add_le_stage` (linear_stages.cc:42-46). -/
def le (sum : List WTerm) (value : Int) (gate : Option Cond) : Spec := ⟨sum, value, false, gate⟩

/-- `make_stages` (linear_stages.cc:63-72). -/
def make : List Spec → Chk (List Stage)
  | [] => .ok []
  | s :: ss => do
    let x ← Linear.tidy s.sum
    let v ← iAdd s.value x.2
    return ⟨x.1, v, s.equality, s.gate⟩ :: (← make ss)

/-- `stage_gate_holds` (linear_stages.cc:26-35). -/
def gateHolds (d : Doms) (c : Cond) : Chk Bool := match c.op with
  | .greaterEqual => do return decide ((← lowerBound d c.var) ≥ c.value)
  | .less => do return decide ((← upperBound d c.var) < c.value)
  | .equal => do
    if (← lowerBound d c.var) = c.value then return decide ((← upperBound d c.var) = c.value) else return false
  | _ => .error .unexpected

section
variable {σ μ : Type}

/-- One stage of `propagate_stages` (linear_stages.hh:113-162); true if there was a contradiction. The smallest value of the sum is computed after reading all bounds, and reasons are omitted. -/
def one (s : Stage) : Prog σ μ Bool := match s.gate with
  | none => (Linear.propagate s.equality s.terms s.value).contradicts
  | some g => do
    if ← Prog.ask (gateHolds · g) then (Linear.propagate s.equality s.terms s.value).contradicts
    else if s.equality = true then return false
    else do
      let bs ← Prog.ask (Linear.readBounds · s.terms)
      let least ← Prog.lift (Linear.lowerSum false 0 bs)
      Prog.onlyIf (least > s.value) (Prog.tell (.cond g.not))
      return false

/-- `propagate_stages` (linear_stages.hh:110-164), negated: whether there was a contradiction. -/
def all : List Stage → Prog σ μ Bool
  | [] => .ret false
  | s :: ss => do
    if ← one s then return true else all ss

end
end Stages
end Gcs
