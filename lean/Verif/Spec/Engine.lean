import Verif.Model.Propagate
import Verif.Spec.Inference
import Verif.Lemmas.State
import Verif.Props.TestLiteral

/-!
# Specification vocabulary for the propagation engine
-/

namespace Gcs
open IntervalSet

/-- One effective inference: only the variable's domain changes, it loses at least one value but not all of them, and the kind reported is right. -/
structure Step (v : Nat) (inf : Inference) (d d' : Doms) : Prop where
  domsOK : DomsOK d'
  length : d'.length = d.length
  others : ∀ j, j ≠ v → d'[j]? = d[j]?
  own : ∃ s s', d[v]? = some s ∧ d'[v]? = some s' ∧ (∀ x, Mem x s' → Mem x s) ∧ KindSpec s s' inf
  effective : inf ≠ .noChange ∧ inf ≠ .contradiction

/-- A sequence of effective inferences. -/
inductive Evolve : Doms → List (Nat × Inference) → Doms → Prop where
  | refl (d : Doms) : DomsOK d → Evolve d [] d
  | snoc {d d1 d2 : Doms} {cs : List (Nat × Inference)} {v : Nat} {inf : Inference} :
    Evolve d cs d1 → Step v inf d1 d2 → Evolve d (cs ++ [(v, inf)]) d2

section
variable {σ μ α : Type}

/-- Nothing is inferred any more, and what is read cannot matter for whether the function is well behaved. -/
def Prog.Stops (n m : Nat) (R : Err → Prop) : Prog σ μ α → Prop
  | .ret _ => True
  | .raise e => R e
  | .fail => True
  | .read k => ∀ s, (k s).Stops n m R
  | .infer _ _ _ => False
  | .progress k => ∀ b, (k b).Stops n m R
  | .watch l _ k => l.Valid n ∧ l.RangeOK ∧ k.Stops n m R
  | .clearWatches k => k.Stops n m R
  | .setWatchState _ _ k => k.Stops n m R
  | .setState h _ k => h < m ∧ k.Stops n m R
  | .setMem _ k => k.Stops n m R

/-- What typing in C++ and the documented rules of the tracker ask of a propagation function on `n` variables and `m` constraint states: literals are about
existing variables and 64-bit constants; range conditions have been made with `in_range` and `not_in_range`; after a failed `infer_*_or_stop` no more
inferences are made (gcs/innards/inference_tracker.hh:408-412). `R` are the exceptions it may throw. -/
def Prog.OK (n m : Nat) (R : Err → Prop) : Prog σ μ α → Prop
  | .ret _ => True
  | .raise e => R e
  | .fail => True
  | .read k => ∀ s, DomsOK s.doms → s.doms.length = n → (k s).OK n m R
  | .infer l o k => l.Valid n ∧ (k true).OK n m R ∧ (o = true → (k false).Stops n m R)
  | .progress k => ∀ b, (k b).OK n m R
  | .watch l _ k => l.Valid n ∧ l.RangeOK ∧ k.OK n m R
  | .clearWatches k => k.OK n m R
  | .setWatchState _ _ k => k.OK n m R
  | .setState h _ k => h < m ∧ k.OK n m R
  | .setMem _ k => k.OK n m R

/-- The same for functions that rely on what they have read before: `d` are the domains at that point, and an inference that succeeds leaves exactly the
assignments that satisfy the literal. -/
def Prog.OKAt (n m : Nat) (R : Err → Prop) : Prog σ μ α → Doms → Prop
  | .ret _, _ => True
  | .raise e, _ => R e
  | .fail, _ => True
  | .read k, d => ∀ s, s.doms = d → (k s).OKAt n m R d
  | .infer l o k, d => l.Valid n ∧ (∀ d', DomsOK d' → d'.length = n → (∀ b, Within d' b ↔ Within d b ∧ l.holds b) → (k true).OKAt n m R d') ∧
    (o = true → (k false).Stops n m R)
  | .progress k, d => ∀ b, (k b).OKAt n m R d
  | .watch l _ k, d => l.Valid n ∧ l.RangeOK ∧ k.OKAt n m R d
  | .clearWatches k, d => k.OKAt n m R d
  | .setWatchState _ _ k, d => k.OKAt n m R d
  | .setState h _ k, d => h < m ∧ k.OKAt n m R d
  | .setMem _ k, d => k.OKAt n m R d

/-- A propagation function that plays by the rules wherever it is started. -/
def Prog.Safe (n m : Nat) (R : Err → Prop) (f : Prog σ μ α) : Prop := ∀ d, DomsOK d → d.length = n → f.OKAt n m R d

/-- One change to the watches: `remove` covers both firing and clearing. -/
inductive WStep (n np : Nat) : Watches → Watches → Prop where
  | register (w : Watches) (owner : Nat) (l : Lit) (payload : Nat) : owner < np → l.Valid n → l.RangeOK → WStep n np w (w.register owner l payload true)
  | remove (w : Watches) (v : Nat) (ws : List RefinedWatch) (test : RefinedWatch → Chk Bool) (r : List RefinedWatch × List RefinedWatch) :
    w.byVar[v]? = some ws → Watches.removeLoop test 0 ws = .ok r →
    WStep n np w { w with byVar := w.byVar.set v r.1, trail := (r.2.map (fun x => ⟨false, v, x⟩)).reverse ++ w.trail }
  | stateSet (w : Watches) (owner key value : Nat) : WStep n np w (w.stateSet owner key value)
  | box (w : Watches) (inbox : List (List Nat)) (pending : List Nat) : WStep n np w { w with inbox := inbox, pending := pending }

/-- Any number of changes to the watches. -/
inductive WSteps (n np : Nat) : Watches → Watches → Prop where
  | refl (w : Watches) : WSteps n np w w
  | snoc {w w1 w2 : Watches} : WSteps n np w w1 → WStep n np w1 w2 → WSteps n np w w2

/-- What a run of propagation functions leaves alone. -/
structure Frame (n np : Nat) (s s' : Sys σ μ) : Prop where
  q : s'.q = s.q
  claims : s'.claims = s.claims
  toDisable : s'.toDisable = s.toDisable
  total : s'.total = s.total
  effectful : s'.effectful = s.effectful
  contradicting : s'.contradicting = s.contradicting
  conflicts : s'.conflicts = s.conflicts
  clock : s'.clock = s.clock
  inbox : s'.w.inbox = s.w.inbox
  pending : s'.w.pending = s.w.pending
  varsTail : s'.st.vars.tail = s.st.vars.tail
  varsNe : s.st.vars ≠ [] → s'.st.vars ≠ []
  cstatesTail : s'.st.cstates.tail = s.st.cstates.tail
  cstatesNe : s.st.cstates ≠ [] → s'.st.cstates ≠ []
  cstatesLen : (s'.st.cstates.headD []).length = (s.st.cstates.headD []).length
  onBacktracks : s'.st.onBacktracks = s.st.onBacktracks
  guesses : s'.st.guesses = s.st.guesses
  extra : s'.st.extra = s.st.extra
  minimise : s'.st.minimise = s.st.minimise
  incumbent : s'.st.incumbent = s.st.incumbent
  watches : WSteps n np s.w s'.w
  domsLen : s'.doms.length = s.doms.length

/-- The inferences `cs` were made, recorded and nothing else changed the domains. -/
structure Ran (s : Sys σ μ) (cs : List (Nat × Inference)) (s' : Sys σ μ) : Prop where
  evolve : Evolve s.doms cs s'.doms
  inferences : s'.tr.inferences = s.tr.inferences ++ cs
  trace : s'.trace = s.trace ++ cs.map (fun c => .change c.1 c.2)
  did : s'.tr.didAnything = (s.tr.didAnything || !cs.isEmpty)
  fine : s'.tr.contradicted = false

/-- A run ended in a contradiction, whichever way it was signalled. -/
def Failed (r : Res α) (s : Sys σ μ) : Prop := r = .failed ∨ s.tr.contradicted = true

/-- What the state of the system must be for propagation functions to run. -/
structure Runnable (n m : Nat) (s : Sys σ μ) : Prop where
  domsOK : DomsOK s.doms
  domsLen : s.doms.length = n
  varsNe : s.st.vars ≠ []
  cstatesLen : (s.st.cstates.headD []).length = m
  fine : s.tr.contradicted = false

end
end Gcs
