import Verif.Model.Propagate

/-!
# L6: posting constraints

What a constraint leaves behind when it is installed, and the run of initialisers at the start of a search (`gcs/innards/propagators.cc:544-587`, `gcs/problem.cc:203-219`).

A constraint may look at the domains at the time of posting to decide what to install. Installing does not change domains, so all constraints see the same ones. Not modelled: constraints and
initialisers that make further variables, constraint states or initialisers, and the definitions written to the proof model.
-/

namespace Gcs

/-- `InitialiserPriority` (gcs/innards/propagators.hh:331-336), in order. -/
inductive Priority where
  | simpleDefinition | cheap | expensive
  deriving DecidableEq, Repr

section
variable {σ μ : Type}

/-- One call of `install_initialiser` or `install`. -/
inductive Item (σ μ : Type) where
  | init (priority : Priority) (f : Prog σ μ Unit)
  | prop (f : Prog σ μ PState) (t : Triggers)

/-- What `Propagators` holds before the search: the engine, watches, and the initialisers in the order they were installed. -/
structure Setup (σ μ : Type) where
  engine : Engine σ μ
  watches : Watches
  inits : List (Priority × Prog σ μ Unit)

namespace Setup

def empty : Setup σ μ := ⟨.empty, .empty, []⟩

/-- gcs/innards/propagators.cc:404-520 and :544-547. -/
def add (c : Nat) (S : Setup σ μ) : Item σ μ → Setup σ μ
  | .init p f => { S with inits := S.inits ++ [(p, f)] }
  | .prop f t => { S with engine := S.engine.install c f t, watches := Engine.installWatches S.watches S.engine.progs.length t }

/-- `Problem::create_propagators` (gcs/problem.cc:203-219): constraints are installed in the order they were posted, numbered from one (:161-166). -/
def create (root : Doms) : Nat → List (Doms → Chk (List (Item σ μ))) → Setup σ μ → Chk (Setup σ μ)
  | _, [], S => .ok S
  | k, c :: cs, S => do create root (k + 1) cs ((← c root).foldl (add (k + 1)) S)

/-- The initialisers in the order they are run: by priority, then as installed. -/
def order (S : Setup σ μ) : List (Prog σ μ Unit) :=
  ((S.inits.filter (·.1 = .simpleDefinition)) ++ (S.inits.filter (·.1 = .cheap)) ++ (S.inits.filter (·.1 = .expensive))).map (·.2)

end Setup

namespace Sys

/-- `Propagators::initialise` (gcs/innards/propagators.cc:549-587): each initialiser gets its own tracker; false as soon as one fails. Whether the tracker's `contradicted` flag is set is not looked at. -/
def initialise : List (Prog σ μ Unit) → Sys σ μ → Chk (Bool × Sys σ μ)
  | [], s => .ok (true, s)
  | f :: fs, s => do
    let x ← runProg ⟨0, []⟩ f { s with tr := .fresh }
    match x.1 with
    | .failed => return (false, x.2)
    | .val _ => initialise fs x.2

/-- The system before a search: gcs/problem.cc:150-159 and gcs/solve.cc:302-320. `cs` are the constraint states made at installation. -/
def start (d : Doms) (cs : List σ) (x : μ) (w : Watches) : Sys σ μ :=
  ⟨⟨[d], [cs], [[]], [], [], none, none⟩, .fresh, w, ⟨[], [], 0, 0, 0⟩, [], [], 0, 0, 0, [], x, 0, []⟩

end Sys
end
end Gcs
