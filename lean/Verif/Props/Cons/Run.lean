import Verif.Lemmas.Decide
import Verif.Model.Solve
import Verif.Model.Heuristics

/-! Enumerating the solutions of a small problem, smallest values first: for showing what the code does wrong. -/

namespace Gcs.Run

def setup (root : Doms) (posts : List (Doms → Chk (List (Item Unit Unit)))) : Setup Unit Unit := (Setup.create root 0 posts Setup.empty).toOption.getD Setup.empty

/-- Branch on the variable with the smallest domain. -/
def env (root : Doms) (posts : List (Doms → Chk (List (Item Unit Unit)))) : SearchEnv Unit Unit where
  engine := (setup root posts).engine
  abort := fun _ => false
  branch := fun _ s => branchWith (dom ((List.range root.length).map .simple)) smallestFirst s.doms
  solution := fun _ _ => true
  trace := fun _ _ => true
  minimise := none
  learn := none

/-- What is reported, and whether the search was completed. -/
def run (root : Doms) (posts : List (Doms → Chk (List (Item Unit Unit)))) : Option (List Doms × Bool) :=
  match solve (env root posts) (setup root posts) 12 1 none (Sys.start root [] () (setup root posts).watches) with
  | .ok ((_, _, _, t), done) => some (t.found, done)
  | .error _ => none

/-- What is thrown while solving. -/
def thrown (root : Doms) (posts : List (Doms → Chk (List (Item Unit Unit)))) : Option Err :=
  match solve (env root posts) (setup root posts) 12 1 none (Sys.start root [] () (setup root posts).watches) with
  | .ok _ => none
  | .error e => some e

/-! The same with constraint states `sts`. -/

section
variable {σ : Type}

def setupWith (root : Doms) (posts : List (Doms → Chk (List (Item σ Unit)))) : Setup σ Unit := (Setup.create root 0 posts Setup.empty).toOption.getD Setup.empty

def envWith (root : Doms) (posts : List (Doms → Chk (List (Item σ Unit)))) : SearchEnv σ Unit where
  engine := (setupWith root posts).engine
  abort := fun _ => false
  branch := fun _ s => branchWith (dom ((List.range root.length).map .simple)) smallestFirst s.doms
  solution := fun _ _ => true
  trace := fun _ _ => true
  minimise := none
  learn := none

def runWith (sts : List σ) (root : Doms) (posts : List (Doms → Chk (List (Item σ Unit)))) : Option (List Doms × Bool) :=
  match solve (envWith root posts) (setupWith root posts) 12 1 none (Sys.start root sts () (setupWith root posts).watches) with
  | .ok ((_, _, _, t), done) => some (t.found, done)
  | .error _ => none

def thrownWith (sts : List σ) (root : Doms) (posts : List (Doms → Chk (List (Item σ Unit)))) : Option Err :=
  match solve (envWith root posts) (setupWith root posts) 12 1 none (Sys.start root sts () (setupWith root posts).watches) with
  | .ok _ => none
  | .error e => some e

end

end Gcs.Run
