import Verif.Model.Propagate

/-!
# L5: the search

Models `solve_with_state` and the restart loop of `solve_with` (`gcs/solve.cc`), and `RestartSchedule` (`gcs/restarts.cc`).

* Everything from outside is an oracle indexed by the time of the call: the abort flag, the callbacks and the branching heuristic, which may keep state of its own, be random,
  or learn from conflicts. `Sys.clock` is the time; it goes up by one each time an oracle is asked.
* A branching heuristic is a coroutine in the code, asked for one branch at a time. Here it gives the list of its branches at once. It can only read the state, and each time
  it is resumed the state has been restored to what it was (`Props/Search.lean`, `search_restores`), so the difference cannot be seen except by
  heuristics that change their mind half way through a node, which none in the code base does.
* Proof logging, the clock time in `Stats` and the notes in it are left out.
* Counters in the code are 64 bits wide; here they are natural numbers. Without a restart schedule the cutoff in the code is `2^64-1` conflicts, here there is none.
-/

namespace Gcs

/-- gcs/solve.cc:50-55. -/
inductive SearchResult where
  | complete | stop | cutoff
  deriving DecidableEq, Repr

/-- What a search is given: the engine, and everything that can be different from one run to the next. -/
structure SearchEnv (σ μ : Type) where
  engine : Engine σ μ
  /-- the abort flag; always false if there is none -/
  abort : Nat → Bool
  /-- `branch_callback`, the branches it offers -/
  branch : Nat → Sys σ μ → Chk (List Cond)
  /-- `callbacks.solution`; always true if there is none -/
  solution : Nat → Doms → Bool
  /-- `callbacks.trace`; always true if there is none -/
  trace : Nat → Doms → Bool
  /-- `problem.optional_minimise_variable()` -/
  minimise : Option VarId
  /-- how `NogoodStore::add` changes the memory it lives in; none if nothing is learned -/
  learn : Option (List Cond → μ → μ)

/-- The statistics and in/out parameters of `solve_with_state`. `found`, `solved`, `visited` and `answers` are not in the code: the domains shown to the solution callback, the guesses on the path to
each of these, the guesses on the path to every node entered, and for each time the solution or trace callback or the abort flag was consulted by the search, whether it was told to go on. -/
structure Tally where
  recursions : Nat := 0
  maxDepth : Nat := 0
  solutions : Nat := 0
  failures : Nat := 0
  restarts : Nat := 0
  /-- `restart.conflicts_since_restart` -/
  conflicts : Nat := 0
  objective : Option Int := none
  found : List Doms := []
  solved : List (List Lit) := []
  visited : List (List Lit) := []
  answers : List Bool := []

section
variable {σ μ : Type}

/-- An oracle is asked. -/
def Sys.tick (s : Sys σ μ) : Sys σ μ := { s with clock := s.clock + 1 }

/-- Remember what was answered. -/
def Tally.told (t : Tally) (b : Bool) : Tally := { t with answers := t.answers ++ [b] }

/-- What a subtree search returns: how it ended, whether it found a solution, and the system and tally afterwards. -/
abbrev Explored (σ μ : Type) := SearchResult × Bool × Sys σ μ × Tally

/-- gcs/solve.cc:96-111: infer the objective bound. Returns whether that failed, the guesses that seed the queue, and the system. -/
def boundObjective (V : SearchEnv σ μ) (guesses : List Lit) (s : Sys σ μ) (t : Tally) : Chk (Bool × List Lit × Sys σ μ) :=
  match V.minimise, t.objective with
  | some o, some v => do
    let bound := Lit.cond (Cond.lt o v)
    let x ← s.st.infer bound
    match x.1 with
    | .contradiction => return (true, guesses, { s with st := x.2 })
    | .noChange => return (false, guesses, { s with st := x.2 })
    | _ => return (false, guesses ++ [bound], { s with st := x.2 })
  | _, _ => return (false, guesses, s)

/-- The prefix a child is given (gcs/solve.cc:179-202): positive decisions only, when learning. -/
def childPrefix (V : SearchEnv σ μ) (pfx : List Cond) (first : Option Cond) (idx : Nat) (g : Cond) : List Cond :=
  if V.learn.isSome then
    if idx = 1 ∧ first.map Cond.not = some g then pfx else pfx ++ [g]
  else pfx

/-- The loop over branches (gcs/solve.cc:159-214); `rec` explores a child. Besides an outcome it returns the refuted siblings. `first`, `idx` and `refuted` are the loop's variables. -/
def siblings (V : SearchEnv σ μ) (rec : Cond → List Cond → Sys σ μ → Tally → Chk (Explored σ μ)) (pfx : List Cond) (first : Option Cond) :
    Nat → List Cond → List Cond → Bool → Sys σ μ → Tally → Chk (List Cond × Explored σ μ)
  | _, [], refuted, has, s, t => .ok (refuted, .complete, has, s, t)
  | idx, g :: gs, refuted, has, s, t =>
    if V.abort s.clock then .ok (refuted, .stop, has, s.tick, t.told false)
    else do
      let e ← s.st.newEpoch false
      let st ← e.2.guess (.cond g)
      let x ← rec g (childPrefix V pfx first idx g) { s.tick with st := st } (t.told true)
      let t1 := if x.2.1 then x.2.2.2 else { x.2.2.2 with failures := x.2.2.2.failures + 1 }
      let s1 ← x.2.2.1.backtrack e.1
      match x.1 with
      | .stop => return (refuted, .stop, has || x.2.1, s1, t1)
      | .cutoff => return (refuted, .cutoff, has || x.2.1, s1, t1)
      | .complete => siblings V rec pfx first (idx + 1) gs (refuted ++ [g]) (has || x.2.1) s1 t1

/-- gcs/solve.cc:224-251: learn from the refuted siblings. -/
def learnFrom (V : SearchEnv σ μ) (pfx : List Cond) (refuted : List Cond) (mem : μ) : μ :=
  match V.learn with
  | none => mem
  | some add => refuted.foldl (fun m g => add (pfx ++ [g]) m) mem

/-- gcs/solve.cc:137-138: the objective value of a solution becomes the one to beat. -/
def newObjective (V : SearchEnv σ μ) (d : Doms) (old : Option Int) : Chk (Option Int) :=
  match V.minimise with
  | none => .ok old
  | some o => do return some (← valueOf d o)

/-- A leaf (gcs/solve.cc:128-151). -/
def leaf (V : SearchEnv σ μ) (s : Sys σ μ) (t : Tally) : Chk (Explored σ μ) := do
  let v ← newObjective V s.doms t.objective
  let t1 := { t with objective := v, solutions := t.solutions + 1, found := t.found ++ [s.doms], solved := t.solved ++ [s.st.guesses] }
  return (if V.solution s.clock s.doms then .complete else .stop, true, s.tick, t1.told (V.solution s.clock s.doms))

/-- `solve_with_state` (gcs/solve.cc:70-278). `fuel` bounds the depth; running out of it is reported as `diverge`, and `Props/Search.lean` shows that it does not happen if `fuel` is greater than the
number of values in all domains. `cut` is `restart.cutoff`. -/
def node (V : SearchEnv σ μ) (cut : Option Nat) : Nat → Nat → Option Cond → List Cond → Sys σ μ → Tally → Chk (Explored σ μ)
  | 0, _, _, _, _, _ => throw .diverge
  | fuel + 1, depth, guess, pfx, s, t0 => do
    let t := { t0 with maxDepth := max t0.maxDepth depth, recursions := t0.recursions + 1, visited := t0.visited ++ [s.st.guesses] }
    if cut.any (· ≤ t.conflicts) then return (.cutoff, false, s, t)
    else
      let x ← boundObjective V (guess.toList.map .cond) s t
      if x.1 then return (.complete, false, x.2.2, { t with conflicts := t.conflicts + 1 })
      else
        let y ← Sys.propagate V.engine x.2.1 V.abort x.2.2
        if y.1 = false then return (.complete, false, y.2, { t with conflicts := t.conflicts + 1 })
        else if V.abort y.2.clock then return (.stop, false, y.2.tick, t.told false)
        else
          let t1 := t.told true
          let s1 := y.2.tick
          let bs ← V.branch s1.clock s1
          let s2 := s1.tick
          if bs = [] then leaf V s2 t1
          else if V.trace s2.clock s2.doms = false then return (.stop, false, s2.tick, t1.told false)
          else if V.abort s2.tick.clock then return (.stop, false, s2.tick.tick, (t1.told true).told false)
          else
            let z ← siblings V (fun g p s t => node V cut fuel (depth + 1) (some g) p s t) pfx bs.head? 0 bs [] false s2.tick.tick ((t1.told true).told true)
            if z.2.1 = .cutoff then
              let s3 := { z.2.2.2.1 with mem := learnFrom V pfx z.1 z.2.2.2.1.mem }
              return (.cutoff, z.2.2.1, s3, z.2.2.2.2)
            else return z.2

/-! ## Restarts -/

/-- `luby_term` (gcs/restarts.cc:9-23), for `i ≥ 1`. `k` is the loop variable. The shifts are on 64-bit numbers in the code; they are the same as here as long as `i < 2^63`. For `i = 0`, which the code never
asks for, the loop in the code does not end; here the answer is 0. -/
def lubyFrom (i k : Nat) : Nat :=
  if i = 0 then 0
  else if i = 2 ^ k - 1 then 2 ^ (k - 1)
  else if i < 2 ^ k - 1 then
    if k = 0 then 0 else if 2 ^ (k - 1) - 1 = 0 then 0 else lubyFrom (i - (2 ^ (k - 1) - 1)) 1
  else lubyFrom i (k + 1)
  termination_by (i + 1) * (i + 1) + (i + 1 - k)
  decreasing_by
    · generalize hj : i - (2 ^ (k - 1) - 1) = j
      have h1 : j + 1 ≤ i := by omega
      have h2 : (j + 1) * (j + 1) ≤ i * i := Nat.mul_le_mul h1 h1
      have h3 : (i + 1) * (i + 1) = i * i + i + i + 1 := by rw [Nat.add_mul, Nat.mul_add]; omega
      omega
    · have h : k < 2 ^ k := Nat.lt_two_pow_self
      omega

def luby (i : Nat) : Nat := lubyFrom i 1

/-- `RestartSchedule` (gcs/restarts.hh:31-55). -/
structure Restarts where
  scale : Nat
  index : Nat := 1

/-- gcs/restarts.cc:35-38, multiplication of 64-bit numbers. -/
def Restarts.cutoff (r : Restarts) : Nat := (luby r.index * r.scale) % 2 ^ 64
/-- gcs/restarts.cc:40-43. -/
def Restarts.advance (r : Restarts) : Restarts := { r with index := r.index + 1 }

/-- The restart loop (gcs/solve.cc:402-420). `fuel` bounds the number of passes, `depthFuel` the depth of each. The observers told of the restart keep their state outside the system. -/
def passes (V : SearchEnv σ μ) (depthFuel : Nat) : Nat → Option Restarts → Bool → Sys σ μ → Tally → Chk (Explored σ μ)
  | 0, _, _, _, _ => throw .diverge
  | fuel + 1, sched, has, s, t => do
    let x ← node V (sched.map Restarts.cutoff) depthFuel 0 none [] s { t with conflicts := 0 }
    match x.1, sched with
    | .cutoff, some r => passes V depthFuel fuel (some r.advance) (has || x.2.1) x.2.2.1 { x.2.2.2 with restarts := x.2.2.2.restarts + 1 }
    | .cutoff, none => throw .ub
    | .complete, _ => return (.complete, has || x.2.1, x.2.2)
    | .stop, _ => return (.stop, has || x.2.1, x.2.2)

/-- The search part of `solve_with` (gcs/solve.cc:380-460), after initialisation and presolving succeeded. The second component is whether `callbacks.completed` is called. -/
def search (V : SearchEnv σ μ) (depthFuel fuel : Nat) (sched : Option Restarts) (s : Sys σ μ) : Chk (Explored σ μ × Bool) := do
  let x ← passes V depthFuel fuel sched false s {}
  return (x, decide (x.1 = .complete))

end
end Gcs
