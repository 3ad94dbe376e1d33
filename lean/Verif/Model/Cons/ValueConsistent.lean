import Verif.Model.Cons.AllDifferent

/-!
# AllDifferent (`gcs/constraints/all_different/all_different.cc`, `vc_all_different.cc`)

The variables that had no value yet when the constraint was posted, and have not been dealt with since, are kept in a constraint state. Constraint states are of type `any` in the code; here, they are of an
arbitrary type that lists of variables can be stored in (`Kind`). The handle `add_constraint_state` returns is a parameter: it is the number of constraint states there were before.
-/

namespace Gcs

/-- `any`, as far as values of the type `τ` are concerned. `get` is `any_cast<τ &>`. -/
structure Kind (σ τ : Type) where
  put : τ → σ
  get : σ → Option τ
  get_put : ∀ x, get (put x) = some x

namespace AllDifferent
open IntervalSet

/-- `u[k] = u.back(); u.pop_back();` -/
def takeOut {α : Type} (u : List α) (k : Nat) : List α :=
  match u.getLast? with
  | none => u
  | some l => (u.set k l).dropLast

/-- The loop at vc_all_different.cc:78-87, with a bound on the number of turns that is never reached. The last element of `to_propagate` is the head of `todo`. -/
def gather (d : Doms) : Nat → Nat → List VarId → List (VarId × Int) → Chk (List VarId × List (VarId × Int))
  | 0, _, _, _ => .error .diverge
  | f + 1, k, u, todo =>
    match u[k]? with
    | none => .ok (u, todo)
    | some x =>
      match optionalSingleValue d x with
      | .error e => .error e
      | .ok (some v) => gather d f k (takeOut u k) ((x, v) :: todo)
      | .ok none => gather d f (k + 1) u todo

section
variable {σ μ : Type}

/-- The loop at vc_all_different.cc:99-107. -/
def clash (var : VarId) (val : Int) : List (VarId × Int) → Prog σ μ Bool
  | [] => .ret true
  | p :: ps => if p.2 = val then .infer (.cond (Cond.ne var val)) true fun b => if b then clash var val ps else .ret false else clash var val ps

/-- The loop at vc_all_different.cc:109-124. `none` means that `infer_not_equal_or_stop` failed. -/
def push (var : VarId) (val : Int) : Nat → Nat → List VarId → List (VarId × Int) → Prog σ μ (Option (List VarId × List (VarId × Int)))
  | 0, _, _, _ => .raise .diverge
  | f + 1, k, u, todo =>
    match u[k]? with
    | none => .ret (some (u, todo))
    | some x =>
      if x = var then push var val f (k + 1) u todo
      else .infer (.cond (Cond.ne x val)) true fun b =>
        if b then .read fun s =>
          match optionalSingleValue s.doms x with
          | .error e => .raise e
          | .ok (some v) => push var val f k (takeOut u k) ((x, v) :: todo)
          | .ok none => push var val f (k + 1) u todo
        else .ret none

/-- The loop at vc_all_different.cc:90-125. -/
def drain : Nat → List VarId → List (VarId × Int) → Prog σ μ (Option (List VarId))
  | 0, _, _ => .raise .diverge
  | _ + 1, u, [] => .ret (some u)
  | f + 1, u, p :: todo => (clash p.1 p.2 todo.reverse).bind fun b =>
    if b then (push p.1 p.2 (u.length + 1) 0 u todo).bind fun
      | some r => drain f r.1 r.2
      | none => .ret none
    else .ret none

/-- `propagate_non_gac_alldifferent` (vc_all_different.cc:55-128), as a function of the list of unassigned variables. The code changes the list as it goes; here it is written back at the end (`vcStage`), unless
there is a contradiction, after which the constraint states of the current epoch are not looked at any more. -/
def pass (u : List VarId) : Prog σ μ (Option (List VarId)) := .read fun s =>
  match gather s.doms (u.length + 1) 0 u [] with
  | .error e => .raise e
  | .ok r => drain (r.1.length + r.2.length + 1) r.1 r.2

/-- `state.get_constraint_state` and `any_cast` (vc_all_different.cc:58), and the pass. -/
def vcStage (B : Kind σ (List VarId)) (h : Nat) (k : Bool → Prog σ μ PState) : Prog σ μ PState := .read fun s =>
  match (s.st.cstates.headD [])[h]? with
  | none => .raise .ub
  | some c =>
    match B.get c with
    | none => .raise .unexpected
    | some u => (pass u).bind fun
      | none => k false
      | some u' => .setState h (B.put u') (k true)

/-- The propagation function at all_different.cc:218-234. -/
def vcProp (B : Kind σ (List VarId)) (h : Nat) : Prog σ μ PState := vcStage B h fun b => if b then .ret .enableButIdempotent else .ret .enable

/-- The propagation function at all_different.cc:161-211, with `staged`. `made_progress_since_last_check()` says whether anything was inferred since the start of the run, as the flag is reset when a run starts:
that is whether domains have changed (`progress_iff_changed`), which is what is asked here. -/
def stagedProp (B : Kind σ (List VarId)) (h : Nat) (vars : List VarId) (vals : List Int) (old : Nat → List (Option Nat)) : Prog σ μ PState := .read fun s =>
  vcStage B h fun b => if b then .read fun s' => if s'.doms = s.doms then gacProp vars vals old else .ret .enable else .ret .enable

/-- The loop at all_different.cc:126-128. -/
def unassigned (d : Doms) : List VarId → Chk (List VarId)
  | [] => .ok []
  | x :: xs => do
    let b ← hasSingleValue d x
    let us ← unassigned d xs
    return if b then us else x :: us

end

/-- `AllDifferentConsistency` (gcs/constraints/all_different/all_different.hh). -/
inductive Level where
  | gac | vc
  deriving DecidableEq

/-- all_different.cc:47 and :116. -/
def isStaged (vars : List VarId) (vals : List Int) : Bool := decide (vars.length * vals.length ≥ 256)

/-- The constraint state that `prepare` adds, if it adds one (all_different.cc:95-133). -/
def stateOf (level : Level) (vars : List VarId) (d : Doms) : Chk (Option (List VarId)) :=
  let vs := sortBy VarId.le vars
  if repeats vs then .ok none
  else match level with
    | .vc => do return some (← unassigned d vs)
    | .gac => do
      let vals ← compress d [] [] vs
      if isStaged vs vals then return some (← unassigned d vs) else return none

/-- `AllDifferent` (all_different.cc:95-238). -/
def install {σ μ : Type} (level : Level) (vars : List VarId) (B : Kind σ (List VarId)) (h : Nat) (old : Nat → List (Option Nat)) (d : Doms) : Chk (List (Item σ μ)) :=
  let vs := sortBy VarId.le vars
  if repeats vs then .ok [refuse]
  else match level with
    | .vc => do
      let _ ← unassigned d vs
      return [.prop (vcProp B h) { onChange := vs }]
    | .gac => do
      let vals ← compress d [] [] vs
      if isStaged vs vals then
        let _ ← unassigned d vs
        return [.prop (stagedProp B h vs vals old) { onChange := vs }]
      else return [.prop (gacProp vs vals old) { onChange := vs }]

end AllDifferent
end Gcs
