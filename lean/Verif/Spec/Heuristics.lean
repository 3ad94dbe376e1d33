import Verif.Lemmas.Ask

/-! # What a heuristic promises -/

namespace Gcs

/-- The variable has at least two possible values. -/
def Open (d : Doms) (v : VarId) : Prop := ∃ x y, Poss d v x ∧ Poss d v y ∧ x ≠ y

/-- `lt` compares the variables in `S` the way a key would: no cycles, and being neither better nor worse is an equivalence. -/
structure WeakOrder (S : VarId → Prop) (lt : VarId → VarId → Prop) : Prop where
  asymm : ∀ a b, S a → S b → lt a b → ¬ lt b a
  split : ∀ a b c, S a → S b → S c → lt a c → lt a b ∨ lt b c

/-- `r` is a right choice from `vars`: nothing if all have one value, and otherwise the first of the best by `lt` among the variables with at least two. -/
def Chosen (d : Doms) (vars : List VarId) (lt : VarId → VarId → Prop) : Option VarId → Prop
  | none => ∀ v ∈ vars, ¬ Open d v
  | some x => ∃ pre post, vars = pre ++ x :: post ∧ Open d x ∧ (∀ v ∈ pre, Open d v → lt x v) ∧ ∀ v ∈ post, Open d v → ¬ lt v x

/-- `r` is one of `vars` with at least two values, or none if there is none. -/
def Picked (d : Doms) (vars : List VarId) : Option VarId → Prop
  | none => ∀ v ∈ vars, ¬ Open d v
  | some x => x ∈ vars ∧ Open d x

/-- The value order, at `d`, only gives conditions on the variable it was asked about. -/
def Guesses (val : Doms → VarId → Chk (List Cond)) (d : Doms) : Prop := ∀ v bs, val d v = .ok bs → ∀ b ∈ bs, b.var = v

end Gcs
