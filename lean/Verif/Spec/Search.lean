import Verif.Model.Search
import Verif.Lemmas.Session

/-!
# Specification vocabulary for the search
-/

namespace Gcs
open IntervalSet

/-- The assignment does all that the nogood says must not be done together. -/
def Forbids (g : List Cond) (a : Asg) : Prop := ∀ c ∈ g, c.holds a

/-- Branches are a partition of what is left into at least two parts, and no part is empty. -/
structure BranchOK (n : Nat) (d : Doms) (bs : List Cond) : Prop where
  valid : ∀ b ∈ bs, (Lit.cond b).Valid n ∧ (Lit.cond b).RangeOK
  possible : ∀ b ∈ bs, ∃ a, Within d a ∧ b.holds a
  strict : ∀ b ∈ bs, ∃ a, Within d a ∧ ¬ b.holds a
  covers : ∀ a, Within d a → ∃ b ∈ bs, b.holds a
  apart : bs.Pairwise (fun b c => ∀ a, Within d a → ¬ (b.holds a ∧ c.holds a))

/-- Where nothing is left to branch on, the condition is true or false, whatever else is open. -/
def Decided (Leaf : Doms → Prop) (c : Cond) : Prop := ∀ d a b, Leaf d → Within d a → Within d b → c.holds a → c.holds b

/-- Conditions that are decided where nothing is left to branch on hold together throughout `d`, and nowhere in `e`. So `d` and `e` differ in what has been branched on. -/
def Parted (Leaf : Doms → Prop) (d e : Doms) : Prop := ∃ g : List Cond, (∀ c ∈ g, Decided Leaf c) ∧ (∀ a, Within d a → Forbids g a) ∧ ∀ a, Within e a → ¬ Forbids g a

/-- Whatever is in `d` differs from whatever is in `e` in one of the variables. -/
def Distinguished (vars : List VarId) (d e : Doms) : Prop := ∀ a b, Within d a → Within e b → ∃ x ∈ vars, x.eval a ≠ x.eval b

/-- A condition that may be guessed: about an existing variable, properly made, and decided where nothing is left to branch on. -/
def GuessOK (n : Nat) (Leaf : Doms → Prop) (c : Cond) : Prop := ((Lit.cond c).Valid n ∧ (Lit.cond c).RangeOK) ∧ Decided Leaf c

/-- The objective value changes from `v` to `v'` as the solutions `f` are found: each is better than the best so far. Nothing is asked if there is no objective. -/
inductive Improves : Option VarId → Option Int → List Doms → Option Int → Prop where
  | free (f : List Doms) : Improves none none f none
  | start (o : VarId) (v : Option Int) : Improves (some o) v [] v
  | better {o : VarId} {v v' : Option Int} {f : List Doms} {d : Doms} {w : Int} : Improves (some o) v f v' → (∀ x, v' = some x → w < x) →
    (∀ a, Within d a → o.eval a = w) → InI64 w → Improves (some o) v (f ++ [d]) (some w)

/-- `a` has been reported, or is no better than something that has been. -/
def Reported (o : Option VarId) (v : Option Int) (f : List Doms) (a : Asg) : Prop :=
  (∃ d ∈ f, Within d a) ∨ ∃ x y, o = some x ∧ v = some y ∧ y ≤ x.eval a

section
variable {σ μ : Type}

/-- A system in which the search can start. -/
structure RootOK (n m : Nat) (E : Engine σ μ) (s : Sys σ μ) : Prop where
  call : CallOK n m E [] s
  ids : IdsOK s.w
  aligned : Aligned s.st

/-- The situations in which the search calls `propagate`: at the root, at the root after tightening the objective, at a child, at a child after tightening the objective. `J` holds at the start of a pass, `I k`
at a node at which `propagate` has finished, with the first `k` nogoods taken into account. -/
inductive Entry (n m : Nat) (E : Engine σ μ) (store : μ → List (List Cond)) (J : Sys σ μ → Prop) (I : Nat → Sys σ μ → Prop) (k : Nat) : List Lit → Sys σ μ → Prop where
  | root (s : Sys σ μ) : RootOK n m E s → J s → k ≤ (store s.mem).length → Entry n m E store J I k [] s
  | again (p s : Sys σ μ) (l : Lit) : NodeOK n m E p → I k p → l.Valid n → Inferred p l s → Entry n m E store J I k [l] s
  | child (p s : Sys σ μ) (l : Lit) : NodeOK n m E p → I k p → l.Valid n → Child p l s → Entry n m E store J I k [l] s
  | childBound (p c s : Sys σ μ) (l b : Lit) : NodeOK n m E p → I k p → l.Valid n → Child p l c → b.Valid n → Inferred c b s → Entry n m E store J I k [l, b] s

/-- What the search relies on. `Sol`: the solutions; nothing that satisfies it may be lost. `Fin`: what is checked where nothing is left to branch on, usually the same. `Leaf`: the domains at which the heuristic has nothing left to branch on. `store`: the nogoods learned so far. `Le`: how captured memory
develops after the root. `runs` holds of every well-formed engine (`Entry.runs`). -/
structure SearchPre (n m : Nat) (R : Err → Prop) (V : SearchEnv σ μ) (Sol Fin : Asg → Prop) (Leaf : Doms → Prop) (store : μ → List (List Cond)) (Le : μ → μ → Prop)
    (J : Sys σ μ → Prop) (I : Nat → Sys σ μ → Prop) : Prop where
  runs : ∀ k gs s, Entry n m V.engine store J I k gs s → Thrown R (Sys.propagate V.engine gs V.abort s) ∨
    ∃ b s', Sys.propagate V.engine gs V.abort s = .ok (b, s') ∧ CallSpec n V.engine gs s b s'
  objective : ∀ o, V.minimise = some o → o.Valid n ∧ ∀ d a b, Leaf d → Within d a → Within d b → o.eval a = o.eval b
  branch : ∀ i s, NodeOK n m V.engine s → Thrown R (V.branch i s) ∨ ∃ bs, V.branch i s = .ok bs ∧ if bs = [] then Leaf s.doms else BranchOK n s.doms bs ∧ ∀ b ∈ bs, Decided Leaf b
  monotone : ∀ i j, i ≤ j → V.abort i = true → V.abort j = true
  le_refl : ∀ x, Le x x
  le_trans : ∀ x y z, Le x y → Le y z → Le x z
  learned : ∀ add, V.learn = some add → ∀ g x, (∀ c ∈ g, GuessOK n Leaf c) → Le x (add g x) ∧ store (add g x) = store x ++ [g]
  call : ∀ k gs s b s', Entry n m V.engine store J I k gs s → Sys.propagate V.engine gs V.abort s = .ok (b, s') →
    (∀ a, Sol a → (∀ g ∈ store s.mem, ¬ Forbids g a) → Within s.doms a → b = true ∧ Within s'.doms a) ∧ (gs ≠ [] → Le s.mem s'.mem) ∧ store s'.mem = store s.mem ∧
    (b = true → (∀ i, i < s'.clock → V.abort i = false) → I k s')
  back : ∀ k p p', NodeOK n m V.engine p → I k p → Same V.engine.progs.length p p' → Le p.mem p'.mem → I k p'
  again : ∀ k p, I k p → J p
  leaf : ∀ k s, NodeOK n m V.engine s → I k s → Leaf s.doms → ∀ a, Within s.doms a → Fin a ∧ ∀ g ∈ (store s.mem).take k, ¬ Forbids g a

/-- The solutions are what is checked. -/
abbrev SearchContract (n m : Nat) (R : Err → Prop) (V : SearchEnv σ μ) (Sol : Asg → Prop) (Leaf : Doms → Prop) (store : μ → List (List Cond)) (Le : μ → μ → Prop)
    (J : Sys σ μ → Prop) (I : Nat → Sys σ μ → Prop) : Prop := SearchPre n m R V Sol Sol Leaf store Le J I

end
end Gcs
