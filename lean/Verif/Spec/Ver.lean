import Verif.Spec.Checks
import Verif.Lemmas.Kept

/-!
# One statement for a whole propagation function

`Prog.Ver` follows a propagation function through its operations, with the domains as they are at each point, and asks at once for everything the engine, the search and learning need: literals are valid,
inferences and contradictions lose no assignment that satisfies the constraint, watches are armed on open literals, captured memory is left alone, and what is returned satisfies `Q`.
-/

namespace Gcs

section
variable {σ μ α : Type}

/-- What a propagation function has to be right for: numbers of variables and constraint states, the exceptions it may throw, the assignments it must not lose, whether it may use watches, and the constraint states it may
write. -/
structure Job where
  n : Nat
  m : Nat
  R : Err → Prop
  C : Asg → Prop
  watch : Prop := True
  own : Nat → Prop := fun _ => False

/-- After a failed `infer_*_or_stop` nothing is done any more, and if a value is returned it satisfies `S`. -/
def Prog.Halts (R : Err → Prop) (S : α → Prop) : Prog σ μ α → Prop
  | .ret v => S v
  | .raise e => R e
  | .fail => True
  | .read k => ∀ s, (k s).Halts R S
  | .infer _ _ _ => False
  | .progress k => ∀ b, (k b).Halts R S
  | .watch _ _ _ => False
  | .clearWatches _ => False
  | .setWatchState _ _ _ => False
  | .setState _ _ _ => False
  | .setMem _ _ => False

def Prog.Ver (J : Job) (S : α → Prop) (Q : α → Doms → Prop) : Prog σ μ α → Doms → Prop
  | .ret v, d => Q v d
  | .raise e, _ => J.R e
  | .fail, d => ∀ a, Within d a → ¬ J.C a
  | .read k, d => ∀ s, s.doms = d → (k s).Ver J S Q d
  | .infer l o k, d => l.Valid J.n ∧ (∀ a, Within d a → J.C a → l.holds a) ∧
    (∀ d', DomsOK d' → d'.length = J.n → (∀ b, Within d' b ↔ Within d b ∧ l.holds b) → (k true).Ver J S Q d') ∧
    (o = true → (k false).Halts J.R S)
  | .progress k, d => ∀ b, (k b).Ver J S Q d
  | .watch l _ k, d => J.watch ∧ l.Valid J.n ∧ l.RangeOK ∧ (¬ ∀ a, Within d a → l.holds a) ∧ k.Ver J S Q d
  | .clearWatches k, d => J.watch ∧ k.Ver J S Q d
  | .setWatchState _ _ k, d => J.watch ∧ k.Ver J S Q d
  | .setState h _ k, d => (h < J.m ∧ J.own h) ∧ k.Ver J S Q d
  | .setMem _ _, _ => False

/-- What a propagator that enforces `c` has to have established when it returns: if everything the constraint is about was fixed at the start, the constraint holds; if it says that running it again is
pointless, the same for the end; if it disables itself, the constraint holds whatever happens. -/
def Enforced (c : Asg → Prop) (vs : List Nat) (d : Doms) (ps : PState) (d' : Doms) : Prop :=
  ((∀ v ∈ vs, Fixed d v) → ∀ a, Within d' a → c a) ∧
  (ps = .enableButIdempotent → (∀ v ∈ vs, Fixed d' v) → ∀ a, Within d' a → c a) ∧
  (ps = .disableUntilBacktrack → ∀ a, Within d' a → c a)

/-- The same, if what it says about running it again is believed only if `D`. -/
def EnforcedIf (D : Prop) (c : Asg → Prop) (vs : List Nat) (d : Doms) (ps : PState) (d' : Doms) : Prop :=
  ((∀ v ∈ vs, Fixed d v) → ∀ a, Within d' a → c a) ∧
  (D → ps = .enableButIdempotent → (∀ v ∈ vs, Fixed d' v) → ∀ a, Within d' a → c a) ∧
  (ps = .disableUntilBacktrack → ∀ a, Within d' a → c a)

/-- The propagation function `f`, installed with triggers `t` when the domains were `root`, never loses a solution of `C` and enforces `c` on the variables `xs`. `c` is `C` if there is only one propagator for
the constraint, and may be weaker if there are several. It writes no constraint states but those in `own`. -/
structure Implements (n m : Nat) (R : Err → Prop) (root : Doms) (f : Prog σ μ PState) (t : Triggers) (C c : Asg → Prop) (xs : List VarId) (own : Nat → Prop := fun _ => False) : Prop where
  wakes : ∀ x ∈ xs, ∀ v, x.underlyingIndex = some v → ∃ y, (y ∈ t.onChange ∨ y ∈ t.onBounds ∨ y ∈ t.onInstantiated) ∧ y.underlyingIndex = some v
  refined : ∀ r ∈ t.refined, r.1.Valid n ∧ r.1.RangeOK
  ver : ∀ d, DomsOK d → d.length = n →
    f.Ver { n, m, R, C := fun a => Within root a ∧ C a, own } (fun _ => True) (EnforcedIf t.Distinct (fun a => Within root a → c a) (xs.filterMap VarId.underlyingIndex) d) d

end
end Gcs
