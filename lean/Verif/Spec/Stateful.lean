import Verif.Spec.Posts

/-!
# Constraints that keep state, or rely on what holds throughout the search

`Prog.VerS` is `Prog.Ver` for propagation functions that read and write constraint states: it follows the constraint states of the current epoch as well as the domains. `Serves` is `Implements` for such a
function: it may rely on an invariant of domains and constraint states, and has to maintain it.
-/

namespace Gcs

section
variable {σ μ α : Type}

/-- The constraint states in the current epoch. -/
abbrev Sys.top (s : Sys σ μ) : List σ := s.st.cstates.headD []

def Prog.VerS (J : Job) (S : α → Prop) (Q : α → Doms → List σ → Prop) : Prog σ μ α → Doms → List σ → Prop
  | .ret v, d, c => Q v d c
  | .raise e, _, _ => J.R e
  | .fail, d, _ => ∀ a, Within d a → ¬ J.C a
  | .read k, d, c => ∀ s, s.doms = d → s.top = c → (k s).VerS J S Q d c
  | .infer l o k, d, c => l.Valid J.n ∧ (∀ a, Within d a → J.C a → l.holds a) ∧
    (∀ d', DomsOK d' → d'.length = J.n → (∀ b, Within d' b ↔ Within d b ∧ l.holds b) → (k true).VerS J S Q d' c) ∧
    (o = true → (k false).Halts J.R S)
  | .progress k, d, c => ∀ b, (k b).VerS J S Q d c
  | .watch l _ k, d, c => J.watch ∧ l.Valid J.n ∧ l.RangeOK ∧ (¬ ∀ a, Within d a → l.holds a) ∧ k.VerS J S Q d c
  | .clearWatches k, d, c => J.watch ∧ k.VerS J S Q d c
  | .setWatchState _ _ k, d, c => J.watch ∧ k.VerS J S Q d c
  | .setState h v k, d, c => (h < J.m ∧ J.own h) ∧ k.VerS J S Q d (c.set h v)
  | .setMem _ _, _, _ => False

/-- `Implements`, for a function that relies on and maintains `I`, and writes the constraint states in `own` only. -/
structure Serves (n m : Nat) (R : Err → Prop) (root : Doms) (I : Doms → List σ → Prop) (own : Nat → Prop) (f : Prog σ μ PState) (t : Triggers) (C c : Asg → Prop) (xs : List VarId) : Prop where
  wakes : ∀ x ∈ xs, ∀ v, x.underlyingIndex = some v → ∃ y, (y ∈ t.onChange ∨ y ∈ t.onBounds ∨ y ∈ t.onInstantiated) ∧ y.underlyingIndex = some v
  refined : ∀ r ∈ t.refined, r.1.Valid n ∧ r.1.RangeOK
  ver : ∀ d z, DomsOK d → d.length = n → z.length = m → I d z →
    f.VerS { n, m, R, C := fun a => Within root a ∧ C a, own } (fun _ => True)
      (fun ps d' z' => EnforcedIf t.Distinct (fun a => Within root a → c a) (xs.filterMap VarId.underlyingIndex) d ps d' ∧ I d' z') d z

/-- `Item.OK`, relying on `I`. Initialisers leave constraint states alone. -/
def Item.Served (n m : Nat) (R : Err → Prop) (root : Doms) (I : Doms → List σ → Prop) (own : Nat → Prop) (C : Asg → Prop) (xs : List VarId) (e : Asg → Prop) : Item σ μ → Prop
  | .init _ f => ∀ d, DomsOK d → d.length = n →
    f.Ver { n, m, R, C := fun a => Within root a ∧ C a, watch := False } (fun _ => False) (fun _ d' => ∀ a, Within d' a → Within root a → e a) d
  | .prop f t => ∃ ys, (∀ y ∈ ys, y ∈ xs) ∧ Serves n m R root I own f t C e ys

/-- What a constraint installs is right, given an invariant that holds after the initialisers if the constraint states start as `z0`, is about its own constraint states, and is not lost by removing values. -/
structure Served (n m : Nat) (R : Err → Prop) (root : Doms) (z0 : List σ) (I : Doms → List σ → Prop) (own : Nat → Prop) (C : Asg → Prop) (xs : List VarId)
    (es : List (Item σ μ × (Asg → Prop))) : Prop where
  items : ∀ p ∈ es, p.1.Served n m R root I own C xs p.2
  together : ∀ a, Within root a → (C a ↔ ∀ p ∈ es, p.2 a)
  shrink : ∀ d d' z, DomsOK d' → d'.length = n → (∀ a, Within d' a → Within d a) → I d z → I d' z
  only : ∀ d z z', (∀ h, own h → z'[h]? = z[h]?) → I d z → I d z'
  start : ∀ d, DomsOK d → d.length = n → (∀ a, Within d a → Within root a ∧ ∀ p ∈ es, (∃ q f, p.1 = .init q f) → p.2 a) → I d z0

/-- The constraint installs the right things, if it installs anything, and uses the constraint states in `own` only. -/
def Posted.Serves (n m : Nat) (R : Err → Prop) (root : Doms) (z0 : List σ) (own : Nat → Prop) (c : Posted σ μ) : Prop :=
  ∀ items, c.install root = .ok items → ∃ I es, es.map (·.1) = items ∧ Served n m R root z0 I own c.holds c.about es

end
end Gcs
