import Verif.Spec.Engine

/-!
# What is asked of propagation functions

`Prog.Sound` is the rule every propagator has to follow: infer only what the assignment satisfies, never fail on it. `Keeps` is the same for a whole run
and for propagators that rely on state they maintain themselves.
-/

namespace Gcs

section
variable {σ μ α : Type}

/-- Whatever the propagation function reads, as long as the assignment `a` is within the domains, it only infers literals that hold under `a` and does not
report a contradiction. -/
def Prog.Sound (n : Nat) (a : Asg) : Prog σ μ α → Prop
  | .ret _ => True
  | .raise _ => True
  | .fail => False
  | .read k => ∀ s, DomsOK s.doms → s.doms.length = n → Within s.doms a → (k s).Sound n a
  | .infer l _ k => l.holds a ∧ (k true).Sound n a
  | .progress k => ∀ b, (k b).Sound n a
  | .watch _ _ k => k.Sound n a
  | .clearWatches k => k.Sound n a
  | .setWatchState _ _ k => k.Sound n a
  | .setState _ _ k => k.Sound n a
  | .setMem _ k => k.Sound n a

/-- The same for functions that rely on what they have read before. -/
def Prog.SoundAt (n : Nat) (a : Asg) : Prog σ μ α → Doms → Prop
  | .ret _, _ => True
  | .raise _, _ => True
  | .fail, _ => False
  | .read k, d => ∀ s, s.doms = d → (k s).SoundAt n a d
  | .infer l _ k, d => l.holds a ∧ ∀ d', DomsOK d' → d'.length = n → Within d' a → (∀ b, Within d' b ↔ Within d b ∧ l.holds b) → (k true).SoundAt n a d'
  | .progress k, d => ∀ b, (k b).SoundAt n a d
  | .watch _ _ k, d => k.SoundAt n a d
  | .clearWatches k, d => k.SoundAt n a d
  | .setWatchState _ _ k, d => k.SoundAt n a d
  | .setState _ _ k, d => k.SoundAt n a d
  | .setMem _ k, d => k.SoundAt n a d

/-- Started anywhere with `a` within the domains, the propagation function only infers literals that hold under `a` and does not report a contradiction. -/
def Prog.Truthful (n : Nat) (a : Asg) (f : Prog σ μ α) : Prop := ∀ d, DomsOK d → d.length = n → Within d a → f.SoundAt n a d

/-- Weakest precondition in terms of domains: if the propagation function starts with domains `d` and returns a value without a contradiction, then the
value and the final domains satisfy `Q`. An inference that succeeds leaves exactly the assignments that satisfy the literal. -/
def Prog.Wp (n : Nat) (Q : α → Doms → Prop) : Prog σ μ α → Doms → Prop
  | .ret v, d => Q v d
  | .raise _, _ => True
  | .fail, _ => True
  | .read k, d => ∀ s, s.doms = d → (k s).Wp n Q d
  | .infer l _ k, d => ∀ d', DomsOK d' → d'.length = n → (∀ b, Within d' b ↔ Within d b ∧ l.holds b) → (k true).Wp n Q d'
  | .progress k, d => ∀ b, (k b).Wp n Q d
  | .watch _ _ k, d => k.Wp n Q d
  | .clearWatches k, d => k.Wp n Q d
  | .setWatchState _ _ k, d => k.Wp n Q d
  | .setState _ _ k, d => k.Wp n Q d
  | .setMem _ k, d => k.Wp n Q d

/-- Watches are only armed on literals that are not entailed at that moment. -/
def Prog.ArmsOpen (n : Nat) : Prog σ μ α → Doms → Prop
  | .ret _, _ => True
  | .raise _, _ => True
  | .fail, _ => True
  | .read k, d => ∀ s, s.doms = d → (k s).ArmsOpen n d
  | .infer l _ k, d => ∀ d', DomsOK d' → d'.length = n → (∀ b, Within d' b ↔ Within d b ∧ l.holds b) → (k true).ArmsOpen n d'
  | .progress k, d => ∀ b, (k b).ArmsOpen n d
  | .watch l _ k, d => (¬ ∀ a, Within d a → l.holds a) ∧ k.ArmsOpen n d
  | .clearWatches k, d => k.ArmsOpen n d
  | .setWatchState _ _ k, d => k.ArmsOpen n d
  | .setState _ _ k, d => k.ArmsOpen n d
  | .setMem _ k, d => k.ArmsOpen n d

/-- `K` only looks at what the engine leaves alone between runs: domains, constraint states, captured memory and watch scratch state. -/
def CoreStable (K : Sys σ μ → Prop) : Prop :=
  ∀ s s' : Sys σ μ, s'.doms = s.doms → s'.st.cstates.headD [] = s.st.cstates.headD [] → s'.mem = s.mem → s'.w.wstate = s.w.wstate → K s → K s'

/-- Every run from a state with `K` and with `a` within the domains ends without contradiction in such a state. -/
def Keeps (n m : Nat) (K : Sys σ μ → Prop) (a : Asg) (c : Ctx) (f : Prog σ μ α) : Prop :=
  ∀ s r s', Runnable n m s → K s → Within s.doms a → runProg c f s = .ok (r, s') → ¬ Failed r s' ∧ Within s'.doms a ∧ K s'

end
end Gcs
