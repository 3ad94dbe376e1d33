import Verif.Lemmas.Cons.ValuePrecede
import Verif.Props.Cons.Run

/-!
# C41: ValuePrecede and SeqPrecedeChain
-/

namespace Gcs

section
variable {σ μ : Type} {m n : Nat} {R : Err → Prop} {root : Doms} {vars : List VarId} {chain : List Int}

/-- C41: `ValuePrecede(chain, vars)`: what is installed is right, and posting does not throw. -/
theorem valuePrecede_right (ho : R .overflow) (hc : ∀ s ∈ chain, InI64 s) (hv : ∀ v ∈ vars, v.Valid n) :
    (Posted.mk (ValuePrecede.install (σ := σ) (μ := μ) chain vars) (Chained chain vars) vars).OK n m R root ∧ ∃ items, ValuePrecede.install (σ := σ) (μ := μ) chain vars root = .ok items := by
  refine ⟨fun items e => ?_, _, rfl⟩
  cases e
  exact ValuePrecede.pairs_ok ho hv chain hc fun _ _ h => h

/-- C41: `SeqPrecedeChain(vars)`: what is installed is right. Posting throws only if a bound is not a 64-bit integer. -/
theorem seqPrecedeChain_right (ho : R .overflow) (hd : DomsOK root) (hv : ∀ v ∈ vars, v.Valid root.length) :
    (Posted.mk (SeqPrecedeChain.install (σ := σ) (μ := μ) vars) (fun a => ∀ v : Int, 1 ≤ v → Precedes v (v + 1) vars a) vars).OK root.length m R root ∧
    ∀ e, SeqPrecedeChain.install (σ := σ) (μ := μ) vars root = .error e → e = .overflow := by
  have key := SeqPrecedeChain.install_ok (σ := σ) (μ := μ) (m := m) ho hd hv
  exact ⟨fun items e => key.value e, fun e he => by rcases key with k | ⟨_, k, _⟩ <;> rw [k] at he <;> cases he; rfl⟩

end

namespace ValuePrecede

/-! A run, with a value that is never possible, and a chain that goes back on itself. -/
example : Run.run [[(0, 2)], [(0, 2)]] [install [0, 2, 1] [.simple 0, .simple 1]] = some ([[[(0, 0)], [(0, 0)]], [[(0, 0)], [(2, 2)]]], true) := by decide +kernel
example : Run.run [[(0, 1)], [(0, 1)]] [install [1, 0, 1] [.simple 0, .simple 1]] = some ([], true) := by decide +kernel
example : Run.run [[(0, 1)], [(0, 1)]] [install [1, 1] [.simple 0, .simple 1]] = some ([[[(0, 0)], [(0, 0)]]], true) := by decide +kernel
/-- The value becomes possible further on, and then the pair is done with. -/
example : (runProg ⟨0, []⟩ (prop (σ := Unit) (μ := Unit) [.simple 0, .simple 1, .simple 2] 5 7) (Sys.start [[(6, 8)], [(5, 5)], [(7, 8)]] [] () (Run.setup [] []).watches)).toOption.map (fun p => (p.1, p.2.doms)) =
    some (.val .disableUntilBacktrack, [[(6, 6), (8, 8)], [(5, 5)], [(7, 8)]]) := by decide +kernel
example : (Posted.mk (install (σ := Unit) (μ := Unit) [0, 2, 1] [.simple 0, .view 1 true 3]) (Chained [0, 2, 1] [.simple 0, .view 1 true 3]) [.simple 0, .view 1 true 3]).OK 2 0 (· = .overflow) [[(0, 2)], [(0, 2)]] :=
  (valuePrecede_right (R := (· = .overflow)) (n := 2) (chain := [0, 2, 1]) (vars := [.simple 0, .view 1 true 3]) rfl (by decide) (by decide)).1

end ValuePrecede

namespace SeqPrecedeChain

example : Run.run [[(-1, 9)], [(0, 9)]] [install [.simple 0, .simple 1]] =
    some ([[[(-1, -1)], [(0, 0)]], [[(-1, -1)], [(1, 1)]], [[(0, 0)], [(0, 0)]], [[(0, 0)], [(1, 1)]], [[(1, 1)], [(0, 0)]], [[(1, 1)], [(1, 1)]], [[(1, 1)], [(2, 2)]]], true) := by decide +kernel
example : Run.run [[(-1, 9)]] [install [.simple 0]] = some ([[[(-1, -1)]], [[(0, 0)]], [[(1, 1)]]], true) := by decide +kernel
example : (Posted.mk (install (σ := Unit) (μ := Unit) [.simple 0, .simple 1]) (fun a => ∀ v : Int, 1 ≤ v → Precedes v (v + 1) [.simple 0, .simple 1] a) [.simple 0, .simple 1]).OK 2 0 (· = .overflow) [[(-1, 9)], [(0, 9)]] :=
  (seqPrecedeChain_right (R := (· = .overflow)) rfl (by decide +kernel) (by decide)).1

end SeqPrecedeChain
end Gcs
