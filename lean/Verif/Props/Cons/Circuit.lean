import Verif.Lemmas.Cons.CircuitPrevent
import Verif.Lemmas.Cons.CircuitHang
import Verif.Props.Cons.Run
import Verif.Props.Stateful

/-!
# C52: Circuit
-/

namespace Gcs
open IntervalSet

section
variable {σ μ : Type} {m : Nat} {R : Err → Prop} {root : Doms} {succ : List VarId} {z0 : List σ} {B : Kind σ (List VarId)} {h : Nat}

/-- C52: `Circuit(succ).with_algorithm(circuit::Prevent{})`: what is installed is right, given that the constraint states with the handles `h` and `hc` start as what `prepare` adds. There is no limit on how often the
loops go round, and none of them is undefined behaviour. Posting throws only if a variable is repeated, or something is not a 64-bit integer. Missing: the case that the same constant is given twice, which can
only be infeasible. -/
theorem circuit_prevent_right_partial {K : Kind σ Circuit.Chains} {hc : Nat} (hne : h ≠ hc) (ho : R .overflow) (hd : DomsOK root) (hv : ∀ v ∈ succ, v.Valid root.length) (hk : (succ.filter fun x => x.underlyingIndex.isNone).Nodup)
    (hz : z0[h]? = some (B.put succ)) (hzc : z0[hc]? = some (K.put (Circuit.Chains.init succ.length))) :
    (Posted.mk (Circuit.install (σ := σ) (μ := μ) (.prevent K hc) B h succ) (fun a => Tour (succ.map (·.eval a))) succ).Serves root.length m R root z0 (fun k => k = h ∨ k = hc) ∧
    ∀ e, Circuit.install (σ := σ) (μ := μ) (.prevent K hc) B h succ root = .error e → e = .overflow ∨ (e = .invalidProblem ∧ ¬ succ.Nodup) := by
  cases hdup : Inverse.hasDup succ with
  | true =>
    have e : Circuit.install (σ := σ) (μ := μ) (.prevent K hc) B h succ root = .error .invalidProblem := by rw [Circuit.install, hdup]; rfl
    refine ⟨fun items h => ?_, fun e' h => ?_⟩
    · have h : Circuit.install (σ := σ) (μ := μ) (.prevent K hc) B _ succ root = .ok items := h
      rw [e] at h; cases h
    · rw [e] at h; cases h
      exact .inr ⟨rfl, fun hn => by rw [Circuit.dup_nodup hn] at hdup; cases hdup⟩
  | false =>
    have key := Circuit.prevent_ok (μ := μ) (m := m) hne ho hd hv (Circuit.nodup_of hdup hk) hz hzc
    exact ⟨fun items e => key.value e, fun e he => by rcases key with k | ⟨_, k, _⟩ <;> rw [k] at he <;> cases he; exact .inl rfl⟩

/-- C52: `Circuit(succ)`, which uses `circuit::SCC`, with any options: what is installed is right, given that the constraint state with the handle `h` starts as what `prepare` adds, whatever the limit on how often the
loop in `prevent_small_cycles` goes round. Missing: it may go round forever (`circuit_scc_hangs`), so errors that are let through include running into the limit; a circuit with no nodes (`circuit_scc_empty`); and
the same constant given twice, which can only be infeasible. -/
theorem circuit_scc_right_partial {fuel : Nat} (o : Circuit.Options) (ho : R .overflow) (hdv : R .diverge) (hd : DomsOK root) (hv : ∀ v ∈ succ, v.Valid root.length) (hk : (succ.filter fun x => x.underlyingIndex.isNone).Nodup)
    (hne : succ ≠ []) (hz : z0[h]? = some (B.put succ)) :
    (Posted.mk (Circuit.install (σ := σ) (μ := μ) (.scc o fuel) B h succ) (fun a => Tour (succ.map (·.eval a))) succ).Serves root.length m R root z0 (· = h) ∧
    ∀ e, Circuit.install (σ := σ) (μ := μ) (.scc o fuel) B h succ root = .error e → e = .overflow ∨ (e = .invalidProblem ∧ ¬ succ.Nodup) := by
  cases hdup : Inverse.hasDup succ with
  | true =>
    have e : Circuit.install (σ := σ) (μ := μ) (.scc o fuel) B h succ root = .error .invalidProblem := by rw [Circuit.install, hdup]; rfl
    refine ⟨fun items h => ?_, fun e' h => ?_⟩
    · have h : Circuit.install (σ := σ) (μ := μ) (.scc o fuel) B _ succ root = .ok items := h
      rw [e] at h; cases h
    · rw [e] at h; cases h
      exact .inr ⟨rfl, fun hn => by rw [Circuit.dup_nodup hn] at hdup; cases hdup⟩
  | false =>
    have key := Circuit.scc_ok (μ := μ) (m := m) (fuel := fuel) o ho hdv hd hv (Circuit.nodup_of hdup hk) hne hz
    exact ⟨fun items e => key.value e, fun e he => by rcases key with k | ⟨_, k, _⟩ <;> rw [k] at he <;> cases he; exact .inl rfl⟩

/-- C52: without successors, the default algorithm writes to a vector with no elements. -/
theorem circuit_scc_empty {c : Ctx} {s : Sys σ μ} {fuel : Nat} (o : Circuit.Options) (hs : s.top[h]? = some (B.put [])) : runProg c (Circuit.sccProp (μ := μ) B h fuel o []) s = .error .ub := by
  have hlt : h < s.top.length := (List.getElem?_eq_some_iff.1 hs).1
  unfold Circuit.sccProp AllDifferent.vcStage
  simp only [runProg]
  rw [show (s.st.cstates.headD [])[h]? = some (B.put []) from hs]
  dsimp only
  rw [B.get_put]
  show runProg c (.setState h (B.put []) _) s = _
  simp only [runProg, State.setConstraintState]
  cases e : s.st.cstates with
  | nil => rfl
  | cons x xs =>
    have hlt : h < x.length := by simpa [Sys.top, e] using hlt
    simp only [if_pos hlt]
    rfl

end

/-! Concrete cases of the hypotheses, and runs. -/
namespace Circuit

def kind : Kind (List VarId) (List VarId) := ⟨id, some, fun _ => rfl⟩

/-- Constraint states of the two kinds. -/
inductive Two where
  | unassigned (l : List VarId)
  | chains (c : Chains)

def listKind : Kind Two (List VarId) := ⟨.unassigned, fun | .unassigned l => some l | _ => none, fun _ => rfl⟩
def chainsKind : Kind Two Chains := ⟨.chains, fun | .chains c => some c | _ => none, fun _ => rfl⟩

def root : Doms := [[(-5, 9)], [(0, 2)], [(-3, 1), (3, 3)]]
def succ : List VarId := [.simple 0, .view 1 false 1, .simple 2, .const 0]

/-- The theorems apply: with a view, a constant, and values that are not nodes. -/
example : (Posted.mk (install (μ := Unit) (.prevent chainsKind 1) listKind 0 succ) (fun a => Tour (succ.map (·.eval a))) succ).Serves 3 2 (· = .overflow) root [.unassigned succ, .chains (Chains.init 4)] (fun k => k = 0 ∨ k = 1) :=
  (circuit_prevent_right_partial (R := (· = .overflow)) (root := root) (succ := succ) (h := 0) (hc := 1) (by decide) rfl (by decide +kernel) (by decide +kernel) (by decide +kernel) rfl rfl).1
example : (Posted.mk (install (μ := Unit) (.scc {} 100) kind 0 succ) (fun a => Tour (succ.map (·.eval a))) succ).Serves 3 1 (fun e => e = .overflow ∨ e = .diverge) root [succ] (· = 0) :=
  (circuit_scc_right_partial (R := fun e => e = .overflow ∨ e = .diverge) (root := root) (succ := succ) {} (.inl rfl) (.inr rfl) (by decide +kernel) (by decide +kernel) (by decide +kernel) (by decide) rfl).1

/-- All the tours, from both. -/
example : Run.runWith [.unassigned succ, .chains (Chains.init 4)] root [install (.prevent chainsKind 1) listKind 0 succ] = some ([[[(1, 1)], [(1, 1)], [(3, 3)]], [[(2, 2)], [(2, 2)], [(1, 1)]]], true) := by decide +kernel
example : Run.runWith [succ] root [install (.scc {} 100) kind 0 succ] = some ([[[(1, 1)], [(1, 1)], [(3, 3)]], [[(2, 2)], [(2, 2)], [(1, 1)]]], true) := by decide +kernel

/-- A tour, and two cycles that are not one. -/
example : Tour [1, 2, 3, 0] := by
  refine (tour_iff (by decide)).2 ⟨by decide, fun i j hi hj => ⟨(j + 4 - i) % 4, ?_⟩⟩
  have hi : i < 4 := hi
  have hj : j < 4 := hj
  rcases i with _ | _ | _ | _ | i <;> rcases j with _ | _ | _ | _ | j <;> first | omega | rfl
example : ¬ Tour [1, 0, 3, 2] := fun h => by
  have := (Loop.of_tour h).cycle (s := 0) (len := 1) (by decide) rfl
  exact absurd this (by decide)

/-- Repeated variables are refused; a repeated constant is not, and is infeasible. -/
example : (install (μ := Unit) (.prevent chainsKind 1) listKind 0 [.simple 0, .simple 1, .simple 0] root).map List.length = .error .invalidProblem := by decide +kernel
example : Run.runWith [.unassigned [.simple 0, .const 0, .const 0], .chains (Chains.init 3)] root [install (.prevent chainsKind 1) listKind 0 [.simple 0, .const 0, .const 0]] = some ([], true) := by decide +kernel

/-- The empty circuit: the default algorithm goes wrong, and the other one does not. -/
example : Run.runWith [[]] [[(0, 1)]] [install (.scc {} 100) kind 0 []] = none := by decide +kernel
example : (Run.runWith [.unassigned [], .chains (Chains.init 0)] [[(0, 0)]] [install (.prevent chainsKind 1) listKind 0 []]) = some ([[[(0, 0)]]], true) := by decide +kernel

/-- C52: the default algorithm may never finish: on these domains, no limit on how often the loop in `prevent_small_cycles` goes round is enough. -/
theorem circuit_scc_hangs (fuel : Nat) : runProg ⟨0, []⟩ (sccProp (μ := Unit) kind 0 fuel {} Hang.succ) (Sys.start Hang.root [Hang.succ] () (Run.setup Hang.root []).watches) = .error .diverge := by
  have h : (match runProg ⟨0, []⟩ (sccHead (μ := Unit) kind 0 {} Hang.succ) (Sys.start Hang.root [Hang.succ] () (Run.setup Hang.root []).watches) with
    | .ok (.val (some u), s) => decide (u = [.simple 3, .simple 1, .simple 2] ∧ s.doms = Hang.pruned)
    | _ => false) = true := by decide +kernel
  split at h
  · rename_i u s e
    obtain ⟨rfl, hd⟩ := of_decide_eq_true h
    rw [sccProp_split, run_bind _ _ e]
    exact preventSmallCycles_diverges (by rw [hd]; exact Hang.chains_diverge fuel)
  · cases h

/-- There is no tour within these domains, which the other algorithm finds out. -/
example : Run.runWith [.unassigned Hang.succ, .chains (Chains.init 7)] Hang.root [install (.prevent chainsKind 1) listKind 0 Hang.succ] = some ([], true) := by decide +kernel

/-- This is what happens there after posting the constraint. -/
example : Run.runWith [Hang.succ] Hang.root [install (.scc {} 50) kind 0 Hang.succ] = none := by decide +kernel

end Circuit
end Gcs
