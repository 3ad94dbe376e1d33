import Verif.Lemmas.Cons.GlobalCardinality
import Verif.Props.Cons.Run

/-!
# C51: GlobalCardinality
-/

namespace Gcs
open IntervalSet GlobalCardinality

/-- What the documentation says (global_cardinality.hh:29-31): for each `i`, the number of variables equal to `values[i]` is the count `counts[i]`; if closed, every variable has one of the values. -/
def GlobalCardinality.Meets (vars : List VarId) (values : List Int) (counts : List VarId) (closed : Bool) (a : Asg) : Prop :=
  (∀ (i : Nat) v c, values[i]? = some v → counts[i]? = some c → c.eval a = ((vars.map (·.eval a)).count v : Nat)) ∧ (closed = true → ∀ x ∈ vars, x.eval a ∈ values)

theorem GlobalCardinality.tally_iff {vars : List VarId} {values : List Int} {counts : List VarId} {a : Asg} :
    Tally vars (values.zip counts) a ↔ ∀ (i : Nat) v c, values[i]? = some v → counts[i]? = some c → c.eval a = ((vars.map (·.eval a)).count v : Nat) := by
  have hc : ∀ v, ((vars.map (·.eval a)).count v) = cnt (fun x => x.eval a = v) vars := fun v => by
    rw [List.count, List.countP_map]
    exact countP_cnt _ _ fun x _ => by simp
  simp only [hc]
  constructor
  · intro h i v c hv hcc
    exact h (v, c) (List.mem_of_getElem? (List.getElem?_zip_eq_some.2 ⟨hv, hcc⟩))
  · intro h p hp
    obtain ⟨i, hi⟩ := List.getElem?_of_mem hp
    have := List.getElem?_zip_eq_some.1 hi
    exact h i p.1 p.2 this.1 this.2

section
variable {σ μ : Type} {n m : Nat} {R : Err → Prop} {root : Doms} {vars counts : List VarId} {values : List Int} {closed : Bool}

/-- C51: `GlobalCardinality` at its default level is right for values in any order, and for all variables and counts, which may be related to each other. Missing: values that are not different; for those this is false, see
`globalCardinality_twice_wrong`. -/
theorem globalCardinality_right_partial (ho : R .overflow) (hv : ∀ x ∈ vars, x.Valid n) (hc : ∀ x ∈ counts, x.Valid n) (hI : ∀ v ∈ values, InI64 v) (hn : values.Nodup) (hlen : values.length ≤ counts.length) :
    (Posted.mk (GlobalCardinality.install (σ := σ) (μ := μ) vars values counts closed) (Meets vars values counts closed) (vars ++ counts)).Right n m R root (fun _ => False) := by
  have e : Meets vars values counts closed = fun a => GlobalCardinality.Tally vars (values.zip counts) a ∧ (closed = true → ∀ x ∈ vars, x.eval a ∈ values) := funext fun a => by rw [Meets, tally_iff]
  rw [e]
  exact install_right ho hv hc hI hn hlen

/-- C51: with fewer counts than values, posting it reads outside of a vector. -/
theorem globalCardinality_short (d : Doms) (h : counts.length < values.length) : GlobalCardinality.install (σ := σ) (μ := μ) vars values counts closed d = .error .ub := by
  rw [GlobalCardinality.install, pairUp_ub _ _ h]; rfl

end

/-! Three variables, one of them twice; counts that are variables, constants, views of the variables. -/
namespace GlobalCardinality.Demo

def vars : List VarId := [.simple 0, .simple 1, .view 0 true 3]
def values : List Int := [2, 1]
def counts : List VarId := [.simple 2, .const 1]
def root : Doms := [[(0, 3)], [(0, 3)], [(0, 5)]]

example : (Posted.mk (GlobalCardinality.install (σ := Unit) (μ := Unit) vars values counts false) (Meets vars values counts false) (vars ++ counts)).Right 3 0 (· = .overflow) root (fun _ => False) :=
  globalCardinality_right_partial rfl (by decide) (by decide) (by decide) (by decide) (by decide)
/-- Some assignment meets it, another does not. -/
example : Meets vars values counts false fun _ => 2 := by
  refine ⟨fun i v c hv hc => ?_, (fun h => nomatch h)⟩
  match i with
  | 0 => cases hv; cases hc; decide
  | 1 => cases hv; cases hc; decide
  | _ + 2 => cases hv
example : ¬ Meets vars values counts false fun _ => 0 := fun h => absurd (h.1 1 1 (.const 1) rfl rfl) (by decide)

/-- With the same variable on both sides: the number of those that are 1 is the first of them. -/
example : Run.run [[(0, 3)], [(0, 1)]] [GlobalCardinality.install [.simple 0, .simple 1] [1] [.simple 0] false] = some ([[[(0, 0)], [(0, 0)]], [[(1, 1)], [(0, 0)]]], true) := by decide +kernel
/-- Of three variables, two are 1, and one is 2, with values in any order. -/
example : Run.run [[(1, 3)], [(1, 2)], [(2, 3)]] [GlobalCardinality.install [.simple 0, .simple 1, .simple 2] [2, 1] [.const 1, .const 2] false] = some ([[[(1, 1)], [(1, 1)], [(2, 2)]]], true) := by decide +kernel
/-- Closed or not. -/
example : Run.run [[(1, 3)]] [GlobalCardinality.install [.simple 0] [2, 1] [.const 0, .view 0 false (-1)] true] = some ([], true) := by decide +kernel
example : Run.run [[(1, 3)], [(0, 1)]] [GlobalCardinality.install [.simple 0] [2, 1] [.const 0, .simple 1] false] = some ([[[(1, 1)], [(1, 1)]], [[(3, 3)], [(0, 0)]]], true) := by decide +kernel

end GlobalCardinality.Demo

/-- C51: if a value occurs twice among the values, and one variable must have it, then that variable is demanded twice: there is a solution, and the search says that there is none. -/
theorem globalCardinality_twice_wrong : (∀ a : Asg, a 0 = 1 → Meets [.simple 0] [1, 1] [.const 1, .const 1] false a) ∧
    Run.run [[(1, 1)]] [GlobalCardinality.install [.simple 0] [1, 1] [.const 1, .const 1] false] = some ([], true) := by
  refine ⟨fun a h => ?_, by decide +kernel⟩
  rw [Meets, ← tally_iff]
  refine ⟨?_, (fun h => nomatch h)⟩
  rintro p hp
  have hp : p = (1, .const 1) := by simpa using hp
  rw [hp]
  simp [VarId.eval, cnt, h]

end Gcs
