import Verif.Lemmas.Cons.LinearConsistent
import Verif.Model.Cons.Equals
import Verif.Props.Cons.Run

/-!
# C38: linear equations and inequalities

For the constraints of `gcs/constraints/linear`, with sums whose number of terms is below the threshold for the incremental propagator (above it: `Props/Cons/LinearIncremental.lean`). The sums may have repeated variables, views and constants, and
coefficients of any sign.
-/

namespace Gcs
open IntervalSet Linear

section
variable {σ μ : Type} {n m : Nat} {R : Err → Prop} {root : Doms} {terms : List WTerm} {value : Int}

/-- C38, C47: `LinearEquality`. -/
theorem linearEquality_right (ho : R .overflow) (hd : DomsOK root) (hl : root.length = n) (ht : TermsOK n terms) (hv : InI64 value) :
    (Posted.mk (equality (σ := σ) (μ := μ) terms value .mustHold) (fun a => wsum terms a = value) ((varsOf terms).map .simple)).Right n m R root (· = .overflow) := by
  have := equality_roo (σ := σ) (μ := μ) (m := m) (r := .mustHold) ho hd hl ht hv trivial (by rintro ⟨c, h | h⟩ <;> cases h)
  rw [show about terms .mustHold = (varsOf terms).map .simple from List.append_nil _] at this
  exact right_of_roo (c := Posted.mk _ _ _) this

/-- C38, C47: `LinearNotEquals`. -/
theorem linearNotEquals_right (ho : R .overflow) (hd : DomsOK root) (hl : root.length = n) (ht : TermsOK n terms) (hv : InI64 value) :
    (Posted.mk (equality (σ := σ) (μ := μ) terms value .mustNotHold) (fun a => wsum terms a ≠ value) ((varsOf terms).map .simple)).Right n m R root (· = .overflow) := by
  have := equality_roo (σ := σ) (μ := μ) (m := m) (r := .mustNotHold) ho hd hl ht hv trivial (by rintro ⟨c, h | h⟩ <;> cases h)
  rw [show about terms .mustNotHold = (varsOf terms).map .simple from List.append_nil _] at this
  exact right_of_roo (c := Posted.mk _ _ _) this

/-- C38, C47: `LinearNotEqualsIf`, for a condition on a variable. -/
theorem linearNotEqualsIf_right (ho : R .overflow) (hd : DomsOK root) (hl : root.length = n) (ht : TermsOK n terms) (hv : InI64 value) {c : Cond} (hc : (Lit.cond c).Valid n) (hr : (Lit.cond c).RangeOK) :
    (Posted.mk (equality (σ := σ) (μ := μ) terms value (literalToReif .notIf (.cond c))) (fun a => c.holds a → wsum terms a ≠ value) ((varsOf terms).map .simple ++ [c.var])).Right n m R root (· = .overflow) :=
  right_of_roo (c := Posted.mk _ _ _) (equality_roo (r := .notIf c) ho hd hl ht hv ⟨hc, hr⟩ (by rintro ⟨c, h | h⟩ <;> cases h))

/-- C38, C47: `LinearEqualityIf`, for a condition on a variable. Missing: sums that are constant, whatever the values of the variables, and less than `value`; for them this is false, see
`linearEqualityIf_wrong`. -/
theorem linearEqualityIf_partial (ho : R .overflow) (hd : DomsOK root) (hl : root.length = n) (ht : TermsOK n terms) (hv : InI64 value) {c : Cond} (hc : (Lit.cond c).Valid n) (hr : (Lit.cond c).RangeOK)
    (hx : ∃ a, value ≤ wsum terms a) :
    (Posted.mk (equality (σ := σ) (μ := μ) terms value (literalToReif .ifCond (.cond c))) (fun a => c.holds a → wsum terms a = value) ((varsOf terms).map .simple ++ [c.var])).Right n m R root (· = .overflow) :=
  right_of_roo (c := Posted.mk _ _ _) (equality_roo (r := .ifCond c) ho hd hl ht hv ⟨hc, hr⟩ fun _ => hx)

/-- C38, C47: `LinearEqualityIff`, for a condition on a variable. Missing: as for `linearEqualityIf_partial`. -/
theorem linearEqualityIff_partial (ho : R .overflow) (hd : DomsOK root) (hl : root.length = n) (ht : TermsOK n terms) (hv : InI64 value) {c : Cond} (hc : (Lit.cond c).Valid n) (hr : (Lit.cond c).RangeOK)
    (hx : ∃ a, value ≤ wsum terms a) :
    (Posted.mk (equality (σ := σ) (μ := μ) terms value (literalToReif .iffCond (.cond c))) (fun a => c.holds a ↔ wsum terms a = value) ((varsOf terms).map .simple ++ [c.var])).Right n m R root (· = .overflow) :=
  right_of_roo (c := Posted.mk _ _ _) (equality_roo (r := .iffCond c) ho hd hl ht hv ⟨hc, hr⟩ fun _ => hx)

/-- C38, C47: `LinearNotEqualsIff`, for a condition on a variable. Missing: as for `linearEqualityIf_partial`. -/
theorem linearNotEqualsIff_partial (ho : R .overflow) (hd : DomsOK root) (hl : root.length = n) (ht : TermsOK n terms) (hv : InI64 value) {c : Cond} (hc : (Lit.cond c).Valid n) (hr : (Lit.cond c).RangeOK)
    (hx : ∃ a, value ≤ wsum terms a) :
    (Posted.mk (equality (σ := σ) (μ := μ) terms value (literalToReif .iffCond (.cond c.not))) (fun a => c.holds a ↔ wsum terms a ≠ value) ((varsOf terms).map .simple ++ [c.not.var])).Right n m R root (· = .overflow) := by
  have e : (fun a : Asg => c.holds a ↔ wsum terms a ≠ value) = fun a => Reif.holds (fun a => wsum terms a = value) a (.iffCond c.not) := by
    funext a
    show _ = (c.not.holds a ↔ wsum terms a = value)
    rw [Cond.not_holds]
    by_cases h1 : c.holds a <;> by_cases h2 : wsum terms a = value <;> simp [h1, h2]
  rw [e]
  exact right_of_roo (c := Posted.mk _ _ _) (equality_roo (r := .iffCond c.not) ho hd hl ht hv ⟨Lit.Valid.not (l := .cond c) hc, Lit.RangeOK.not (l := .cond c) hr⟩ fun _ => hx)

/-- C38, C47: `LinearLessThanEqual`, `LinearLessThanEqualIf` and `LinearLessThanEqualIff`. -/
theorem linearLessThanEqual_right (ho : R .overflow) (hd : DomsOK root) (hl : root.length = n) (ht : TermsOK n terms) (hv : InI64 value) {r : Reif} (hr : r.Valid n) :
    (Posted.mk (inequality (σ := σ) (μ := μ) terms value r) (fun a => r.holds (fun a => wsum terms a ≤ value) a) ((varsOf terms).map .simple ++ r.vars)).Right n m R root (· = .overflow) :=
  right_of_roo (c := Posted.mk _ _ _) (inequality_roo ho hd hl ht hv hr)

/-- C38, C47: `LinearGreaterThanEqual`, `LinearGreaterThanEqualIf` and `LinearGreaterThanEqualIff`. -/
theorem linearGreaterThanEqual_right (ho : R .overflow) (hd : DomsOK root) (hl : root.length = n) (ht : TermsOK n terms) (hv : InI64 value) {r : Reif} (hr : r.Valid n) :
    (Posted.mk (greaterEqual (σ := σ) (μ := μ) terms value r) (fun a => r.holds (fun a => wsum terms a ≥ value) a) ((varsOf terms).map .simple ++ r.vars)).Right n m R root (· = .overflow) :=
  right_of_roo (c := Posted.mk _ _ _) (greaterEqual_roo ho hd hl ht hv hr)

/-- C38: merging repeated variables and taking views and constants apart does not change the sum. -/
theorem linear_tidy (ht : TermsOK n terms) : RightOrOverflow (tidy terms) (fun x => (x.1.map Term.var).Nodup ∧ (∀ t ∈ x.1, t.coeff ≠ 0) ∧
    ∀ a, wsum terms a = (x.1.map fun t => t.coeff * a t.var).sum - x.2) :=
  (tidy_roo ht).mono fun _ hx => ⟨hx.1.nodup, fun t h => (hx.1.coeff t h).2, hx.2.2.2⟩

/-- C38: after the propagator for `wsum terms ≤ value` has run once without failing, every value that is left, of any variable, is part of an assignment within the domains for which the inequality holds. -/
theorem linearLessThanEqual_consistent {c : Ctx} {s s' : Sys σ μ} {r : Res PState} {x : List Term × Int} (ht : TermsOK n terms) (hv : InI64 (value + x.2)) (hx : tidy terms = .ok x) (hs : Runnable n m s)
    (hr : runProg c (propagate false x.1 (value + x.2)) s = .ok (r, s')) (hf : ¬ Failed r s') (v : Nat) (y : Int) (hy : ∃ a, Within s'.doms a ∧ a v = y) :
    ∃ a, Within s'.doms a ∧ a v = y ∧ wsum terms a ≤ value := by
  obtain ⟨tx, _, _, sx⟩ := (tidy_roo ht).value hx
  have ver := propagate_consistent (σ := σ) (μ := μ) (J := { n, m, R := (· = .overflow), C := fun a => tsum x.1 a ≤ value + x.2 }) rfl hv tx (fun _ h => h) hs.domsOK hs.domsLen
  obtain ⟨_, _, h⟩ := wp_run (np := c.owner + 1) c (Nat.lt_succ_self _) _ s (Ver.okAt _ _ ver) (Ver.wp _ _ ver) hs r s' hr hf
  obtain ⟨a, h1, h2, h3⟩ := h v y hy
  exact ⟨a, h1, h2, by have := sx a; omega⟩

end

/-! Concrete cases: `2x - 3y + (5 - x) + 4` with `x` in `0, 2..3`, `y` in `1..4`, `b` in `0..1`. -/

namespace Linear

def doms : Doms := [[(0, 0), (2, 3)], [(1, 4)], [(0, 1)]]
def terms : List WTerm := [(2, .simple 0), (-3, .simple 1), (1, .view 0 true 5), (1, .const 4)]

example : DomsOK doms := by decide +kernel
example : TermsOK 3 terms := by unfold TermsOK terms; decide
example : ∃ a, 3 ≤ wsum terms a := ⟨fun i => if i = 1 then 1 else 0, by decide⟩
example : tidy terms = .ok ([⟨1, 0⟩, ⟨-3, 1⟩], -9) := by decide +kernel
example : (∃ c, equality (σ := Unit) (μ := Unit) terms 3 .mustHold doms = .ok [.prop c { onBounds := [.simple 0, .simple 1, .view 0 true 5, .const 4] }]) := ⟨_, rfl⟩

/-- The propagator is not a trivial one: `x - 3y ≥ -6` holds only if `y` is at most 3, and `x - 3y ≤ -6` only if it is at least 2. -/
example : Run.run [[(0, 0), (2, 3)], [(0, 4)]] [inequality [(1, .simple 0), (-3, .simple 1)] (-6) .mustHold, inequality [(-1, .simple 0), (3, .simple 1)] 6 .mustHold] =
    some ([[[(0, 0)], [(2, 2)]], [[(3, 3)], [(3, 3)]]], true) := by decide +kernel

example : Run.run doms [equality terms 3 .mustHold] =
    some ([[[(0, 0)], [(2, 2)], [(0, 0)]], [[(0, 0)], [(2, 2)], [(1, 1)]], [[(3, 3)], [(3, 3)], [(0, 0)]], [[(3, 3)], [(3, 3)], [(1, 1)]]], true) := by decide +kernel

example : Run.run [[(0, 2)], [(0, 1)]] [equality [(1, .simple 0)] 1 (.iffCond (Cond.eq (.simple 1) 1))] =
    some ([[[(0, 0)], [(0, 0)]], [[(2, 2)], [(0, 0)]], [[(1, 1)], [(1, 1)]]], true) := by decide +kernel

/-- A run of the propagator for `2x - 3y + (5 - x) + 4 ≤ -1`, as in `linearLessThanEqual_consistent`: it removes the values 1, 2 and 3 of `y`, and the value 3 of `x`. -/
example : (runProg ⟨0, []⟩ (propagate (σ := Unit) (μ := Unit) false [⟨1, 0⟩, ⟨-3, 1⟩] (-1 + -9)) (Sys.start doms [] () (Run.setup doms []).watches)).toOption.map (fun p => (p.1, p.2.doms, p.2.tr.contradicted)) =
    some (.val .enableButIdempotent, [[(0, 0), (2, 2)], [(4, 4)], [(0, 1)]], false) := by decide +kernel

/-! ## What is wrong -/

/-- The sum is `x - x`, so the equation is never true, and the condition is that `b` is 1, which another constraint demands. -/
def wrongRoot : Doms := [[(0, 1)], [(0, 1)]]
def never (f : Cond → Reif) : List (Doms → Chk (List (Item Unit Unit))) :=
  [Equals.install (.simple 1) (.const 1) .mustHold, equality [(1, .simple 0), (-1, .simple 0)] 5 (literalToReif f (.cond (Cond.eq (.simple 1) 1)))]

/-- `LinearEqualityIf`, when the condition is not decided when the constraint is posted, and turns out to hold before its propagator first runs: assignments with `b = 1` are reported as solutions, although
`x - x = 5` is false for them. `propagate_linear` only compares an empty sum using `≤`. -/
theorem linearEqualityIf_wrong : Run.run wrongRoot (never .ifCond) = some ([[[(0, 0)], [(1, 1)]], [[(1, 1)], [(1, 1)]]], true) := by decide +kernel

/-- The same, for `LinearEqualityIff`. -/
theorem linearEqualityIff_wrong : Run.run wrongRoot (never .iffCond) = some ([[[(0, 0)], [(1, 1)]], [[(1, 1)], [(1, 1)]]], true) := by decide +kernel

/-- `LinearNotEqualsIf(x - y, 0, TrueLiteral)` gives the assignments with `x = y`, instead of the others. -/
theorem linearNotEqualsIf_true_wrong : Run.run wrongRoot [equality [(1, .simple 0), (-1, .simple 1)] 0 (literalToReif .notIf .tt)] = some ([[[(0, 0)], [(0, 0)]], [[(1, 1)], [(1, 1)]]], true) := by decide +kernel

/-- `LinearNotEqualsIf(x - y, 0, FalseLiteral)` leaves out the assignments with `x = y`, although it demands nothing. -/
theorem linearNotEqualsIf_false_wrong : Run.run wrongRoot [equality [(1, .simple 0), (-1, .simple 1)] 0 (literalToReif .notIf .ff)] = some ([[[(0, 0)], [(1, 1)]], [[(1, 1)], [(0, 0)]]], true) := by decide +kernel

/-- `LinearEqualityIf(x - y, 0, FalseLiteral)` leaves out the assignments with `x = y`, although it demands nothing. -/
theorem linearEqualityIf_false_wrong : Run.run wrongRoot [equality [(1, .simple 0), (-1, .simple 1)] 0 (literalToReif .ifCond .ff)] = some ([[[(0, 0)], [(1, 1)]], [[(1, 1)], [(0, 0)]]], true) := by decide +kernel

end Linear
end Gcs
