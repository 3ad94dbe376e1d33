import Verif.Spec.Semantics
import Verif.Props.Integer

/-!
# C08, C09, C10: views, negation of conditions, constant folding
-/

namespace Gcs

theorem exactOrThrow_ok {v r : Int} (h : exactOrThrow v = .ok r) : r = v ∧ InI64 v := by
  unfold exactOrThrow at h
  split at h
  · cases h; exact ⟨rfl, by assumption⟩
  · cases h

theorem exactOrThrow_error {v : Int} {e : Err} (h : exactOrThrow v = .error e) : e = .overflow ∧ ¬ InI64 v := by
  unfold exactOrThrow at h
  split at h
  · cases h
  · cases h; exact ⟨rfl, by assumption⟩

namespace VarId

/-- The constant stored in a view or constant is a 64-bit integer (it is an `Integer` in the code). -/
def InI64Const : VarId → Prop
  | simple _ => True
  | view _ _ add => InI64 add
  | const c => InI64 c

/-- The constant that the shifted variable must store. -/
def storedConst : VarId → Int
  | simple _ => 0
  | view _ _ add => add
  | const c => c

/-- C08, addition: `v + o` denotes the value of `v` plus `o` in every assignment, or throws overflow, and the latter exactly when the resulting
stored constant is not representable. -/
theorem addOffset_spec (v : VarId) (o : Int) (hv : v.InI64Const) (ho : InI64 o) :
    (∃ w, v.addOffset o = .ok w ∧ w.InI64Const ∧ InI64 (v.storedConst + o) ∧ ∀ a : Asg, w.eval a = v.eval a + o) ∨
    (v.addOffset o = .error .overflow ∧ ¬ InI64 (v.storedConst + o)) := by
  cases v with
  | simple i =>
    left
    unfold addOffset
    by_cases h : o = 0
    · subst h; exact ⟨simple i, by simp, trivial, (by decide : InI64 (0 + 0)), fun a => by simp [eval]⟩
    · exact ⟨view i false o, by simp [h], ho, by simpa [storedConst] using ho, fun a => by simp [eval]⟩
  | const c =>
    simp only [InI64Const] at hv
    simp only [addOffset, storedConst, iAdd_exact c o hv ho, exactOrThrow]
    by_cases h : InI64 (c + o)
    · left; rw [if_pos h]; exact ⟨_, rfl, h, h, fun a => rfl⟩
    · right; rw [if_neg h]; exact ⟨rfl, h⟩
  | view i neg add =>
    simp only [InI64Const] at hv
    simp only [addOffset, storedConst, iAdd_exact add o hv ho, exactOrThrow]
    by_cases h : InI64 (add + o)
    · left; rw [if_pos h]; simp only [bind, Except.bind]
      split
      · rename_i hc
        refine ⟨_, rfl, trivial, h, fun a => ?_⟩
        have : neg = false := by simpa using hc.1
        subst this; simp only [eval]; simp; omega
      · exact ⟨_, rfl, h, h, fun a => by simp only [eval]; omega⟩
    · right; rw [if_neg h]; exact ⟨rfl, h⟩

/-- C08, subtraction. -/
theorem subOffset_spec (v : VarId) (o : Int) (hv : v.InI64Const) (ho : InI64 o) :
    (∃ w, v.subOffset o = .ok w ∧ w.InI64Const ∧ InI64 (v.storedConst - o) ∧ ∀ a : Asg, w.eval a = v.eval a - o) ∨
    (v.subOffset o = .error .overflow ∧ ¬ InI64 (v.storedConst - o)) := by
  cases v with
  | simple i =>
    simp only [subOffset, storedConst, iNeg_exact o ho, exactOrThrow, Int.zero_sub]
    by_cases h : InI64 (-o)
    · left; rw [if_pos h]; exact ⟨_, rfl, h, h, fun a => by simp [eval]; omega⟩
    · right; rw [if_neg h]; exact ⟨rfl, h⟩
  | const c =>
    simp only [InI64Const] at hv
    simp only [subOffset, storedConst, iSub_exact c o hv ho, exactOrThrow]
    by_cases h : InI64 (c - o)
    · left; rw [if_pos h]; exact ⟨_, rfl, h, h, fun a => rfl⟩
    · right; rw [if_neg h]; exact ⟨rfl, h⟩
  | view i neg add =>
    simp only [InI64Const] at hv
    simp only [subOffset, storedConst, iSub_exact add o hv ho, exactOrThrow]
    by_cases h : InI64 (add - o)
    · left; rw [if_pos h]; exact ⟨_, rfl, h, h, fun a => by simp only [eval]; omega⟩
    · right; rw [if_neg h]; exact ⟨rfl, h⟩

/-- C08, negation. -/
theorem negate_spec (v : VarId) (hv : v.InI64Const) :
    (∃ w, v.negate = .ok w ∧ w.InI64Const ∧ InI64 (- v.storedConst) ∧ ∀ a : Asg, w.eval a = - v.eval a) ∨
    (v.negate = .error .overflow ∧ ¬ InI64 (- v.storedConst)) := by
  cases v with
  | simple i => left; exact ⟨_, rfl, (by decide : InI64 0), (by decide : InI64 (-0)), fun a => by simp [eval]⟩
  | const c =>
    simp only [InI64Const] at hv
    simp only [negate, storedConst, iNeg_exact c hv, exactOrThrow]
    by_cases h : InI64 (-c)
    · left; rw [if_pos h]; exact ⟨_, rfl, h, h, fun a => rfl⟩
    · right; rw [if_neg h]; exact ⟨rfl, h⟩
  | view i neg add =>
    simp only [InI64Const] at hv
    simp only [negate, storedConst, iNeg_exact add hv, exactOrThrow]
    by_cases h : InI64 (-add)
    · left; rw [if_pos h]
      exact ⟨_, rfl, h, h, fun a => by cases neg <;> simp [eval] <;> omega⟩
    · right; rw [if_neg h]; exact ⟨rfl, h⟩

/-- Views of views are flattened: the result of any of the three operations refers to the same simple variable (or none), never to a view. (In the
model, as in the code, a view can only refer to a simple variable; this theorem says which.) -/
def underlying : VarId → Option Nat
  | simple i => some i
  | view i _ _ => some i
  | const _ => none

theorem operations_keep_underlying (v w : VarId) (o : Int) :
    (v.addOffset o = .ok w ∨ v.subOffset o = .ok w ∨ v.negate = .ok w) → w.underlying = v.underlying := by
  rintro (h | h | h) <;> cases v <;> simp only [addOffset, subOffset, negate, bind, Except.bind, pure, Except.pure] at h
  · cases h; split <;> rfl
  · split at h
    · cases h
    · split at h <;> cases h <;> rfl
  · split at h <;> cases h; rfl
  · split at h <;> cases h; rfl
  · split at h <;> cases h; rfl
  · split at h <;> cases h; rfl
  · cases h; rfl
  · split at h <;> cases h; rfl
  · split at h <;> cases h; rfl

example : (view 3 true 5).addOffset 2 = .ok (view 3 true 7) ∧ (view 3 false 5).addOffset (-5) = .ok (simple 3) ∧
    (view 3 true 7).negate = .ok (view 3 false (-7)) ∧ (simple 2).subOffset i64Min = .error .overflow ∧
    (view 3 true 7).InI64Const := by
  refine ⟨by decide, by decide, by decide, by decide, ?_⟩
  show InI64 7; decide

end VarId

namespace Cond

/-- C09: negation is exact complement. -/
theorem not_holds (c : Cond) (a : Asg) : c.not.holds a ↔ ¬ c.holds a := by
  obtain ⟨v, op, x, u⟩ := c
  cases op <;> simp [Cond.not, Cond.holds, CondOp.holds] <;> omega

/-- C09: double negation is the identity on every condition the API builds (scalar operators carry no upper value). -/
theorem not_not (c : Cond) (h : c.op ≠ .inRange → c.op ≠ .notInRange → c.upper = 0) : c.not.not = c := by
  obtain ⟨v, op, x, u⟩ := c
  cases op <;> simp_all [Cond.not]

/-- C09: `v <= n`. -/
theorem le_spec (v : VarId) (n : Int) (hn : InI64 n) :
    (n = i64Max ∧ le v n = .error .overflow) ∨ (∃ c, le v n = .ok c ∧ ∀ a, c.holds a ↔ v.eval a ≤ n) := by
  simp only [le, iAdd_exact n 1 hn (by decide), exactOrThrow]
  by_cases h : InI64 (n + 1)
  · right; rw [if_pos h]; exact ⟨_, rfl, fun a => by simp only [holds, CondOp.holds]; omega⟩
  · left; rw [if_neg h]; exact ⟨by unfold InI64 i64Min i64Max at *; omega, rfl⟩

/-- C09: `v > n`. -/
theorem gt_spec (v : VarId) (n : Int) (hn : InI64 n) :
    (n = i64Max ∧ gt v n = .error .overflow) ∨ (∃ c, gt v n = .ok c ∧ ∀ a, c.holds a ↔ v.eval a > n) := by
  simp only [gt, iAdd_exact n 1 hn (by decide), exactOrThrow]
  by_cases h : InI64 (n + 1)
  · right; rw [if_pos h]; exact ⟨_, rfl, fun a => by simp only [holds, CondOp.holds]; omega⟩
  · left; rw [if_neg h]; exact ⟨by unfold InI64 i64Min i64Max at *; omega, rfl⟩

/-- C09: `in_range` and `not_in_range`. -/
theorem ranges_spec (v : VarId) (lo hi : Int) :
    (lo ≤ hi → ∃ c d, inRange v lo hi = .ok c ∧ notInRange v lo hi = .ok d ∧ (lo = hi → c = eq v lo ∧ d = ne v lo) ∧
      ∀ a, (c.holds a ↔ lo ≤ v.eval a ∧ v.eval a ≤ hi) ∧ (d.holds a ↔ v.eval a < lo ∨ v.eval a > hi)) ∧
    (lo > hi → inRange v lo hi = .error .invalidProblem ∧ notInRange v lo hi = .error .invalidProblem) := by
  constructor
  · intro h
    unfold inRange notInRange
    have hng : ¬ lo > hi := by omega
    rw [if_neg hng, if_neg hng]
    by_cases he : lo = hi
    · rw [if_pos he, if_pos he]
      exact ⟨_, _, rfl, rfl, fun _ => ⟨rfl, rfl⟩, fun a => by simp only [holds, CondOp.holds]; omega⟩
    · rw [if_neg he, if_neg he]
      exact ⟨_, _, rfl, rfl, fun h => absurd h he, fun a => ⟨Iff.rfl, by simp only [holds, CondOp.holds]; omega⟩⟩
  · intro h; simp [inRange, notInRange, h]

/-- C09: the scalar conditions. -/
theorem scalars_spec (v : VarId) (n : Int) (a : Asg) :
    ((eq v n).holds a ↔ v.eval a = n) ∧ ((ne v n).holds a ↔ v.eval a ≠ n) ∧ ((lt v n).holds a ↔ v.eval a < n) ∧
    ((ge v n).holds a ↔ v.eval a ≥ n) := by
  simp [eq, ne, lt, ge, holds]

example : (inRange (.simple 0) 3 5) = .ok ⟨.simple 0, .inRange, 3, 5⟩ ∧
    (⟨.simple 0, .inRange, 3, 5⟩ : Cond).holds (fun _ => 4) ∧ ¬ (⟨.simple 0, .inRange, 3, 5⟩ : Cond).not.holds (fun _ => 4) := by decide

end Cond

namespace Lit

/-- C09: negation of literals is exact complement. -/
theorem not_holds (l : Lit) (a : Asg) : l.not.holds a ↔ ¬ l.holds a := by
  cases l with
  | cond c => exact c.not_holds a
  | tt => simp [Lit.not, holds]
  | ff => simp [Lit.not, holds]

/-- C10: what constant folding says is true in every assignment. -/
theorem literal_folding_sound (l : Lit) (b : Bool) (h : l.isLiterallyTrueOrFalse = some b) (a : Asg) : l.holds a ↔ b = true := by
  cases l with
  | cond c =>
    obtain ⟨v, op, x, u⟩ := c
    cases v <;> simp only [isLiterallyTrueOrFalse] at h
    · cases h
    · cases h
    · cases op <;> simp only [Option.some.injEq] at h <;> subst h <;> simp [holds, Cond.holds, CondOp.holds, VarId.eval] <;> omega
  | tt => cases h; simp [holds]
  | ff => cases h; simp [holds]

/-- C10: `is_literally_true` / `is_literally_false`. -/
theorem isLiterally_sound (l : Lit) (a : Asg) :
    (l.isLiterallyTrue = true → l.holds a) ∧ (l.isLiterallyFalse = true → ¬ l.holds a) := by
  unfold isLiterallyTrue isLiterallyFalse
  cases h : l.isLiterallyTrueOrFalse with
  | none => simp
  | some b => have := literal_folding_sound l b h a; cases b <;> simp_all

/-- C10: constants are always decided, other conditions never. -/
theorem literal_folding_complete (l : Lit) :
    l.isLiterallyTrueOrFalse = none ↔ ∃ c, l = cond c ∧ ∀ k, c.var ≠ .const k := by
  cases l with
  | cond c =>
    obtain ⟨v, op, x, u⟩ := c
    cases v <;> cases op <;> simp [isLiterallyTrueOrFalse]
  | tt => simp [isLiterallyTrueOrFalse]
  | ff => simp [isLiterallyTrueOrFalse]

example : (cond (.inRange |> fun o => ⟨.const 4, o, 3, 5⟩)).isLiterallyTrue = true ∧
    (cond ⟨.const 4, .less, 3, 0⟩).isLiterallyFalse = true := by decide

end Lit
end Gcs

#print axioms Gcs.VarId.addOffset_spec
#print axioms Gcs.VarId.subOffset_spec
#print axioms Gcs.VarId.negate_spec
#print axioms Gcs.VarId.operations_keep_underlying
#print axioms Gcs.Cond.not_holds
#print axioms Gcs.Cond.not_not
#print axioms Gcs.Cond.le_spec
#print axioms Gcs.Cond.gt_spec
#print axioms Gcs.Cond.ranges_spec
#print axioms Gcs.Cond.scalars_spec
#print axioms Gcs.Lit.not_holds
#print axioms Gcs.Lit.literal_folding_sound
#print axioms Gcs.Lit.isLiterally_sound
#print axioms Gcs.Lit.literal_folding_complete
