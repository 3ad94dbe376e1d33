import Verif.Lemmas.Cons.Logical
import Verif.Lemmas.Decide

/-!
# C41: conjunction, disjunction, parity

For the constraints of `gcs/constraints/logical.hh` and `gcs/constraints/parity.hh`. A condition made by the library's functions is `Lit.Fine`.
-/

namespace Gcs
open IntervalSet

section
variable {σ μ : Type} {n m : Nat} {R : Err → Prop} {root : Doms} {lits : List Lit} {full : Lit}

/-- C41: `And`: the reification holds exactly if all literals do. -/
theorem and_right (ho : R .overflow) (hd : DomsOK root) (hl : root.length = n) (hls : ∀ l ∈ lits, l.Fine n) (hf : full.Fine n) :
    (Posted.mk (Logical.and (σ := σ) (μ := μ) lits full) (fun a => full.holds a ↔ ∀ l ∈ lits, l.holds a) (lits.flatMap Lit.vars ++ full.vars)).Right n m R root (· = .overflow) :=
  Logical.install_right ho hd hl hls hf

/-- C41: `Or`: the reification holds exactly if some literal does. -/
theorem or_right (ho : R .overflow) (hd : DomsOK root) (hl : root.length = n) (hls : ∀ l ∈ lits, l.Fine n) (hf : full.Fine n) :
    (Posted.mk (Logical.or (σ := σ) (μ := μ) lits full) (fun a => full.holds a ↔ ∃ l ∈ lits, l.holds a) (lits.flatMap Lit.vars ++ full.vars)).Right n m R root (· = .overflow) := by
  have h := Logical.install_right (σ := σ) (μ := μ) (m := m) (R := R) (lits := lits.map Lit.not) (full := full.not) ho hd hl
    (fun l hl => by obtain ⟨k, hk, rfl⟩ := List.mem_map.1 hl; exact (hls k hk).not) hf.not
  have e1 : (fun a => full.not.holds a ↔ ∀ l ∈ lits.map Lit.not, l.holds a) = fun a => full.holds a ↔ ∃ l ∈ lits, l.holds a := by
    funext a
    simp only [List.forall_mem_map, Lit.not_holds, eq_iff_iff]
    by_cases h1 : full.holds a <;> by_cases h2 : ∃ l ∈ lits, l.holds a
    · obtain ⟨l, hl, h2'⟩ := h2
      simp only [h1, not_true, false_iff, true_iff]
      exact ⟨fun _ => ⟨l, hl, h2'⟩, fun _ h => h l hl h2'⟩
    · simp only [h1, not_true, false_iff, true_iff, h2, iff_false, Classical.not_not]
      exact fun l hl h => h2 ⟨l, hl, h⟩
    · obtain ⟨l, hl, h2'⟩ := h2
      simp only [h1, not_false_iff, false_iff, true_iff]
      exact ⟨fun h => absurd h2' (h l hl), fun h => absurd ⟨l, hl, h2'⟩ h⟩
    · simp only [h1, not_false_iff, false_iff, true_iff, h2]
      exact ⟨fun _ => trivial, fun _ l hl h => h2 ⟨l, hl, h⟩⟩
  have e2 : (lits.map Lit.not).flatMap Lit.vars ++ full.not.vars = lits.flatMap Lit.vars ++ full.vars := by
    rw [List.flatMap_map, Lit.not_vars]; simp only [Lit.not_vars]
  rw [e1, e2] at h
  exact h

/-- C41: `ParityOdd`: an odd number of the literals hold. Posting never throws. -/
theorem parityOdd_right (ho : R .overflow) (hls : ∀ l ∈ lits, l.Fine n) :
    (Posted.mk (Parity.odd (σ := σ) (μ := μ) lits) (fun a => lits.countP (fun l => decide (l.holds a)) % 2 = 1) (lits.flatMap Lit.vars)).Right n m R root (fun _ => False) :=
  Parity.odd_right ho hls

/-- Variables in place of literals stand for being nonzero. -/
theorem nonZero_spec (vars : List VarId) (a : Asg) : (∀ l ∈ nonZero vars, l.holds a) ↔ ∀ v ∈ vars, v.eval a ≠ 0 := by
  unfold nonZero; rw [List.forall_mem_map]; rfl

theorem nonZero_fine {vars : List VarId} (hv : ∀ v ∈ vars, v.Valid n) : ∀ l ∈ nonZero vars, l.Fine n := by
  intro l hl
  obtain ⟨v, h, rfl⟩ := List.mem_map.1 hl
  exact ⟨.ne (hv v h) (by decide), by rintro (h | h) <;> cases h⟩

/-! Concrete cases: five 0/1 variables. -/

def Logical.doms : Doms := [[(0, 1)], [(0, 1)], [(0, 1)], [(0, 1)], [(0, 1)]]

example : DomsOK Logical.doms := by decide +kernel
example : ∀ l ∈ nonZero [.simple 0, .view 1 true 1, .simple 2], l.Fine 5 := nonZero_fine (by decide)
example : ∃ f t, Logical.or (σ := Unit) (μ := Unit) (nonZero [.simple 0, .view 1 true 1, .simple 2]) (.cond (Cond.ge (.simple 3) 1)) Logical.doms = .ok [.prop f t] := ⟨_, _, rfl⟩
/-- A disjunction that has to hold is a conjunction whose reification is false. -/
example : ∃ f t, Logical.or (σ := Unit) (μ := Unit) (nonZero [.simple 0, .simple 2]) .tt Logical.doms = .ok [.prop f t] := ⟨_, _, rfl⟩
example : ∃ f, Logical.and (σ := Unit) (μ := Unit) (nonZero [.simple 0, .simple 2]) .tt Logical.doms = .ok [.init .simpleDefinition f] := ⟨_, rfl⟩

end
end Gcs
