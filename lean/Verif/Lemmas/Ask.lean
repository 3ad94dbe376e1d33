import Verif.Lemmas.Wp

/-! Queries and arithmetic as propagation functions use them: the answer is right and a 64-bit integer, or an overflow is thrown. -/

namespace Gcs
open IntervalSet Queue

section
variable {d : Doms} {v : VarId}

theorem exact_roo (x : Int) : RightOrOverflow (exactOrThrow x) (fun r => r = x ∧ InI64 r) := by
  unfold exactOrThrow
  by_cases h : InI64 x
  · rw [if_pos h]; exact .inr ⟨x, rfl, rfl, h⟩
  · rw [if_neg h]; exact .inl rfl

theorem add_roo {a b : Int} (ha : InI64 a) (hb : InI64 b) : RightOrOverflow (iAdd a b) (fun r => r = a + b ∧ InI64 r) := by
  rw [iAdd_exact a b ha hb]; exact exact_roo _
theorem sub_roo {a b : Int} (ha : InI64 a) (hb : InI64 b) : RightOrOverflow (iSub a b) (fun r => r = a - b ∧ InI64 r) := by
  rw [iSub_exact a b ha hb]; exact exact_roo _
theorem mul_roo {a b : Int} (ha : InI64 a) (hb : InI64 b) : RightOrOverflow (iMul a b) (fun r => r = a * b ∧ InI64 r) := by
  rw [iMul_exact a b ha hb]; exact exact_roo _
theorem neg_roo {a : Int} (ha : InI64 a) : RightOrOverflow (iNeg a) (fun r => r = - a ∧ InI64 r) := by
  rw [iNeg_exact a ha]; exact exact_roo _
theorem abs_roo {a : Int} (ha : InI64 a) : RightOrOverflow (iAbs a) (fun r => r = (if a < 0 then - a else a) ∧ InI64 r) := by
  rw [iAbs_exact a ha]; exact exact_roo _
theorem inc_roo {a : Int} (ha : InI64 a) : RightOrOverflow (iInc a) (fun r => r = a + 1 ∧ InI64 r) := by
  rw [iInc_exact a ha]; exact exact_roo _
theorem dec_roo {a : Int} (ha : InI64 a) : RightOrOverflow (iDec a) (fun r => r = a - 1 ∧ InI64 r) := by
  rw [iDec_exact a ha]; exact exact_roo _

theorem lower_roo (hd : DomsOK d) (hv : v.Valid d.length) : RightOrOverflow (lowerBound d v) (fun l => InI64 l ∧ IsMin (Poss d v) l) := by
  have ok := rawOf_ok hd hv
  obtain ⟨l, u, b⟩ := exists_bnd ok.wf ok.nonempty
  rw [lowerBound_eq hd hv b]
  exact ((applyView_raw hd hv (b.mem_ite_ul _)).imp id fun r hr => ⟨hr.2, hr.1 ▸ view_min hd hv b⟩).drop

theorem upper_roo (hd : DomsOK d) (hv : v.Valid d.length) : RightOrOverflow (upperBound d v) (fun l => InI64 l ∧ IsMax (Poss d v) l) := by
  have ok := rawOf_ok hd hv
  obtain ⟨l, u, b⟩ := exists_bnd ok.wf ok.nonempty
  rw [upperBound_eq hd hv b]
  exact ((applyView_raw hd hv (b.mem_ite_lu _)).imp id fun r hr => ⟨hr.2, hr.1 ▸ view_max hd hv b⟩).drop

theorem bounds_roo (hd : DomsOK d) (hv : v.Valid d.length) :
    RightOrOverflow (bounds d v) (fun r => (InI64 r.1 ∧ IsMin (Poss d v) r.1) ∧ InI64 r.2 ∧ IsMax (Poss d v) r.2) := by
  have ok := rawOf_ok hd hv
  obtain ⟨l, u, b⟩ := exists_bnd ok.wf ok.nonempty
  rw [bounds_eq hd hv b]
  refine RightUnless.drop (RightUnless.bind (applyView_raw hd hv (b.mem_ite_ul _)) fun x hx => ?_)
  refine RightUnless.bind (applyView_raw hd hv (b.mem_ite_lu _)) fun y hy => ?_
  exact RightUnless.pure ⟨⟨hx.2, hx.1 ▸ view_min hd hv b⟩, hy.2, hy.1 ▸ view_max hd hv b⟩

theorem single_roo (hd : DomsOK d) (hv : v.Valid d.length) :
    RightOrOverflow (optionalSingleValue d v) (fun r => ∀ y, (r = some y ↔ ∀ z, Poss d v z ↔ z = y) ∧ (r = some y → InI64 y)) := by
  rcases optionalSingleValue_spec hd hv with ⟨h, _⟩ | ⟨r, h, hr⟩
  · exact .inl h
  · refine .inr ⟨r, h, fun y => ⟨hr y, fun e => ?_⟩⟩
    have ok := rawOf_ok hd hv
    obtain ⟨l, u, b⟩ := exists_bnd ok.wf ok.nonempty
    rw [optionalSingleValue_eq hd hv b] at h
    by_cases hlu : l = u
    · rw [if_pos hlu] at h
      rcases applyView_raw hd hv b.meml with ⟨h1, _⟩ | ⟨z, h1, h2⟩
      · rw [h1] at h; cases h
      · rw [h1] at h
        have : r = some z := by cases h; rfl
        rw [this] at e; cases e; exact h2.2
    · rw [if_neg hlu] at h; cases h; cases e

/-- Values of an assignment within the domains are possible. -/
theorem Within.poss {a : Asg} (h : Within d a) (v : VarId) : Poss d v (v.eval a) := ⟨a, h, rfl⟩

theorem roo_ask {σ μ α β : Type} {n m : Nat} {R : Err → Prop} {f : Doms → Chk α} {k : α → Prog σ μ β} (P : α → Prop) (ho : R .overflow)
    (h : ∀ d, DomsOK d → d.length = n → RightOrOverflow (f d) P) (hk : ∀ v, P v → (k v).OK n m R) : ((Prog.ask f).bind k).OK n m R :=
  ok_ask P (fun d h1 h2 => (h d h1 h2).imp (fun e => ⟨_, e, ho⟩) id) hk

theorem RightOrOverflow.value {α : Type} {x : Chk α} {P : α → Prop} (h : RightOrOverflow x P) {v : α} (e : x = .ok v) : P v := by
  rcases h with h | ⟨r, h, k⟩
  · rw [h] at e; cases e
  · rw [h] at e; cases e; exact k

end
end Gcs
