import Verif.Spec.Reified

/-!
# Deciding whether concrete data is proper, for examples
-/

namespace Gcs
open IntervalSet

instance {n : Nat} : (v : VarId) → Decidable (v.Valid n)
  | .simple i => inferInstanceAs (Decidable (i < n))
  | .view i _ add => inferInstanceAs (Decidable (i < n ∧ InI64 add))
  | .const c => inferInstanceAs (Decidable (InI64 c))

instance {n : Nat} (c : Cond) : Decidable (c.Valid n) := inferInstanceAs (Decidable (c.var.Valid n ∧ InI64 c.value ∧ InI64 c.upper))

instance {n : Nat} : (l : Lit) → Decidable (l.Valid n)
  | .cond c => inferInstanceAs (Decidable (c.Valid n))
  | .tt => .isTrue trivial
  | .ff => .isTrue trivial

instance : (l : Lit) → Decidable l.RangeOK
  | .cond c => inferInstanceAs (Decidable ((c.op = .inRange ∨ c.op = .notInRange) → c.value ≤ c.upper))
  | .tt => .isTrue trivial
  | .ff => .isTrue trivial

instance {n : Nat} : (r : Reif) → Decidable (r.Valid n)
  | .mustHold => .isTrue trivial
  | .mustNotHold => .isTrue trivial
  | .ifCond c => inferInstanceAs (Decidable ((Lit.cond c).Valid n ∧ (Lit.cond c).RangeOK))
  | .notIf c => inferInstanceAs (Decidable ((Lit.cond c).Valid n ∧ (Lit.cond c).RangeOK))
  | .iffCond c => inferInstanceAs (Decidable ((Lit.cond c).Valid n ∧ (Lit.cond c).RangeOK))

instance (s : IntervalSet) : Decidable (DomOK s) :=
  decidable_of_iff (WF s ∧ InRange s ∧ s ≠ []) ⟨fun ⟨h1, h2, h3⟩ => ⟨h1, h2, by
    cases s with
    | nil => exact absurd rfl h3
    | cons p r => exact ⟨p.1, p, List.mem_cons_self, Int.le_refl _, h1.1 p List.mem_cons_self⟩⟩, fun h => ⟨h.wf, h.inRange, by rintro rfl; obtain ⟨x, hx⟩ := h.nonempty; simp at hx⟩⟩

instance (d : Doms) : Decidable (DomsOK d) := inferInstanceAs (Decidable (∀ s ∈ d, DomOK s))

end Gcs
