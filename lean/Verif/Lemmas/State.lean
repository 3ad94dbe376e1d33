import Verif.Lemmas.Change
import Verif.Props.Literal

/-! Helper lemmas for inference and queries through views. -/

namespace Gcs
open IntervalSet

theorem iAdd_ok {a b c : Int} (h : iAdd a b = .ok c) (ha : InI64 a) (hb : InI64 b) : c = a + b ∧ InI64 c := by
  rw [iAdd_exact a b ha hb] at h; have := exactOrThrow_ok h; exact ⟨this.1, this.1 ▸ this.2⟩

theorem iSub_ok {a b c : Int} (h : iSub a b = .ok c) (ha : InI64 a) (hb : InI64 b) : c = a - b ∧ InI64 c := by
  rw [iSub_exact a b ha hb] at h; have := exactOrThrow_ok h; exact ⟨this.1, this.1 ▸ this.2⟩

theorem iNeg_ok {a c : Int} (h : iNeg a = .ok c) (ha : InI64 a) : c = - a ∧ InI64 c := by
  rw [iNeg_exact a ha] at h; have := exactOrThrow_ok h; exact ⟨this.1, this.1 ▸ this.2⟩

theorem iAdd_error {a b : Int} {e : Err} (h : iAdd a b = .error e) (ha : InI64 a) (hb : InI64 b) : e = .overflow ∧ ¬ InI64 (a + b) := by
  rw [iAdd_exact a b ha hb] at h; exact exactOrThrow_error h

theorem iSub_error {a b : Int} {e : Err} (h : iSub a b = .error e) (ha : InI64 a) (hb : InI64 b) : e = .overflow ∧ ¬ InI64 (a - b) := by
  rw [iSub_exact a b ha hb] at h; exact exactOrThrow_error h

theorem iNeg_error {a : Int} {e : Err} (h : iNeg a = .error e) (ha : InI64 a) : e = .overflow ∧ ¬ InI64 (- a) := by
  rw [iNeg_exact a ha] at h; exact exactOrThrow_error h

theorem bind_ok {α β : Type} {x : Chk α} {f : α → Chk β} {b : β} (h : (x.bind f) = .ok b) : ∃ a, x = .ok a ∧ f a = .ok b := by
  cases x with
  | error e => cases h
  | ok a => exact ⟨a, rfl, h⟩

theorem bind_error {α β : Type} {x : Chk α} {f : α → Chk β} {e : Err} (h : (x.bind f) = .error e) :
    x = .error e ∨ ∃ a, x = .ok a ∧ f a = .error e := by
  cases x with
  | error e => cases h; exact .inl rfl
  | ok a => exact .inr ⟨a, rfl, h⟩

/-- The variable exists and its constant is a 64-bit integer. -/
def VarId.Valid (n : Nat) : VarId → Prop
  | .simple i => i < n
  | .view i _ add => i < n ∧ InI64 add
  | .const c => InI64 c

/-- Everything a condition mentions exists and is a 64-bit integer. -/
def Cond.Valid (n : Nat) (c : Cond) : Prop := c.var.Valid n ∧ InI64 c.value ∧ InI64 c.upper

def Lit.Valid (n : Nat) : Lit → Prop
  | .cond c => c.Valid n
  | .tt => True
  | .ff => True

/-- The simple variable a literal is about, if any. -/
def Lit.underlying : Lit → Option Nat
  | .cond c => c.var.underlying
  | _ => none

/-- Every variable takes a value in its domain. -/
def Within (d : Doms) (a : Asg) : Prop := ∀ i s, d[i]? = some s → Mem (a i) s

/-- Value of the view on an underlying value. -/
def viewVal (neg : Bool) (add x : Int) : Int := (if neg then -x else x) + add

theorem adjust_ok {value add w : Int} {neg : Bool} (h : adjust value neg add = .ok w) (hv : InI64 value) (ha : InI64 add) :
    InI64 w ∧ ∀ x, viewVal neg add x = value ↔ x = w := by
  unfold adjust at h
  unfold viewVal
  cases neg
  · simp only [Bool.false_eq_true, if_false] at h ⊢
    have := iSub_ok h hv ha
    exact ⟨this.2, fun x => by omega⟩
  · simp only [if_true] at h ⊢
    obtain ⟨n, h1, h2⟩ := bind_ok h
    have k1 := iNeg_ok h1 hv
    have k2 := iAdd_ok h2 k1.2 ha
    exact ⟨k2.2, fun x => by omega⟩

theorem adjustNegBound_ok {value add w : Int} (h : adjustNegBound value add = .ok w) (hv : InI64 value) (ha : InI64 add) :
    InI64 w ∧ w = - value + add + 1 := by
  obtain ⟨n, h1, h2⟩ := bind_ok h
  have k1 := iNeg_ok h1 hv
  obtain ⟨m, h3, h4⟩ := bind_ok h2
  have k2 := iAdd_ok h3 k1.2 ha
  have k3 := iAdd_ok h4 k2.2 (by decide)
  exact ⟨k3.2, by omega⟩

theorem adjustRange_ok {lo hi add : Int} {neg : Bool} {w : Int × Int} (h : adjustRange lo hi neg add = .ok w) (hl : InI64 lo) (hh : InI64 hi)
    (ha : InI64 add) : InI64 w.1 ∧ InI64 w.2 ∧ ∀ x, (lo ≤ viewVal neg add x ∧ viewVal neg add x ≤ hi) ↔ (w.1 ≤ x ∧ x ≤ w.2) := by
  unfold adjustRange at h
  unfold viewVal
  obtain ⟨a, h1, h2⟩ := bind_ok h
  obtain ⟨b, h3, h4⟩ := bind_ok h2
  cases h4
  cases neg
  · simp only [Bool.false_eq_true, if_false] at h1 h3 ⊢
    have k1 := iSub_ok h1 hl ha
    have k2 := iSub_ok h3 hh ha
    exact ⟨k1.2, k2.2, fun x => by omega⟩
  · simp only [if_true] at h1 h3 ⊢
    have k1 := iSub_ok h1 ha hh
    have k2 := iSub_ok h3 ha hl
    exact ⟨k1.2, k2.2, fun x => by omega⟩

theorem adjust_error {value add : Int} {neg : Bool} {e : Err} (h : adjust value neg add = .error e) (hv : InI64 value) (ha : InI64 add) :
    e = .overflow := by
  unfold adjust at h
  cases neg
  · simp only [Bool.false_eq_true, if_false] at h
    exact (iSub_error h hv ha).1
  · simp only [if_true] at h
    rcases bind_error h with h1 | ⟨n, h1, h2⟩
    · exact (iNeg_error h1 hv).1
    · exact (iAdd_error h2 (iNeg_ok h1 hv).2 ha).1

theorem adjustNegBound_error {value add : Int} {e : Err} (h : adjustNegBound value add = .error e) (hv : InI64 value) (ha : InI64 add) :
    e = .overflow := by
  rcases bind_error h with h1 | ⟨n, h1, h2⟩
  · exact (iNeg_error h1 hv).1
  · have k1 := iNeg_ok h1 hv
    rcases bind_error h2 with h3 | ⟨m, h3, h4⟩
    · exact (iAdd_error h3 k1.2 ha).1
    · exact (iAdd_error h4 (iAdd_ok h3 k1.2 ha).2 (by decide)).1

theorem adjustRange_error {lo hi add : Int} {neg : Bool} {e : Err} (h : adjustRange lo hi neg add = .error e) (hl : InI64 lo) (hh : InI64 hi)
    (ha : InI64 add) : e = .overflow := by
  unfold adjustRange at h
  rcases bind_error h with h1 | ⟨a, h1, h2⟩
  · cases neg
    · exact (iSub_error (by simpa using h1) hl ha).1
    · exact (iSub_error (by simpa using h1) ha hh).1
  · rcases bind_error h2 with h3 | ⟨b, h3, h4⟩
    · cases neg
      · exact (iSub_error (by simpa using h3) hh ha).1
      · exact (iSub_error (by simpa using h3) ha hl).1
    · cases h4

/-- Comfortable range: constants of at most this size cannot make the arithmetic overflow. -/
abbrev Small (x : Int) : Prop := -2305843009213693952 ≤ x ∧ x ≤ 2305843009213693952

theorem Small.inI64 {x : Int} (h : Small x) : InI64 x := by unfold InI64 i64Min i64Max; omega

theorem iAdd_total {a b : Int} (ha : InI64 a) (hb : InI64 b) (h : InI64 (a + b)) : iAdd a b = .ok (a + b) := by
  rw [iAdd_exact a b ha hb]; unfold exactOrThrow; rw [if_pos h]
theorem iSub_total {a b : Int} (ha : InI64 a) (hb : InI64 b) (h : InI64 (a - b)) : iSub a b = .ok (a - b) := by
  rw [iSub_exact a b ha hb]; unfold exactOrThrow; rw [if_pos h]
theorem iNeg_total {a : Int} (ha : InI64 a) (h : InI64 (- a)) : iNeg a = .ok (- a) := by
  rw [iNeg_exact a ha]; unfold exactOrThrow; rw [if_pos h]

/-- What `infer` on a literal about variable `i` (or none) must do. -/
structure InferSpec (d : Doms) (l : Lit) (r : Inference × Doms) : Prop where
  /-- no variable appears or disappears -/
  length : r.2.length = d.length
  /-- other variables are untouched -/
  others : ∀ j, l.underlying ≠ some j → r.2[j]? = d[j]?
  /-- the variable itself: exactly the excluded values go, with the right report -/
  own : ∀ i, l.underlying = some i → ∃ s s', d[i]? = some s ∧ r.2[i]? = some s' ∧ ChangeSpec (fun x => l.holds fun _ => x) s (r.1, s')
  /-- literals about no variable -/
  noVar : l.underlying = none → r.2 = d ∧ ((r.1 = .noChange ∧ ∀ a, l.holds a) ∨ (r.1 = .contradiction ∧ ∀ a, ¬ l.holds a))

theorem stateOf_ok {d : Doms} {i : Nat} (h : i < d.length) : d.stateOf i = .ok d[i] := by
  unfold Doms.stateOf; rw [List.getElem?_eq_getElem h]

theorem change_spec {d : Doms} {i : Nat} {P : Int → Prop} {f : IntervalSet → Chk (Inference × IntervalSet)} {l : Lit} (hi : i < d.length)
    (hl : l.underlying = some i) (hP : ∀ x, P x ↔ l.holds fun _ => x)
    (hf : ∃ r, f d[i] = .ok r ∧ ChangeSpec P d[i] r) : ∃ r, d.change i f = .ok r ∧ InferSpec d l r := by
  obtain ⟨r, h1, h2⟩ := hf
  have hPe : P = fun x => l.holds fun _ => x := funext fun x => propext (hP x)
  subst hPe
  refine ⟨(r.1, d.set i r.2), ?_, ?_, ?_, ?_, ?_⟩
  · simp [Doms.change, stateOf_ok hi, h1, bind, Except.bind, pure, Except.pure]
  · simp
  · intro j hj
    rw [List.getElem?_set_ne]
    rintro rfl; exact hj hl
  · intro j hj
    rw [hl] at hj; cases hj
    exact ⟨d[i], r.2, List.getElem?_eq_getElem hi, by simp [List.getElem?_set, hi], h2⟩
  · intro hn; rw [hl] at hn; cases hn

theorem onConstant_spec {d : Doms} {b : Bool} {l : Lit} (hl : l.underlying = none) (hP : ∀ a, l.holds a ↔ b = true) :
    ∃ r, onConstant d b = .ok r ∧ InferSpec d l r := by
  refine ⟨_, rfl, rfl, fun _ _ => rfl, ?_, ?_⟩
  · intro i hi; rw [hl] at hi; cases hi
  · intro _
    refine ⟨rfl, ?_⟩
    cases b
    · right; exact ⟨rfl, fun a => by rw [hP]; simp⟩
    · left; exact ⟨rfl, fun a => by rw [hP]⟩

end Gcs
