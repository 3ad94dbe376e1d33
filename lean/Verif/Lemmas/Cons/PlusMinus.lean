import Verif.Lemmas.Cons.Quiet
import Verif.Model.Cons.Arithmetic

/-!
# Sums and differences
-/

namespace Gcs
open IntervalSet

section
variable {σ μ : Type} {n m : Nat} {R : Err → Prop} {root : Doms} {a b r : VarId}

theorem Plus.pass_ver {J : Job} (ho : J.R .overflow) (ha : a.Valid J.n) (hb : b.Valid J.n) (hr : r.Valid J.n) (hc : ∀ s, J.C s → a.eval s + b.eval s = r.eval s) {d : Doms} (hd : DomsOK d) (hl : d.length = J.n) :
    (pass a b r : Prog σ μ Unit).Ver J (fun _ => False) (fun _ d' => ((∀ x ∈ [a, b, r], Known d x) → ∀ s, Within d' s → a.eval s + b.eval s = r.eval s)) d := by
  refine ver_ask (f := (bounds · a)) ho (bounds_roo hd (hl ▸ ha)) fun ba hba => ?_
  refine ver_ask (f := (bounds · b)) ho (bounds_roo hd (hl ▸ hb)) fun bb hbb => ?_
  refine ver_ask (f := (bounds · r)) ho (bounds_roo hd (hl ▸ hr)) fun br hbr => ?_
  have la := fun s hs => hba.1.2.le (a := s) hs
  have ua := fun s hs => hba.2.2.ge (a := s) hs
  have lb := fun s hs => hbb.1.2.le (a := s) hs
  have ub := fun s hs => hbb.2.2.ge (a := s) hs
  have lr := fun s hs => hbr.1.2.le (a := s) hs
  have ur := fun s hs => hbr.2.2.ge (a := s) hs
  refine ver_tell_ge ho hr (add_roo hba.1.1 hbb.1.1) (fun s hs hC => by have := hc s hC; have := la s hs; have := lb s hs; omega) fun d1 _ _ w1 => ?_
  refine ver_tell_le ho hr (add_roo hba.2.1 hbb.2.1) (fun s hs hC => by have hs := ((w1 s).1 hs).1; have := hc s hC; have := ua s hs; have := ub s hs; omega) fun d2 _ _ w2 => ?_
  have s2 : ∀ s, Within d2 s → Within d s := fun s h => ((w1 s).1 ((w2 s).1 h).1).1
  refine ver_tell_ge ho ha (sub_roo hbr.1.1 hbb.2.1) (fun s hs hC => by have hs := s2 s hs; have := hc s hC; have := lr s hs; have := ub s hs; omega) fun d3 _ _ w3 => ?_
  refine ver_tell_le ho ha (sub_roo hbr.2.1 hbb.1.1) (fun s hs hC => by have hs := s2 s ((w3 s).1 hs).1; have := hc s hC; have := ur s hs; have := lb s hs; omega) fun d4 _ _ w4 => ?_
  have s4 : ∀ s, Within d4 s → Within d2 s := fun s h => ((w3 s).1 ((w4 s).1 h).1).1
  refine ver_tell_ge ho hb (sub_roo hbr.1.1 hba.2.1) (fun s hs hC => by have hs := s2 s (s4 s hs); have := hc s hC; have := lr s hs; have := ua s hs; omega) fun d5 _ _ w5 => ?_
  refine ver_tell_le (k := .ret) ho hb (sub_roo hbr.2.1 hba.1.1) (fun s hs hC => by have hs := s2 s (s4 s ((w5 s).1 hs).1); have := hc s hC; have := ur s hs; have := la s hs; omega) fun d6 _ _ w6 => ?_
  intro hk s hs
  have h2 := s4 s ((w5 s).1 ((w6 s).1 hs).1).1
  have h1 := (w2 s).1 h2
  have hw := s2 s h2
  have e1 := hba.1.2.eq (hk a (by simp)) hw
  have e2 := hba.2.2.eq (hk a (by simp)) hw
  have e3 := hbb.1.2.eq (hk b (by simp)) hw
  have e4 := hbb.2.2.eq (hk b (by simp)) hw
  have := ((w1 s).1 h1.1).2
  have := h1.2
  omega

theorem Minus.pass_ver {J : Job} (ho : J.R .overflow) (ha : a.Valid J.n) (hb : b.Valid J.n) (hr : r.Valid J.n) (hc : ∀ s, J.C s → a.eval s - b.eval s = r.eval s) {d : Doms} (hd : DomsOK d) (hl : d.length = J.n) :
    (pass a b r : Prog σ μ Unit).Ver J (fun _ => False) (fun _ d' => ((∀ x ∈ [a, b, r], Known d x) → ∀ s, Within d' s → a.eval s - b.eval s = r.eval s)) d := by
  refine ver_ask (f := (bounds · a)) ho (bounds_roo hd (hl ▸ ha)) fun ba hba => ?_
  refine ver_ask (f := (bounds · b)) ho (bounds_roo hd (hl ▸ hb)) fun bb hbb => ?_
  refine ver_ask (f := (bounds · r)) ho (bounds_roo hd (hl ▸ hr)) fun br hbr => ?_
  have la := fun s hs => hba.1.2.le (a := s) hs
  have ua := fun s hs => hba.2.2.ge (a := s) hs
  have lb := fun s hs => hbb.1.2.le (a := s) hs
  have ub := fun s hs => hbb.2.2.ge (a := s) hs
  have lr := fun s hs => hbr.1.2.le (a := s) hs
  have ur := fun s hs => hbr.2.2.ge (a := s) hs
  refine ver_tell_ge ho hr (sub_roo hba.1.1 hbb.2.1) (fun s hs hC => by have := hc s hC; have := la s hs; have := ub s hs; omega) fun d1 _ _ w1 => ?_
  refine ver_tell_le ho hr (sub_roo hba.2.1 hbb.1.1) (fun s hs hC => by have hs := ((w1 s).1 hs).1; have := hc s hC; have := ua s hs; have := lb s hs; omega) fun d2 _ _ w2 => ?_
  have s2 : ∀ s, Within d2 s → Within d s := fun s h => ((w1 s).1 ((w2 s).1 h).1).1
  refine ver_tell_ge ho ha (add_roo hbr.1.1 hbb.1.1) (fun s hs hC => by have hs := s2 s hs; have := hc s hC; have := lr s hs; have := lb s hs; omega) fun d3 _ _ w3 => ?_
  refine ver_tell_le ho ha (add_roo hbr.2.1 hbb.2.1) (fun s hs hC => by have hs := s2 s ((w3 s).1 hs).1; have := hc s hC; have := ur s hs; have := ub s hs; omega) fun d4 _ _ w4 => ?_
  have s4 : ∀ s, Within d4 s → Within d2 s := fun s h => ((w3 s).1 ((w4 s).1 h).1).1
  refine ver_tell_ge ho hb (sub_roo hba.1.1 hbr.2.1) (fun s hs hC => by have hs := s2 s (s4 s hs); have := hc s hC; have := ur s hs; have := la s hs; omega) fun d5 _ _ w5 => ?_
  refine ver_tell_le (k := .ret) ho hb (sub_roo hba.2.1 hbr.1.1) (fun s hs hC => by have hs := s2 s (s4 s ((w5 s).1 hs).1); have := hc s hC; have := lr s hs; have := ua s hs; omega) fun d6 _ _ w6 => ?_
  intro hk s hs
  have h2 := s4 s ((w5 s).1 ((w6 s).1 hs).1).1
  have h1 := (w2 s).1 h2
  have hw := s2 s h2
  have e1 := hba.1.2.eq (hk a (by simp)) hw
  have e2 := hba.2.2.eq (hk a (by simp)) hw
  have e3 := hbb.1.2.eq (hk b (by simp)) hw
  have e4 := hbb.2.2.eq (hk b (by simp)) hw
  have := ((w1 s).1 h1.1).2
  have := h1.2
  omega

/-- Loops until nothing changes around a pass that is right once everything is known. -/
theorem enforces_untilQuiet {P : Asg → Prop} {xs : List VarId} {body : Prog σ μ Unit}
    (h : ∀ d, DomsOK d → d.length = n → body.Ver { n, m, R, C := fun s => Within root s ∧ P s } (fun _ => False) (fun _ d' => (∀ x ∈ xs, Known d x) → ∀ s, Within d' s → P s) d) :
    Enforces n m R root P xs (do Prog.untilQuiet body; return .enableButIdempotent : Prog σ μ PState) := by
  intro d hd hl
  refine ver_seq (S := fun _ => False) hd hl (fun _ h => h) (ver_untilQuiet (J := { n, m, R, C := fun s => Within root s ∧ P s }) (fun _ => True) (fun d => (∀ x ∈ xs, Known d x) → ∀ s, Within d s → P s)
    (fun d hd hl _ => ver_mono (fun _ d' hq => ⟨trivial, fun e hk s hs => hq hk s (e ▸ hs)⟩) _ _ (h d hd hl)) hd hl trivial) fun _ d' _ _ hs hq => ?_
  exact .intro (fun hk s h _ => hq.2 (fun x hx => (hk x hx).sub hs) s h) (fun _ hk s h _ => hq.2 hk s h) (fun h => nomatch h)

theorem Plus.install_right (ho : R .overflow) (ha : a.Valid n) (hb : b.Valid n) (hr : r.Valid n) :
    (Posted.mk (Plus.install (σ := σ) (μ := μ) a b r) (fun s => a.eval s + b.eval s = r.eval s) [a, b, r]).Right n m R root (fun _ => False) :=
  right_one rfl (enforces_untilQuiet fun _ hd hl => Plus.pass_ver (J := { n, m, R, C := fun s => Within root s ∧ a.eval s + b.eval s = r.eval s }) ho ha hb hr (fun _ h => h.2) hd hl) (wakes_mem fun _ hx => .inr (.inl hx)) rfl

theorem Minus.install_right (ho : R .overflow) (ha : a.Valid n) (hb : b.Valid n) (hr : r.Valid n) :
    (Posted.mk (Minus.install (σ := σ) (μ := μ) a b r) (fun s => a.eval s - b.eval s = r.eval s) [a, b, r]).Right n m R root (fun _ => False) :=
  right_one rfl (enforces_untilQuiet fun _ hd hl => Minus.pass_ver (J := { n, m, R, C := fun s => Within root s ∧ a.eval s - b.eval s = r.eval s }) ho ha hb hr (fun _ h => h.2) hd hl) (wakes_mem fun _ hx => .inr (.inl hx)) rfl

end
end Gcs
