import Verif.Lemmas.Cons.ReifiedState
import Verif.Lemmas.Cons.Values

namespace Gcs
open IntervalSet

section
variable {σ μ : Type} {n m : Nat} {R : Err → Prop} {root : Doms} {C : Asg → Prop} {xs ys : List VarId} {f : Prog σ μ PState} {t : Triggers} {z0 : List σ}

/-- One propagator that keeps no state, and relies on domains being within those at the time of posting. -/
theorem served_rooted (hf : ∀ d, DomsOK d → d.length = n → (∀ a, Within d a → Within root a) →
      f.Ver { n, m, R, C := fun a => Within root a ∧ C a } (fun _ => True) (Enforced (fun a => Within root a → C a) (ys.filterMap VarId.underlyingIndex) d) d)
    (hy : ∀ y ∈ ys, y ∈ xs) (hw : ∀ x ∈ ys, ∀ v, x.underlyingIndex = some v → ∃ y, (y ∈ t.onChange ∨ y ∈ t.onBounds ∨ y ∈ t.onInstantiated) ∧ y.underlyingIndex = some v) (ht : t.refined = []) :
    Served n m R root z0 (fun d _ => ∀ a, Within d a → Within root a) (fun _ => False) C xs [(.prop f t, C)] where
  items := fun p hp => by
    rw [List.mem_singleton] at hp; subst hp
    refine ⟨ys, hy, hw, by simp [ht], fun d z hd hl _ hi => ?_⟩
    exact verS_mono (fun _ _ _ hq => ⟨hq.1.1.when, hq.1.2⟩) _ _ _ (Ver.toS (J := { n, m, R, C := fun a => Within root a ∧ C a }) (fun _ => id) f d z (ver_within hd hl hi (hf d hd hl hi)))
  together := fun a _ => by simp
  shrink := fun _ _ _ _ _ hs hi a ha => hi a (hs a ha)
  only := fun _ _ _ _ hi => hi
  start := fun _ _ _ h a ha => (h a ha).1

/-- Nothing is posted for what always holds. -/
theorem Served.nil {own : Nat → Prop} (h : ∀ a, Within root a → C a) : Served (σ := σ) (μ := μ) n m R root z0 (fun _ _ => True) own C xs [] where
  items := fun _ hp => (nomatch hp)
  together := fun a ha => ⟨fun _ _ hp => (nomatch hp), fun _ => h a ha⟩
  shrink := fun _ _ _ _ _ _ _ => trivial
  only := fun _ _ _ _ _ => trivial
  start := fun _ _ _ _ => trivial

/-- More variables may be mentioned. -/
theorem Served.about {I : Doms → List σ → Prop} {own : Nat → Prop} {es : List (Item σ μ × (Asg → Prop))} (h : Served n m R root z0 I own C xs es) (hx : ∀ x ∈ xs, x ∈ ys) : Served n m R root z0 I own C ys es where
  items := fun p hp => by
    have := h.items p hp
    obtain ⟨it, e⟩ := p
    cases it with
    | init _ f => exact this
    | prop f t =>
      obtain ⟨zs, k1, k2⟩ := this
      exact ⟨zs, fun y hy => hx y (k1 y hy), k2⟩
  together := h.together
  shrink := h.shrink
  only := h.only
  start := h.start

/-- What is the same as the constraint, for the domains at the time of posting. -/
theorem Served.congr {I : Doms → List σ → Prop} {own : Nat → Prop} {D : Asg → Prop} {es : List (Item σ μ × (Asg → Prop))} (h : Served n m R root z0 I own C xs es) (hc : ∀ a, Within root a → (D a ↔ C a)) :
    Served n m R root z0 I own D xs es where
  items := fun p hp => by
    have := h.items p hp
    obtain ⟨it, e⟩ := p
    cases it with
    | init _ f => exact fun d hd hl => ver_weaken (J := { n, m, R, C := fun a => Within root a ∧ C a, watch := False }) f d (fun a _ hh => ⟨hh.1, (hc a hh.1).1 hh.2⟩) (this d hd hl)
    | prop f t =>
      obtain ⟨ys, k1, k2⟩ := this
      exact ⟨ys, k1, k2.wakes, k2.refined, fun d z hd hl hz hi => verS_weaken (J := { n, m, R, C := fun a => Within root a ∧ C a, own }) f d z (fun a _ hh => ⟨hh.1, (hc a hh.1).1 hh.2⟩) (k2.ver d z hd hl hz hi)⟩
  together := fun a ha => (hc a ha).trans (h.together a ha)
  shrink := h.shrink
  only := h.only
  start := h.start

end
end Gcs
