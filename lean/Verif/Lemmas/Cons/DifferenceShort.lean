import Verif.Model.Cons.DifferenceSimplify
import Verif.Lemmas.Cons.DifferenceRelax

/-!
# Shortest paths, and which edges can be left out, without the code
-/

namespace Gcs.Difference.Net
variable {N : Net}

theorem Chain.append {a b c : Nat} : ∀ {es fs : List Nat}, N.Chain a es b → N.Chain b fs c → N.Chain a (es ++ fs) c
  | [], _, h, k => by cases h; exact k
  | _ :: _, _, h, k => ⟨h.1, h.2.1, Chain.append h.2.2 k⟩

theorem sum_append (es fs : List Nat) : N.sum (es ++ fs) = N.sum es + N.sum fs := by simp [sum]

theorem sum_one (e : Nat) : N.sum [e] = N.wt e := by simp [sum]

theorem Chain.one {e : Nat} (h : e ∈ N.act) : N.Chain (N.head e) [e] (N.tail e) := ⟨h, rfl, rfl⟩

theorem Chain.sat {x : Nat → Int} (hx : ∀ e ∈ N.act, x (N.tail e) - N.wt e ≤ x (N.head e)) {b : Nat} : ∀ {es : List Nat} {a : Nat}, N.Chain a es b → x b - N.sum es ≤ x a
  | [], _, h => by cases h; simp [sum]
  | e :: es, a, h => by
    have h1 := Chain.sat hx h.2.2
    have h2 := hx e h.1
    rw [h.2.1] at h2
    rw [sum_cons]; omega

/-- `D` is the distance from `s`. -/
structure Dist (N : Net) (s : Nat) (D : Nat → Option Int) : Prop where
  attained : ∀ v w, D v = some w → ∃ es, N.Chain v es s ∧ N.sum es ≤ w
  least : ∀ v es, N.Chain v es s → ∃ w, D v = some w ∧ w ≤ N.sum es

/-- Every edge that is a shortest path is in `K`, or one beside it with the same weight is. -/
def Enough (N : Net) (K : Nat → Prop) : Prop := ∀ e ∈ N.act, ∃ D, N.Dist (N.tail e) D ∧
  (D (N.head e) = some (N.wt e) → ∃ f ∈ N.act, K f ∧ N.tail f = N.tail e ∧ N.head f = N.head e ∧ N.wt f = N.wt e)

variable {K : Nat → Prop} {x : Nat → Int}

theorem Enough.path (h : N.Enough K) (hx : ∀ e ∈ N.act, K e → x (N.tail e) - N.wt e ≤ x (N.head e)) {s : Nat} :
    ∀ {es : List Nat} {a : Nat}, N.Chain a es s → (∀ fs, N.Chain a fs s → N.sum es ≤ N.sum fs) → x s - N.sum es ≤ x a
  | [], _, hc, _ => by cases hc; simp [sum]
  | f :: es, a, ⟨h1, h2, h3⟩, hm => by
    subst h2
    have ih := Enough.path h hx h3 fun gs hg => by
      have := hm (f :: gs) ⟨h1, rfl, hg⟩
      rw [sum_cons, sum_cons] at this
      omega
    obtain ⟨D, hD, hk⟩ := h f h1
    obtain ⟨w, hw, hle⟩ := hD.least _ _ (Chain.one h1)
    obtain ⟨gs, hg, hs⟩ := hD.attained _ _ hw
    have := hm (gs ++ es) (hg.append h3)
    rw [sum_append, sum_cons] at this
    rw [sum_one] at hle
    have hs' : N.sum gs ≤ w := hs
    obtain ⟨f', k1, k2, k3, k4, k5⟩ := hk (by rw [hw]; congr 1; omega)
    have := hx f' k1 k2
    rw [k3, k4, k5] at this
    rw [sum_cons]; omega

/-- The edges in `K` imply all the others. -/
theorem Enough.all (h : N.Enough K) (hx : ∀ e ∈ N.act, K e → x (N.tail e) - N.wt e ≤ x (N.head e)) : ∀ e ∈ N.act, x (N.tail e) - N.wt e ≤ x (N.head e) := by
  intro e he
  obtain ⟨D, hD, -⟩ := h e he
  obtain ⟨w, hw, hle⟩ := hD.least _ _ (Chain.one he)
  obtain ⟨es, hc, hs⟩ := hD.attained _ _ hw
  have := h.path hx hc fun fs hf => by
    obtain ⟨w', h1, h2⟩ := hD.least _ _ hf
    rw [hw] at h1; cases h1; omega
  rw [sum_one] at hle
  omega

end Gcs.Difference.Net
