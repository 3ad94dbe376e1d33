import Verif.Model.Cons.Difference
import Verif.Lemmas.Ask

/-!
# Bellman-Ford, without the code

Values that grow along edges, and the edges they come from. `V0` are the values to begin with. Everything here is for lower bounds; upper bounds are the same with the sign changed.
-/

namespace Gcs.Difference

/-- Edges, with the value at `head` at least the one at `tail` less the weight, and which of them are used. -/
structure Net where
  tail : Nat → Nat
  head : Nat → Nat
  wt : Nat → Int
  act : List Nat

namespace Net
variable (N : Net)

def sum (es : List Nat) : Int := (es.map N.wt).sum

/-- From `a` back to `b` along the edges the values come from. -/
def Walk (P : Nat → Option Nat) : Nat → List Nat → Nat → Prop
  | a, [], b => a = b
  | a, e :: es, b => P a = some e ∧ Walk P (N.tail e) es b

/-- From `a` back to `b` along any edges. -/
def Chain : Nat → List Nat → Nat → Prop
  | a, [], b => a = b
  | a, e :: es, b => e ∈ N.act ∧ N.head e = a ∧ Chain (N.tail e) es b

structure Inv (V0 V : Nat → Int) (P : Nat → Option Nat) : Prop where
  grow : ∀ v, V0 v ≤ V v
  fresh : ∀ v, P v = none → V v = V0 v
  from_ : ∀ v e, P v = some e → e ∈ N.act ∧ N.head e = v ∧ V v ≤ V (N.tail e) - N.wt e
  cyc : ∀ a es, es ≠ [] → N.Walk P a es a → N.sum es < 0
  below : ∀ x : Nat → Int, (∀ e ∈ N.act, x (N.tail e) - N.wt e ≤ x (N.head e)) → (∀ v, V0 v ≤ x v) → ∀ v, V v ≤ x v

variable {N} {V0 V V' : Nat → Int} {P P' : Nat → Option Nat}

theorem sum_cons (e : Nat) (es : List Nat) : N.sum (e :: es) = N.wt e + N.sum es := by simp [sum]

theorem Inv.init : N.Inv V0 V0 (fun _ => none) where
  grow := fun _ => Int.le_refl _
  fresh := fun _ _ => rfl
  from_ := fun _ _ h => nomatch h
  cyc := fun a es h w => by
    cases es with
    | nil => exact absurd rfl h
    | cons e es => exact nomatch w.1
  below := fun _ _ h => h

theorem Walk.append {a b c : Nat} : ∀ {es fs : List Nat}, N.Walk P a es b → N.Walk P b fs c → N.Walk P a (es ++ fs) c
  | [], _, h, k => by cases h; exact k
  | _ :: _, _, h, k => ⟨h.1, Walk.append h.2 k⟩

theorem Inv.walk (hi : N.Inv V0 V P) {b : Nat} : ∀ {es : List Nat} {a : Nat}, N.Walk P a es b → V a ≤ V b - N.sum es
  | [], a, h => by cases h; simp [sum]
  | e :: es, a, h => by
    have h1 := (hi.from_ a e h.1).2.2
    have h2 := hi.walk h.2
    rw [sum_cons]; omega

theorem Inv.chain (hi : N.Inv V0 V P) {b : Nat} : ∀ {es : List Nat} {a : Nat}, N.Walk P a es b → N.Chain a es b
  | [], _, h => h
  | e :: _, a, h => ⟨(hi.from_ a e h.1).1, (hi.from_ a e h.1).2.1, hi.chain h.2⟩

/-- One improvement. -/
structure Improves (N : Net) (e : Nat) (V : Nat → Int) (P : Nat → Option Nat) (V' : Nat → Int) (P' : Nat → Option Nat) : Prop where
  act : e ∈ N.act
  more : V (N.head e) < V (N.tail e) - N.wt e
  val : ∀ v, V' v = if v = N.head e then V (N.tail e) - N.wt e else V v
  pred : ∀ v, P' v = if v = N.head e then some e else P v

theorem Improves.ge {e : Nat} (h : Improves N e V P V' P') (v : Nat) : V v ≤ V' v := by
  rw [h.val]; split
  · rename_i k; subst k; have := h.more; omega
  · exact Int.le_refl _

/-- A walk after the improvement, with the values before it. -/
theorem Improves.walk {e : Nat} (hi : N.Inv V0 V P) (h : Improves N e V P V' P') {b : Nat} : ∀ {es : List Nat} {a : Nat}, N.Walk P' a es b →
    N.Walk P a es b ∨ V a < V b - N.sum es
  | [], a, w => .inl w
  | f :: es, a, w => by
    have step : V a ≤ V (N.tail f) - N.wt f ∧ (a = N.head e → V a < V (N.tail f) - N.wt f) ∧ (a ≠ N.head e → P a = some f) := by
      have hw := w.1
      rw [h.pred] at hw
      split at hw
      · rename_i k
        cases hw
        have := h.more
        subst k
        exact ⟨by omega, fun _ => this, fun k => absurd rfl k⟩
      · rename_i k
        exact ⟨(hi.from_ a f hw).2.2, fun k' => absurd k' k, fun _ => hw⟩
    have rest : V (N.tail f) ≤ V b - N.sum es := by
      rcases h.walk hi w.2 with k | k
      · exact hi.walk k
      · omega
    rw [sum_cons]
    by_cases ha : a = N.head e
    · have := step.2.1 ha; exact .inr (by omega)
    · rcases h.walk hi w.2 with k | k
      · exact .inl ⟨step.2.2 ha, k⟩
      · have := step.1; exact .inr (by omega)

theorem Improves.inv {e : Nat} (hi : N.Inv V0 V P) (h : Improves N e V P V' P') : N.Inv V0 V' P' where
  grow := fun v => Int.le_trans (hi.grow v) (h.ge v)
  fresh := fun v hp => by
    rw [h.pred] at hp
    split at hp
    · cases hp
    · rename_i k; rw [h.val, if_neg k]; exact hi.fresh v hp
  from_ := fun v f hp => by
    rw [h.pred] at hp
    split at hp
    · rename_i k
      cases hp
      refine ⟨h.act, k.symm, ?_⟩
      rw [h.val, if_pos k]
      have := h.ge (N.tail e)
      omega
    · rename_i k
      have := hi.from_ v f hp
      refine ⟨this.1, this.2.1, ?_⟩
      rw [h.val, if_neg k]
      have := h.ge (N.tail f)
      omega
  cyc := fun a es hne w => by
    rcases h.walk hi w with k | k
    · exact hi.cyc a es hne k
    · omega
  below := fun x hx h0 v => by
    have := hi.below x hx h0
    rw [h.val]; split
    · rename_i k; subst k
      have h1 := this (N.tail e); have h2 := hx e h.act; omega
    · exact this v

/-- All paths of at most `k` edges have been followed. -/
def Reach (N : Net) (V0 V : Nat → Int) (k : Nat) : Prop := ∀ es a b, N.Chain a es b → es.length ≤ k → V0 b - N.sum es ≤ V a

theorem Reach.zero (h : ∀ v, V0 v ≤ V v) : N.Reach V0 V 0 := fun es a b hc hl => by
  have : es = [] := List.length_eq_zero_iff.1 (by omega)
  subst this
  cases hc
  have := h a
  simp [sum]; exact this

theorem Reach.mono {k : Nat} (h : N.Reach V0 V k) (hv : ∀ v, V v ≤ V' v) : N.Reach V0 V' k := fun es a b hc hl => Int.le_trans (h es a b hc hl) (hv a)

theorem Reach.succ {k : Nat} (h : N.Reach V0 V k) (hv : ∀ v, V v ≤ V' v) (hs : ∀ e ∈ N.act, V (N.tail e) - N.wt e ≤ V' (N.head e)) : N.Reach V0 V' (k + 1) := by
  intro es a b hc hl
  cases es with
  | nil => exact h.mono hv [] a b hc (by simp)
  | cons e es =>
    obtain ⟨h1, rfl, h3⟩ := hc
    have := h es _ b h3 (by simpa using hl)
    have := hs e h1
    rw [sum_cons]; omega

/-- After an improvement when all short paths have been followed, no short walk ends where nothing has been improved. -/
theorem Improves.endless {e k : Nat} (hi : N.Inv V0 V P) (h : Improves N e V P V' P') (hr : N.Reach V0 V k) {es : List Nat} {b : Nat} (w : N.Walk P' (N.head e) es b) (hl : es.length ≤ k) : P' b ≠ none := by
  intro hn
  have hi' := h.inv hi
  have h1 := hi'.walk w
  have h2 := hi'.fresh b hn
  have h3 := hr es _ b (hi'.chain w) hl
  have h4 := h.val (N.head e)
  rw [if_pos rfl] at h4
  have := h.more
  omega

end Net

theorem nodup_le : ∀ (n : Nat) (l : List Nat), l.Nodup → (∀ x ∈ l, x < n) → l.length ≤ n
  | 0, l, _, h => by
    cases l with
    | nil => simp
    | cons x xs => exact absurd (h x (by simp)) (by omega)
  | n + 1, l, hn, h => by
    have := nodup_le n (l.erase n) (hn.erase n) fun x hx => by
      have h1 := (hn.mem_erase_iff).1 hx
      have := h x h1.2
      omega
    rw [List.length_erase] at this
    split at this <;> omega

theorem nodup_sub : ∀ (l m : List Nat), l.Nodup → (∀ x ∈ l, x ∈ m) → l.length ≤ m.length
  | [], _, _, _ => by simp
  | a :: l, m, hn, h => by
    obtain ⟨h1, h2⟩ := List.nodup_cons.1 hn
    have hm := h a (by simp)
    have := nodup_sub l (m.erase a) h2 fun x hx => (List.mem_erase_of_ne (by rintro rfl; exact h1 hx)).2 (h x (by simp [hx]))
    rw [List.length_erase_of_mem hm] at this
    have := List.length_pos_of_mem hm
    simp; omega

end Gcs.Difference
