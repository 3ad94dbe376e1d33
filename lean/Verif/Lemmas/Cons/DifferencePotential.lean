import Verif.Lemmas.Cons.DifferenceOutcome
import Verif.Lemmas.Cons.DivMod

/-!
# When there is no potential
-/

namespace Gcs.Difference

theorem split_dup (f : Nat → Nat) : ∀ (l : List Nat), ¬ (l.map f).Nodup → ∃ l1 a l2 b l3, l = l1 ++ a :: (l2 ++ b :: l3) ∧ f a = f b
  | [], h => absurd .nil h
  | a :: l, h => by
    by_cases hm : f a ∈ l.map f
    · obtain ⟨b, hb, he⟩ := List.mem_map.1 hm
      obtain ⟨l2, l3, rfl⟩ := List.append_of_mem hb
      exact ⟨[], a, l2, b, l3, rfl, he.symm⟩
    · have : ¬ (l.map f).Nodup := fun k => h (by rw [List.map_cons]; exact List.nodup_cons.2 ⟨hm, k⟩)
      obtain ⟨l1, c, l2, b, l3, rfl, he⟩ := split_dup f l this
      exact ⟨a :: l1, c, l2, b, l3, rfl, he⟩

namespace Net
variable {N : Net}

theorem Chain.split {a b : Nat} : ∀ {es fs : List Nat}, N.Chain a (es ++ fs) b → ∃ c, N.Chain a es c ∧ N.Chain c fs b
  | [], _, h => ⟨a, rfl, h⟩
  | e :: es, fs, h => by
    obtain ⟨c, h1, h2⟩ := Chain.split h.2.2
    exact ⟨c, ⟨h.1, h.2.1, h1⟩, h2⟩

theorem Chain.mem {b : Nat} : ∀ {es : List Nat} {a : Nat}, N.Chain a es b → ∀ e ∈ es, e ∈ N.act
  | [], _, _ => by simp
  | e :: es, a, h => fun f hf => by
    rcases List.mem_cons.1 hf with rfl | hf
    · exact h.1
    · exact Chain.mem h.2.2 f hf

/-- If there is a solution, then no path needs more edges than there are nodes. -/
theorem Chain.shorten {n : Nat} {x : Nat → Int} (hx : ∀ e ∈ N.act, x (N.tail e) - N.wt e ≤ x (N.head e)) (hh : ∀ e ∈ N.act, N.head e < n) {a b : Nat} : ∀ (k : Nat) (es : List Nat), es.length ≤ k → N.Chain a es b →
    ∃ fs, N.Chain a fs b ∧ fs.length ≤ n ∧ N.sum fs ≤ N.sum es
  | 0, es, hk, hc => ⟨es, hc, by omega, Int.le_refl _⟩
  | k + 1, es, hk, hc => by
    by_cases hl : es.length ≤ n
    · exact ⟨es, hc, hl, Int.le_refl _⟩
    · have hd : ¬ (es.map N.head).Nodup := fun hn => by
        have := nodup_le n _ hn fun v hv => by
          obtain ⟨e, he, rfl⟩ := List.mem_map.1 hv
          exact hh e (hc.mem e he)
        simp at this; omega
      obtain ⟨l1, e, l2, f, l3, rfl, he⟩ := split_dup N.head es hd
      obtain ⟨c, h1, h2⟩ := hc.split
      have h2' : N.Chain c ((e :: l2) ++ f :: l3) b := h2
      obtain ⟨d, h3, h4⟩ := h2'.split
      have hcd : c = d := by rw [← h3.2.1, ← h4.2.1, he]
      subst hcd
      have neg := Chain.sat hx h3
      obtain ⟨fs, k1, k2, k3⟩ := Chain.shorten hx hh k (l1 ++ f :: l3) (by simp at hk ⊢; omega) (h1.append h4)
      refine ⟨fs, k1, k2, ?_⟩
      rw [sum_append] at k3
      rw [show l1 ++ e :: (l2 ++ f :: l3) = l1 ++ ((e :: l2) ++ f :: l3) from rfl, sum_append, sum_append]
      omega

/-- There are distances if there are values that satisfy every edge. -/
theorem exists_dist {x : Nat → Int} (hx : ∀ e ∈ N.act, x (N.tail e) - N.wt e ≤ x (N.head e)) (s : Nat) : ∃ D, N.Dist s D := by
  have least : ∀ (v k : Nat) (es : List Nat), N.Chain v es s → N.sum es ≤ x s - x v + k → ∃ fs, N.Chain v fs s ∧ ∀ gs, N.Chain v gs s → N.sum fs ≤ N.sum gs := by
    intro v k
    induction k with
    | zero => exact fun es hc hk => ⟨es, hc, fun gs hg => by have := hg.sat hx; omega⟩
    | succ k ih =>
      intro es hc hk
      by_cases h : ∃ gs, N.Chain v gs s ∧ N.sum gs < N.sum es
      · obtain ⟨gs, h1, h2⟩ := h
        exact ih gs h1 (by omega)
      · exact ⟨es, hc, fun gs hg => Int.not_lt.1 fun hl => h ⟨gs, hg, hl⟩⟩
  have all : ∀ v, ∃ o : Option Int, (∀ w, o = some w → ∃ es, N.Chain v es s ∧ N.sum es ≤ w) ∧ ∀ es, N.Chain v es s → ∃ w, o = some w ∧ w ≤ N.sum es := fun v => by
    by_cases h : ∃ es, N.Chain v es s
    · obtain ⟨es, hc⟩ := h
      obtain ⟨fs, h1, h2⟩ := least v (N.sum es - (x s - x v)).toNat es hc (by omega)
      exact ⟨some (N.sum fs), fun w hw => ⟨fs, h1, by cases hw; exact Int.le_refl _⟩, fun gs hg => ⟨_, rfl, h2 gs hg⟩⟩
    · exact ⟨none, fun w hw => (nomatch hw), fun es hc => absurd ⟨es, hc⟩ h⟩
  exact ⟨fun v => (all v).choose, fun v => (all v).choose_spec.1, fun v => (all v).choose_spec.2⟩

end Net

section
variable {n : Nat} {arcs : List Arc} {base : List Nat}

/-- Every value is the weight of a path at least. -/
def Attained (N : Net) (h : List Int) : Prop := ∀ v, ∃ es b, N.Chain v es b ∧ N.sum es ≤ at_ h v

theorem potSweep_more (ha : ArcsOK n arcs) (hb : ∀ e ∈ base, e < arcs.length) : ∀ (es : List Nat) {h : List Int} (b : Bool), (∀ e ∈ es, e ∈ base) → PotOK n h → Attained (net .lower arcs base) h →
    RightOrOverflow (potSweep arcs es h b) (fun r => PotOK n r.1 ∧ Attained (net .lower arcs base) r.1 ∧ (∀ v, at_ r.1 v ≤ at_ h v) ∧
      (∀ e ∈ es, at_ r.1 ((net .lower arcs base).head e) ≤ at_ h ((net .lower arcs base).tail e) + (net .lower arcs base).wt e) ∧
      ((∀ e ∈ es, at_ h ((net .lower arcs base).head e) ≤ at_ h ((net .lower arcs base).tail e) + (net .lower arcs base).wt e) → r.2 = b))
  | [], h, b, _, hh, ht => .pure ⟨hh, ht, fun _ => Int.le_refl _, by simp, fun _ => rfl⟩
  | e :: es, h, b, he, hh, ht => by
    have heb := he e (by simp)
    obtain ⟨a, hae, q2, q3, q4, q5⟩ := arc_vec (dir := .lower) hb heb
    obtain ⟨a1, a2, a3⟩ := ha a (List.mem_of_getElem? hae)
    obtain ⟨s1, s2⟩ := hh.vec a1
    obtain ⟨d1, d2⟩ := hh.vec a2
    have q3 : (net .lower arcs base).tail e = a.src := q3
    have q4 : (net .lower arcs base).head e = a.dst := q4
    unfold potSweep
    show RightOrOverflow (vecAt arcs e >>= _) _
    rw [q2]
    show RightOrOverflow (vecAt h a.src >>= _) _
    rw [s1]
    refine (add_roo s2 a3).bind fun c hc => ?_
    show RightOrOverflow (vecAt h a.dst >>= _) _
    rw [d1]
    show RightOrOverflow (if c < at_ h a.dst then _ else _) _
    split
    · rename_i hlt
      have hl : a.dst < h.length := by rw [hh.1]; exact a2
      have hset : ∀ v, at_ (h.set a.dst c) v = if v = a.dst then c else at_ h v := fun v => by
        by_cases hv : v = a.dst
        · subst hv; simp [at_, List.getElem?_set_self hl]
        · rw [if_neg hv]; simp only [at_]; rw [List.getElem?_set_ne (by omega)]
      have hle : ∀ v, at_ (h.set a.dst c) v ≤ at_ h v := fun v => by
        rw [hset]; split
        · rename_i k; subst k; omega
        · exact Int.le_refl _
      have hok : PotOK n (h.set a.dst c) := ⟨by simpa using hh.1, fun x hx => by
        rcases List.mem_or_eq_of_mem_set hx with hx | rfl
        · exact hh.2 x hx
        · exact hc.2⟩
      have hat : Attained (net .lower arcs base) (h.set a.dst c) := fun v => by
        rw [hset]; split
        · rename_i k
          obtain ⟨fs, z, c1, c2⟩ := ht a.src
          refine ⟨e :: fs, z, ⟨heb, by rw [q4, k], by rw [q3]; exact c1⟩, ?_⟩
          rw [Net.sum_cons, q5]; omega
        · exact ht v
      refine (potSweep_more ha hb es true (fun f hf => he f (by simp [hf])) hok hat).mono fun r ⟨k1, k2, k3, k4, k5⟩ => ⟨k1, k2, fun v => Int.le_trans (k3 v) (hle v), fun f hf => ?_, fun hfix => ?_⟩
      · rcases List.mem_cons.1 hf with rfl | hf
        · have h1 := k3 a.dst
          rw [hset, if_pos rfl] at h1
          rw [q3, q4, q5]; omega
        · have h1 := k4 f hf
          have h2 := hle ((net .lower arcs base).tail f)
          omega
      · have := hfix e (by simp)
        rw [q3, q4, q5] at this
        omega
    · rename_i hlt
      refine (potSweep_more ha hb es b (fun f hf => he f (by simp [hf])) hh ht).mono fun r ⟨k1, k2, k3, k4, k5⟩ => ⟨k1, k2, k3, fun f hf => ?_, fun hfix => k5 fun f hf => hfix f (by simp [hf])⟩
      rcases List.mem_cons.1 hf with rfl | hf
      · have h1 := k3 a.dst
        rw [q3, q4, q5]; omega
      · exact k4 f hf

/-- The rounds only run out if no values satisfy every edge. -/
theorem potential_none (ha : ArcsOK n arcs) (hb : ∀ e ∈ base, e < arcs.length) {x : Nat → Int}
    (hx : ∀ e ∈ base, x ((net .lower arcs base).tail e) - (net .lower arcs base).wt e ≤ x ((net .lower arcs base).head e)) :
    ∀ (k j : Nat) {h : List Int}, j + k = n + 1 → PotOK n h → Attained (net .lower arcs base) h → (net .lower arcs base).Reach (fun _ => 0) (fun v => - at_ h v) j → (k = 0 → False) →
      RightOrOverflow (potential arcs base k h) (fun o => o ≠ none)
  | 0, _, _, _, _, _, _, hk => (hk rfl).elim
  | k + 1, j, h, hj, hh, ht, hr, _ => by
    refine (potSweep_more ha hb base false (fun _ h => h) hh ht).bind fun r ⟨k1, k2, k3, k4, k5⟩ => ?_
    split
    · rename_i hch
      refine potential_none ha hb hx k (j + 1) (by omega) k1 k2 (hr.succ (fun v => by have := k3 v; omega) fun e he => by have := k4 e he; omega) fun hk => ?_
      have := k5 fun e he => ?_
      · rw [this] at hch; exact absurd hch (by decide)
      · obtain ⟨es, b, c1, c2⟩ := ht ((net .lower arcs base).tail e)
        obtain ⟨fs, f1, f2, f3⟩ := Net.Chain.shorten (n := n) hx (fun f hf => by
          obtain ⟨a, hae, -, -, q4, -⟩ := arc_vec (dir := .lower) hb hf
          rw [q4]; exact (ha a (List.mem_of_getElem? hae)).2.1) _ (e :: es) (Nat.le_refl _) ⟨he, rfl, c1⟩
        have : 0 - (net .lower arcs base).sum fs ≤ - at_ h ((net .lower arcs base).head e) := hr fs _ b f1 (by omega)
        rw [Net.sum_cons] at f3
        omega
    · exact .pure (by simp)

end

end Gcs.Difference
