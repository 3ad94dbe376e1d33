import Verif.Model.Cons.Knapsack
import Verif.Spec.Knapsack
import Verif.Lemmas.Cons.Tabulation
import Verif.Lemmas.Cons.Disjunctive2DInstall

namespace Gcs.Knapsack
open IntervalSet

/-- Coefficients as they have to be. -/
structure Rows (coeffs : List (List Int)) (k n : Nat) : Prop where
  len : coeffs.length = k
  long : ∀ row ∈ coeffs, n ≤ row.length
  exact : ∀ row ∈ coeffs, ∀ c ∈ row, InI64 c
  nonneg : ∀ row ∈ coeffs, ∀ c ∈ row, 0 ≤ c

/-- Coefficient `i` of row `x`. -/
def cf (coeffs : List (List Int)) (x i : Nat) : Int := (coeffs.getD x []).getD i 0

/-- The value of variable number `i`. -/
def vl (vars : List VarId) (a : Asg) (i : Nat) : Int := (vars.getD i (.const 0)).eval a

/-- What some of the variables contribute. -/
def part (coeffs : List (List Int)) (vars : List VarId) (a : Asg) (x : Nat) : List Nat → Int
  | [] => 0
  | i :: is => part coeffs vars a x is + vl vars a i * cf coeffs x i

/-- The node that an assignment goes through. -/
def spot (coeffs : List (List Int)) (vars : List VarId) (k : Nat) (a : Asg) (is : List Nat) : Sums := (List.range k).map fun x => part coeffs vars a x is

def adv (coeffs : List (List Int)) (k i : Nat) (w : Sums) (v : Int) : Sums := (List.range k).map fun x => w.getD x 0 + v * cf coeffs x i

/-- Sums of the right number, of 64-bit integers. -/
abbrev Fine (k : Nat) (w : Sums) : Prop := w.length = k ∧ ∀ y ∈ w, InI64 y

section
variable {coeffs : List (List Int)} {vars : List VarId} {k n i x : Nat} {w : Sums} {v : Int} {a : Asg}

theorem adv_spot {is : List Nat} : adv coeffs k i (spot coeffs vars k a is) (vl vars a i) = spot coeffs vars k a (i :: is) := by
  refine List.map_congr_left fun x hx => ?_
  simp [spot, List.mem_range.1 hx, part]

theorem Rows.at_ (h : Rows coeffs k n) (hx : x < k) (hi : i < n) : vecAt coeffs x = .ok (coeffs.getD x []) ∧ vecAt (coeffs.getD x []) i = .ok (cf coeffs x i) ∧ InI64 (cf coeffs x i) ∧ 0 ≤ cf coeffs x i := by
  have hl : x < coeffs.length := by rw [h.len]; exact hx
  have e : coeffs.getD x [] = coeffs[x] := by simp [hl]
  have hm : coeffs[x] ∈ coeffs := List.getElem_mem hl
  have hi' : i < coeffs[x].length := Nat.lt_of_lt_of_le hi (h.long _ hm)
  have e2 : cf coeffs x i = coeffs[x][i] := by rw [cf, e]; simp [hi']
  rw [e2, e]
  exact ⟨vecAt_ok.2 (List.getElem?_eq_getElem hl), vecAt_ok.2 (List.getElem?_eq_getElem hi'), h.exact _ hm _ (List.getElem_mem hi'), h.nonneg _ hm _ (List.getElem_mem hi')⟩

theorem Fine.at_ (h : Fine k w) (hx : x < k) : vecAt w x = .ok (w.getD x 0) ∧ InI64 (w.getD x 0) := by
  have hl : x < w.length := by rw [h.1]; exact hx
  have e : w.getD x 0 = w[x] := by simp [hl]
  rw [e]
  exact ⟨vecAt_ok.2 (List.getElem?_eq_getElem hl), h.2 _ (List.getElem_mem hl)⟩

theorem chk_ok_bind {α β : Type} {x : α} {f : α → Chk β} : ((Except.ok x : Chk α) >>= f) = f x := rfl

theorem anyOf_hit {α : Type} {p : α → Chk Bool} {P : α → Prop} : ∀ xs : List α, (∀ x ∈ xs, RightOrOverflow (p x) (fun b => b = true → P x)) → RightOrOverflow (anyOf p xs) (fun b => b = true → ∃ x ∈ xs, P x)
  | [], _ => .pure (fun h => Bool.noConfusion h)
  | x :: xs, h => by
    refine (h x List.mem_cons_self).bind fun b hb => ?_
    cases b with
    | true => exact .pure fun _ => ⟨x, List.mem_cons_self, hb rfl⟩
    | false => exact (anyOf_hit xs fun y hy => h y (List.mem_cons_of_mem _ hy)).mono fun c hc e => by obtain ⟨y, hy, hp⟩ := hc e; exact ⟨y, List.mem_cons_of_mem _ hy, hp⟩

/-- Loops over numbers. -/
theorem range_roo {f : Nat → Chk Int} {g : Nat → Int} (h : ∀ x, x < k → RightOrOverflow (f x) (fun r => r = g x ∧ InI64 r)) :
    RightOrOverflow (AllDifferent.mapAll f (List.range k)) (fun r => r = (List.range k).map g ∧ Fine k r) := by
  refine (AllDifferent.mapAll_roo (P := fun x r => r = g x ∧ InI64 r) _ fun x hx => h x (List.mem_range.1 hx)).mono fun r hr => ?_
  obtain ⟨hl, hp⟩ := hr
  have e : r = (List.range k).map g := by
    refine List.ext_getElem (by simpa using hl) fun j h1 h2 => ?_
    have hj : j < k := by simpa using h2
    have := (hp j j r[j] (by simp [hj]) (by simp [h1])).1
    simpa using this
  refine ⟨e, by simpa using hl, fun y hy => ?_⟩
  obtain ⟨j, hj⟩ := List.getElem?_of_mem hy
  have h1 := (List.getElem?_eq_some_iff.1 hj).1
  exact (hp j j y (by simp [show j < k by simp at hl; omega]) hj).2

theorem advance_roo (h : Rows coeffs k n) (hi : i < n) (hw : Fine k w) (hv : InI64 v) : RightOrOverflow (advance coeffs k i w v) (fun r => r = adv coeffs k i w v ∧ Fine k r) :=
  range_roo fun x hx => by
    obtain ⟨c1, c2, c3, _⟩ := h.at_ hx hi
    obtain ⟨w1, w2⟩ := hw.at_ hx
    rw [w1, chk_ok_bind, c1, chk_ok_bind, c2, chk_ok_bind]
    exact (mul_roo hv c3).bind fun p hp => (add_roo w2 hp.2).mono fun r hr => ⟨by rw [hr.1, hp.1], hr.2⟩

theorem fine_zero : Fine k (List.replicate k 0) := ⟨by simp, fun y hy => by rw [(List.mem_replicate.1 hy).2]; decide⟩

theorem spot_nil : spot coeffs vars k a [] = List.replicate k 0 := by
  rw [spot]
  refine List.ext_getElem (by simp) fun j h1 h2 => ?_
  simp [part]

theorem spot_getD {is : List Nat} (hx : x < k) : (spot coeffs vars k a is).getD x 0 = part coeffs vars a x is := by simp [spot, hx]

theorem part_append {is js : List Nat} : part coeffs vars a x (is ++ js) = part coeffs vars a x is + part coeffs vars a x js := by
  induction is with
  | nil => simp [part]
  | cons i is ih => rw [List.cons_append, part, part, ih]; omega

theorem part_perm {is js : List Nat} (h : is.Perm js) : part coeffs vars a x is = part coeffs vars a x js := by
  induction h with
  | nil => rfl
  | cons i _ ih => rw [part, part, ih]
  | swap i j l => simp only [part]; omega
  | trans _ _ h1 h2 => rw [h1, h2]

theorem part_nonneg (h : Rows coeffs k n) (hx : x < k) {is : List Nat} (hi : ∀ i ∈ is, i < n) (hv : ∀ i ∈ is, 0 ≤ vl vars a i) : 0 ≤ part coeffs vars a x is := by
  induction is with
  | nil => exact Int.le_refl _
  | cons i is ih =>
    have := ih (fun j hj => hi j (List.mem_cons_of_mem _ hj)) (fun j hj => hv j (List.mem_cons_of_mem _ hj))
    have := Int.mul_nonneg (hv i List.mem_cons_self) (h.at_ hx (hi i List.mem_cons_self)).2.2.2
    rw [part]; omega

end

/-- What both implementations rely on, for domains `d0`, and with the variables `is` that are looked at. -/
structure Way.OK (W : Way) (is : List Nat) (d0 : Doms) : Prop where
  rows : Rows W.coeffs W.totals.length W.vars.length
  com : Fine W.totals.length W.committed
  vars : ∀ v ∈ W.vars, v.Valid d0.length
  totals : ∀ t ∈ W.totals, t.Valid d0.length
  lt : ∀ i ∈ is, i < W.vars.length
  nonneg : ∀ a, Within d0 a → ∀ i ∈ is, 0 ≤ vl W.vars a i
  lower : ∀ d, DomsOK d → d.length = d0.length → (∀ a, Within d a → Within d0 a) → ∀ x, x < W.totals.length → RightOrOverflow (W.lower d x) (fun u => ∀ a, Within d a → u ≤ vl W.totals a x)
  upper : ∀ d, DomsOK d → d.length = d0.length → (∀ a, Within d a → Within d0 a) → ∀ x, x < W.totals.length → RightOrOverflow (W.upper d x) (fun u => ∀ a, Within d a → vl W.totals a x ≤ u)
  known : ∀ a, Within d0 a → ∀ pre i post, is = pre ++ i :: post → W.known (i + 1) (spot W.coeffs W.vars W.totals.length a (i :: pre.reverse)) = true

/-- What it says about the totals. -/
def Way.Sum (W : Way) (is : List Nat) (a : Asg) : Prop := ∀ x, x < W.totals.length → vl W.totals a x = W.committed.getD x 0 + part W.coeffs W.vars a x is

/-- The layers have everything that the assignment needs. -/
def Way.Path (W : Way) (a : Asg) : List (List Edge × Nat) → Prop
  | [] => True
  | (es, i) :: rest => ⟨spot W.coeffs W.vars W.totals.length a (i :: rest.map (·.2)), spot W.coeffs W.vars W.totals.length a (rest.map (·.2)), vl W.vars a i⟩ ∈ es ∧ W.Path a rest

section
variable {σ μ : Type} {W : Way} {is : List Nat} {d0 d : Doms} {J : Job}

theorem Way.OK.var (h : W.OK is d0) {i : Nat} (hi : i ∈ is) : ∃ x, W.vars[i]? = some x ∧ x ∈ W.vars ∧ x.Valid d0.length ∧ ∀ a, x.eval a = vl W.vars a i := by
  have hl := h.lt i hi
  refine ⟨W.vars[i], List.getElem?_eq_getElem hl, List.getElem_mem hl, h.vars _ (List.getElem_mem hl), fun a => by simp [vl, hl]⟩

theorem Way.OK.total (h : W.OK is d0) {x : Nat} (hx : x < W.totals.length) : ∃ t, vecAt W.totals x = .ok t ∧ t.Valid d0.length ∧ ∀ a, t.eval a = vl W.totals a x :=
  ⟨W.totals[x], vecAt_ok.2 (List.getElem?_eq_getElem hx), h.totals _ (List.getElem_mem hx), fun a => by simp [vl, hx]⟩

theorem Way.OK.whole (h : W.OK is d0) {x : Nat} (hx : x < W.totals.length) {w : Sums} (hw : Fine W.totals.length w) :
    RightOrOverflow (W.whole w x) (fun r => r = W.committed.getD x 0 + w.getD x 0 ∧ InI64 r) := by
  obtain ⟨c1, c2⟩ := h.com.at_ hx
  obtain ⟨w1, w2⟩ := hw.at_ hx
  unfold Way.whole
  rw [c1, chk_ok_bind, w1, chk_ok_bind]
  exact add_roo c2 w2

theorem rev_suffix {pre qs : List Nat} {x : Nat} {a : Asg} : part W.coeffs W.vars a x (pre.reverse ++ qs) = part W.coeffs W.vars a x pre + part W.coeffs W.vars a x qs := by
  rw [part_append, part_perm (List.reverse_perm pre)]

/-- What is not too large stays. -/
theorem Way.OK.tooLarge (h : W.OK is d0) (hd : DomsOK d) (hl : d.length = d0.length) (hs : ∀ a, Within d a → Within d0 a) {w : Sums} (hw : Fine W.totals.length w) :
    RightOrOverflow (W.tooLarge d w) (fun b => ∀ a, Within d a → W.Sum is a → ∀ qs post, is = qs.reverse ++ post → w = spot W.coeffs W.vars W.totals.length a qs → b = false) := by
  refine (anyOf_hit (P := fun x => ∃ c u, c = W.committed.getD x 0 + w.getD x 0 ∧ c > u ∧ ∀ a, Within d a → vl W.totals a x ≤ u) (List.range W.totals.length) fun x hx => ?_).mono fun b hb a ha hm qs post e1 e2 => ?_
  · refine (h.whole (List.mem_range.1 hx) hw).bind fun c hc => (h.upper d hd hl hs x (List.mem_range.1 hx)).bind fun u hu => .pure fun e => ⟨c, u, hc.1, of_decide_eq_true e, hu⟩
  · cases b with
    | false => rfl
    | true =>
      obtain ⟨x, hx, c, u, h1, h2, h3⟩ := hb rfl
      have hx := List.mem_range.1 hx
      have k1 := h3 a ha
      rw [hm x hx, e1, part_append, part_perm (List.reverse_perm qs)] at k1
      have k2 := part_nonneg (x := x) (is := post) (a := a) (vars := W.vars) h.rows hx (fun i hi => h.lt i (by rw [e1]; simp [hi])) (fun i hi => h.nonneg a (hs a ha) i (by rw [e1]; simp [hi]))
      rw [e2, spot_getD hx] at h1
      omega

theorem Way.OK.tooSmall (h : W.OK is d0) (hd : DomsOK d) (hl : d.length = d0.length) (hs : ∀ a, Within d a → Within d0 a) {w : Sums} (hw : Fine W.totals.length w) :
    RightOrOverflow (W.tooSmall d w) (fun b => ∀ a, Within d a → W.Sum is a → w = spot W.coeffs W.vars W.totals.length a is.reverse → b = false) := by
  refine (anyOf_hit (P := fun x => ∃ c u, c = W.committed.getD x 0 + w.getD x 0 ∧ c < u ∧ ∀ a, Within d a → u ≤ vl W.totals a x) (List.range W.totals.length) fun x hx => ?_).mono fun b hb a ha hm e2 => ?_
  · refine (h.whole (List.mem_range.1 hx) hw).bind fun c hc => (h.lower d hd hl hs x (List.mem_range.1 hx)).bind fun u hu => .pure fun e => ⟨c, u, hc.1, of_decide_eq_true e, hu⟩
  · cases b with
    | false => rfl
    | true =>
      obtain ⟨x, hx, c, u, h1, h2, h3⟩ := hb rfl
      have hx := List.mem_range.1 hx
      have k1 := h3 a ha
      rw [hm x hx] at k1
      rw [e2, spot_getD hx, part_perm (List.reverse_perm is)] at h1
      omega

theorem Way.OK.missing (h : W.OK is d0) (hd : DomsOK d) (hl : d.length = d0.length) {w : Sums} (hw : Fine W.totals.length w) :
    RightOrOverflow (W.missing d w) (fun b => b = true ↔ ∃ x, x < W.totals.length ∧ ¬ ∃ a, Within d a ∧ vl W.totals a x = W.committed.getD x 0 + w.getD x 0) := by
  refine (anyOf_roo (P := fun x => ¬ ∃ a, Within d a ∧ vl W.totals a x = W.committed.getD x 0 + w.getD x 0) (List.range W.totals.length) fun x hx => ?_).mono fun b hb => ?_
  · obtain ⟨t, e, ht, hv⟩ := h.total (List.mem_range.1 hx)
    rw [e, chk_ok_bind]
    refine (h.whole (List.mem_range.1 hx) hw).bind fun c hc => (inDomain_spec hd (hl ▸ ht) c hc.2).bind fun b hb => .pure ?_
    have : Poss d t c ↔ ∃ a, Within d a ∧ vl W.totals a x = W.committed.getD x 0 + w.getD x 0 := by
      rw [← hc.1]
      exact ⟨fun ⟨a, ha, e⟩ => ⟨a, ha, by rw [← hv, e]⟩, fun ⟨a, ha, e⟩ => ⟨a, ha, by rw [hv, e]⟩⟩
    rw [← this, ← hb]
    cases b <;> simp
  · rw [hb]
    exact ⟨fun ⟨x, hx, k⟩ => ⟨x, List.mem_range.1 hx, k⟩, fun ⟨x, hx, k⟩ => ⟨x, List.mem_range.2 hx, k⟩⟩

end
end Gcs.Knapsack
