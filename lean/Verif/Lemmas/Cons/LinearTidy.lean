import Verif.Spec.Linear
import Verif.Lemmas.Cons.Steps

/-!
# Linear sums: division, and tidying up
-/

namespace Gcs

theorem div_roo {a b : Int} (ha : InI64 a) (hb : InI64 b) (h0 : b ≠ 0) : RightOrOverflow (iDiv a b) (fun r => r = a.tdiv b ∧ InI64 r) := by
  rw [iDiv_exact a b ha hb, if_neg h0]; exact exact_roo _

theorem mod_roo {a b : Int} (ha : InI64 a) (hb : InI64 b) (h0 : b ≠ 0) : RightOrOverflow (iMod a b) (fun r => r = a.tmod b) := by
  rw [iMod_exact a b ha hb]
  split
  · exact .inl rfl
  · exact .inr ⟨_, rfl, rfl⟩

/-- Rounding down. -/
theorem floor_le {c r x : Int} (hc : 0 < c) : c * x ≤ r ↔ x < 1 + r / c := by
  have := Int.le_ediv_iff_mul_le (a := x) (b := r) hc
  rw [Int.mul_comm] at this
  omega

theorem floor_neg {c r x : Int} (hc : 0 < c) : c * x ≤ r ↔ x < 1 + -((-r + c - 1) / c) := by
  have := Int.ediv_lt_iff_lt_mul (a := -r + c - 1) (b := -x + 1) hc
  have e : (-x + 1) * c = - (c * x) + c := by rw [Int.add_mul, Int.one_mul, Int.neg_mul, Int.mul_comm x c]
  rw [e] at this
  omega

namespace Linear

/-- What `infer` compares the bound with is where the term gets too large. -/
theorem limit_roo {unit : Bool} {c r : Int} (hc : InI64 c) (hr : InI64 r) (h0 : c ≠ 0) (hu : unit = true → c = 1 ∨ c = -1) :
    RightOrOverflow (limit unit c r) (fun b => InI64 b ∧ (c > 0 → ∀ x, c * x ≤ r ↔ x < b) ∧ (c < 0 → ∀ x, c * x ≤ r ↔ b ≤ x)) := by
  have h1 : InI64 1 := by decide
  unfold limit
  split
  · rename_i hu'
    rcases hu hu' with rfl | rfl
    · rw [if_pos (by decide)]
      exact (add_roo h1 hr).mono fun b hb => ⟨hb.2, fun _ x => by omega, fun h => by omega⟩
    · rw [if_neg (by decide)]
      exact (neg_roo hr).mono fun b hb => ⟨hb.2, fun h => by omega, fun _ x => by omega⟩
  · split
    · rename_i h
      refine (div_roo hr hc h0).bind fun q hq => ?_
      refine (add_roo h1 hq.2).mono fun b hb => ⟨hb.2, fun _ x => ?_, fun h => by omega⟩
      rw [hb.1, hq.1, Int.tdiv_eq_ediv_of_nonneg h.2]; exact floor_le h.1
    · split
      · rename_i h
        refine (neg_roo hr).bind fun q1 e1 => (add_roo e1.2 hc).bind fun q2 e2 => (sub_roo e2.2 h1).bind fun q3 e3 => (div_roo e3.2 hc h0).bind fun q4 e4 => (neg_roo e4.2).bind fun q5 e5 => ?_
        refine (add_roo h1 e5.2).mono fun b hb => ⟨hb.2, fun _ x => ?_, fun h => by omega⟩
        rw [hb.1, e5.1, e4.1, e3.1, e2.1, e1.1, Int.tdiv_eq_ediv_of_nonneg (by omega)]; exact floor_neg h.1
      · split
        · rename_i h
          refine (div_roo hr hc h0).mono fun b hb => ⟨hb.2, fun h => by omega, fun _ x => ?_⟩
          have e : r.tdiv c = - (r / -c) := by
            have := Int.tdiv_neg r (-c)
            rw [Int.neg_neg] at this
            rw [this, Int.tdiv_eq_ediv_of_nonneg h.2]
          have k := floor_le (c := -c) (r := r) (x := -x) (by omega)
          rw [Int.neg_mul_neg] at k
          rw [k, hb.1, e]; omega
        · split
          · rename_i h
            refine (neg_roo hr).bind fun q1 e1 => (neg_roo hc).bind fun q2 e2 => (add_roo e1.2 e2.2).bind fun q3 e3 => (sub_roo e3.2 h1).bind fun q4 e4 => ?_
            refine (neg_roo hc).bind fun q5 e5 => (div_roo e4.2 e5.2 (by omega)).mono fun b hb => ⟨hb.2, fun h => by omega, fun _ x => ?_⟩
            have k := floor_neg (c := -c) (r := r) (x := -x) (by omega)
            rw [Int.neg_mul_neg] at k
            rw [k, hb.1, e5.1, e4.1, e3.1, e2.1, e1.1, Int.tdiv_eq_ediv_of_nonneg (by omega)]; omega
          · omega

theorem signed_roo {ng : Bool} {c : Int} (hc : InI64 c) : RightOrOverflow (signed ng c) (fun r => r = (if ng then -c else c) ∧ InI64 r) := by
  unfold signed
  cases ng
  · exact .pure ⟨rfl, hc⟩
  · exact neg_roo hc

/-- The value of a tidied sum. -/
def tsum (ts : List Term) (a : Asg) : Int := (ts.map fun t => t.coeff * a t.var).sum

theorem tsum_nil (a : Asg) : tsum [] a = 0 := rfl
theorem tsum_cons (t : Term) (ts : List Term) (a : Asg) : tsum (t :: ts) a = t.coeff * a t.var + tsum ts a := by simp [tsum]
theorem tsum_append (ts us : List Term) (a : Asg) : tsum (ts ++ us) a = tsum ts a + tsum us a := by simp [tsum]
theorem wsum_cons (t : WTerm) (ts : List WTerm) (a : Asg) : wsum (t :: ts) a = t.1 * t.2.eval a + wsum ts a := by simp [wsum]

/-- What users have to write. -/
def TermsOK (n : Nat) (terms : List WTerm) : Prop := ∀ t ∈ terms, InI64 t.1 ∧ t.2.Valid n

theorem negate_roo {n : Nat} : ∀ {terms : List WTerm}, TermsOK n terms → RightOrOverflow (negate terms) (fun ts => TermsOK n ts ∧ (∀ a, wsum ts a = - wsum terms a) ∧ ts.map (·.2) = terms.map (·.2))
  | [], _ => .pure ⟨by simp [TermsOK], fun a => by simp [wsum], rfl⟩
  | t :: ts, h => by
    refine (neg_roo (h t (by simp)).1).bind fun c hc => (negate_roo fun u hu => h u (by simp [hu])).bind fun us hus => .pure ⟨?_, fun a => ?_, ?_⟩
    · intro u hu
      rcases List.mem_cons.1 hu with rfl | hu
      · exact ⟨hc.2, (h t (by simp)).2⟩
      · exact hus.1 u hu
    · rw [wsum_cons, wsum_cons, hus.2.1, hc.1]; dsimp only; rw [Int.neg_mul]; omega
    · simp [hus.2.2]

/-- The variables of the terms. -/
def varsOf (terms : List WTerm) : List Nat := terms.filterMap (·.2.underlyingIndex)

theorem split_roo {n : Nat} : ∀ (terms : List WTerm) (ts : List Term) (m : Int), TermsOK n terms → InI64 m → (∀ t ∈ ts, InI64 t.coeff) →
    RightOrOverflow (split ts m terms) (fun r => (∀ t ∈ r.1, InI64 t.coeff) ∧ InI64 r.2 ∧ (∀ v, v ∈ r.1.map Term.var ↔ v ∈ ts.map Term.var ∨ v ∈ varsOf terms) ∧ ∀ a, tsum r.1 a - r.2 = tsum ts a - m + wsum terms a)
  | [], ts, m, _, hm, hts => .pure ⟨hts, hm, fun v => by simp [varsOf], fun a => by simp [wsum]⟩
  | (c, v) :: rest, ts, m, h, hm, hts => by
    have hr : TermsOK n rest := fun u hu => h u (by simp [hu])
    obtain ⟨hc, hv⟩ := h (c, v) (by simp)
    replace hc : InI64 c := hc
    replace hv : v.Valid n := hv
    have push : ∀ {x : Int} {i : Nat}, InI64 x → ∀ t ∈ ts ++ [⟨x, i⟩], InI64 t.coeff := by
      intro x i hx t ht
      rcases List.mem_append.1 ht with ht | ht
      · exact hts t ht
      · rw [List.mem_singleton.1 ht]; exact hx
    cases v with
    | simple i =>
      show RightOrOverflow (split (ts ++ [⟨c, i⟩]) m rest) _
      have key := split_roo rest (ts ++ [⟨c, i⟩]) m hr hm (push hc)
      refine key.mono fun r hr => ⟨hr.1, hr.2.1, fun v => ?_, fun a => ?_⟩
      · rw [hr.2.2.1]; simp [varsOf, VarId.underlyingIndex, or_assoc]
      · rw [hr.2.2.2, tsum_append, wsum_cons, tsum_cons, tsum_nil]; simp only [VarId.eval]; omega
    | const k =>
      unfold split
      refine (mul_roo hc hv).bind fun p hp => (sub_roo hm hp.2).bind fun q hq => ?_
      refine (split_roo rest ts q hr hq.2 hts).mono fun r hr => ⟨hr.1, hr.2.1, fun v => ?_, fun a => ?_⟩
      · rw [hr.2.2.1]; simp [varsOf, VarId.underlyingIndex]
      · rw [hr.2.2.2, wsum_cons, hq.1, hp.1]; simp only [VarId.eval]; omega
    | view i ng k =>
      unfold split
      refine (signed_roo hc).bind fun c' hc' => (mul_roo hc hv.2).bind fun p hp => (sub_roo hm hp.2).bind fun q hq => ?_
      have key := split_roo rest (ts ++ [⟨c', i⟩]) q hr hq.2 (push hc'.2)
      refine key.mono fun r hr => ⟨hr.1, hr.2.1, fun v => ?_, fun a => ?_⟩
      · rw [hr.2.2.1]; simp [varsOf, VarId.underlyingIndex, or_assoc]
      · rw [hr.2.2.2, tsum_append, wsum_cons, tsum_cons, tsum_nil, hq.1, hp.1, hc'.1]
        simp only [VarId.eval, Int.mul_add]
        cases ng <;> simp [Int.neg_mul, Int.mul_neg] <;> omega

theorem insert_mem (t : Term) : ∀ (us : List Term) (u : Term), u ∈ insert t us ↔ u = t ∨ u ∈ us
  | [], u => by simp [insert]
  | w :: us, u => by
    unfold insert
    split
    · simp
    · simp only [List.mem_cons, insert_mem t us]
      constructor
      · rintro (h | h | h) <;> simp [h]
      · rintro (h | h | h) <;> simp [h]

theorem insert_sum (t : Term) (a : Asg) : ∀ us : List Term, tsum (insert t us) a = t.coeff * a t.var + tsum us a
  | [] => by simp [insert, tsum_cons]
  | w :: us => by
    unfold insert
    split
    · rw [tsum_cons]
    · rw [tsum_cons, insert_sum t a us, tsum_cons]; omega

theorem insert_sorted (t : Term) : ∀ us : List Term, us.Pairwise (fun a b => a.var ≤ b.var) → (insert t us).Pairwise (fun a b => a.var ≤ b.var)
  | [], _ => by simp [insert]
  | w :: us, h => by
    have hp := List.pairwise_cons.1 h
    unfold insert
    split
    · rename_i hle
      refine List.pairwise_cons.2 ⟨fun u hu => ?_, h⟩
      rcases List.mem_cons.1 hu with rfl | hu
      · exact hle
      · have := hp.1 u hu; omega
    · rename_i hle
      refine List.pairwise_cons.2 ⟨fun u hu => ?_, insert_sorted t us hp.2⟩
      rcases (insert_mem t us u).1 hu with rfl | hu
      · omega
      · exact hp.1 u hu

theorem sort_spec : ∀ ts : List Term, (∀ u, u ∈ sort ts ↔ u ∈ ts) ∧ (sort ts).Pairwise (fun a b => a.var ≤ b.var) ∧ ∀ a, tsum (sort ts) a = tsum ts a
  | [] => ⟨by simp [sort], by simp [sort], by simp [sort]⟩
  | t :: ts => by
    obtain ⟨h1, h2, h3⟩ := sort_spec ts
    exact ⟨fun u => by simp [sort, insert_mem, h1], insert_sorted t _ h2, fun a => by rw [sort, insert_sum, h3, tsum_cons]⟩

theorem mergeFrom_roo : ∀ (ts : List Term) (c : Int) (v : Nat), InI64 c → (∀ t ∈ ts, InI64 t.coeff) → (∀ t ∈ ts, v ≤ t.var) → ts.Pairwise (fun a b => a.var ≤ b.var) →
    RightOrOverflow (mergeFrom c v ts) (fun r => (∀ t ∈ r, InI64 t.coeff) ∧ (∀ t ∈ r, v ≤ t.var) ∧ (r.map Term.var).Nodup ∧ (∀ t ∈ r, t.var = v ∨ t.var ∈ ts.map Term.var) ∧ ∀ a, tsum r a = c * a v + tsum ts a)
  | [], c, v, hc, _, _, _ => .pure ⟨by simpa using hc, by simp, by simp, by simp, fun a => by simp [tsum]⟩
  | t :: ts, c, v, hc, hi, hv, hp => by
    have hp := List.pairwise_cons.1 hp
    unfold mergeFrom
    split
    · rename_i e
      refine (add_roo hc (hi t (by simp))).bind fun c' hc' => ?_
      refine (mergeFrom_roo ts c' v hc'.2 (fun u hu => hi u (by simp [hu])) (fun u hu => hv u (by simp [hu])) hp.2).mono fun r hr => ⟨hr.1, hr.2.1, hr.2.2.1, fun u hu => ?_, fun a => ?_⟩
      · rcases hr.2.2.2.1 u hu with h | h
        · exact .inl h
        · exact .inr (by simp only [List.map_cons, List.mem_cons]; exact .inr h)
      · rw [hr.2.2.2.2, tsum_cons, hc'.1, e, Int.add_mul]; omega
    · rename_i e
      have hlt : v < t.var := by have := hv t (by simp); omega
      refine (mergeFrom_roo ts t.coeff t.var (hi t (by simp)) (fun u hu => hi u (by simp [hu])) hp.1 hp.2).bind fun r hr => .pure ⟨?_, ?_, ?_, ?_, fun a => ?_⟩
      · intro u hu
        rcases List.mem_cons.1 hu with rfl | hu
        · exact hc
        · exact hr.1 u hu
      · intro u hu
        rcases List.mem_cons.1 hu with rfl | hu
        · exact Nat.le_refl _
        · have := hr.2.1 u hu; omega
      · simp only [List.map_cons, List.nodup_cons]
        refine ⟨fun h => ?_, hr.2.2.1⟩
        obtain ⟨u, hu, e⟩ := List.mem_map.1 h
        have := hr.2.1 u hu; omega
      · intro u hu
        rcases List.mem_cons.1 hu with rfl | hu
        · exact .inl rfl
        · exact .inr (by simp only [List.map_cons, List.mem_cons]; exact hr.2.2.2.1 u hu)
      · rw [tsum_cons, hr.2.2.2.2, tsum_cons]

/-- A tidied sum: different variables, and no coefficient is zero. -/
structure Tidy (n : Nat) (ts : List Term) : Prop where
  coeff : ∀ t ∈ ts, InI64 t.coeff ∧ t.coeff ≠ 0
  var : ∀ t ∈ ts, t.var < n
  nodup : (ts.map Term.var).Nodup

theorem filter_sum (a : Asg) : ∀ ts : List Term, tsum (ts.filter (fun t => t.coeff ≠ 0)) a = tsum ts a
  | [] => rfl
  | t :: ts => by
    rw [List.filter_cons]
    split
    · rw [tsum_cons, tsum_cons, filter_sum a ts]
    · rename_i h
      have : t.coeff = 0 := by simpa using h
      rw [tsum_cons, filter_sum a ts, this]; omega

theorem varsOf_valid {n : Nat} {terms : List WTerm} (h : TermsOK n terms) : ∀ v ∈ varsOf terms, v < n := by
  intro v hv
  obtain ⟨t, ht, e⟩ := List.mem_filterMap.1 hv
  have := (h t ht).2
  cases hx : t.2 with
  | simple i => rw [hx] at e this; cases e; exact this
  | view i b k => rw [hx] at e this; cases e; exact this.1
  | const k => rw [hx] at e; cases e

theorem tidy_roo {n : Nat} {terms : List WTerm} (h : TermsOK n terms) :
    RightOrOverflow (tidy terms) (fun r => Tidy n r.1 ∧ InI64 r.2 ∧ (∀ t ∈ r.1, t.var ∈ varsOf terms) ∧ ∀ a, wsum terms a = tsum r.1 a - r.2) := by
  refine (split_roo terms [] 0 h (by decide) (by simp)).bind fun r hr => ?_
  obtain ⟨s1, s2, s3⟩ := sort_spec r.1
  have hm : RightOrOverflow (merge (sort r.1)) (fun m => (∀ t ∈ m, InI64 t.coeff) ∧ (m.map Term.var).Nodup ∧ (∀ t ∈ m, t.var ∈ r.1.map Term.var) ∧ ∀ a, tsum m a = tsum r.1 a) := by
    cases hs : sort r.1 with
    | nil =>
      refine .pure ⟨by simp, by simp, by simp, fun a => ?_⟩
      rw [← s3, hs]
    | cons t ts =>
      rw [hs] at s1 s2 s3
      have hp := List.pairwise_cons.1 s2
      refine (mergeFrom_roo ts t.coeff t.var (hr.1 t ((s1 t).1 (by simp))) (fun u hu => hr.1 u ((s1 u).1 (by simp [hu]))) hp.1 hp.2).mono fun m hm => ⟨hm.1, hm.2.2.1, fun u hu => ?_, fun a => ?_⟩
      · rcases hm.2.2.2.1 u hu with e | e
        · rw [e]; exact List.mem_map.2 ⟨t, (s1 t).1 (by simp), rfl⟩
        · obtain ⟨w, hw, e⟩ := List.mem_map.1 e
          rw [← e]; exact List.mem_map.2 ⟨w, (s1 w).1 (by simp [hw]), rfl⟩
      · rw [hm.2.2.2.2, ← s3, tsum_cons]
  refine hm.bind fun m hm => .pure ?_
  have hv : ∀ t ∈ m, t.var ∈ varsOf terms := fun t ht => by simpa using (hr.2.2.1 t.var).1 (hm.2.2.1 t ht)
  refine ⟨⟨fun t ht => ?_, fun t ht => ?_, ?_⟩, hr.2.1, fun t ht => hv t (List.mem_filter.1 ht).1, fun a => ?_⟩
  · have := List.mem_filter.1 ht
    exact ⟨hm.1 t this.1, by simpa using this.2⟩
  · exact varsOf_valid h _ (hv t (List.mem_filter.1 ht).1)
  · exact hm.2.1.sublist (List.filter_sublist.map _)
  · rw [filter_sum, hm.2.2.2]
    have := hr.2.2.2 a
    rw [tsum_nil] at this
    omega

theorem tsum_upd {ts : List Term} {v : Nat} {x : Int} {a : Asg} (hv : v ∉ ts.map Term.var) : tsum ts (fun j => if j = v then x else a j) = tsum ts a := by
  induction ts with
  | nil => rfl
  | cons t ts ih =>
    simp only [List.map_cons, List.mem_cons, not_or] at hv
    rw [tsum_cons, tsum_cons, ih hv.2, if_neg (fun e => hv.1 e.symm)]

/-- A sum depends on all of its variables. -/
theorem tsum_depends {n : Nat} : ∀ {ts : List Term}, Tidy n ts → ∀ {t : Term}, t ∈ ts → ∀ (x : Int) (a : Asg), tsum ts (fun j => if j = t.var then x else a j) = tsum ts a + t.coeff * (x - a t.var)
  | u :: us, h, t, ht, x, a => by
    have hn := h.nodup
    simp only [List.map_cons, List.nodup_cons] at hn
    rw [tsum_cons, tsum_cons]
    rcases List.mem_cons.1 ht with rfl | ht
    · rw [tsum_upd hn.1, if_pos rfl, Int.mul_sub]; omega
    · have : u.var ≠ t.var := fun e => hn.1 (e ▸ List.mem_map.2 ⟨t, ht, rfl⟩)
      rw [if_neg this, tsum_depends (n := n) ⟨fun u hu => h.coeff u (by simp [hu]), fun u hu => h.var u (by simp [hu]), hn.2⟩ ht]; omega

/-- Opposite sums have the same variables. -/
theorem same_vars {n : Nat} {ts us : List Term} {p q : Int} (hu : Tidy n us) (h : ∀ a, tsum us a - q = - (tsum ts a - p)) : ∀ u ∈ us, u.var ∈ ts.map Term.var := by
  intro u hm
  apply Classical.byContradiction
  intro hn
  have h1 := h (fun _ => 0)
  have h2 := h (fun j => if j = u.var then 1 else 0)
  rw [tsum_upd (a := fun _ => 0) hn] at h2
  have h3 := tsum_depends hu hm 1 (fun _ => 0)
  have := (hu.coeff u hm).2
  simp only [Int.sub_zero, Int.mul_one] at h3
  omega

end Linear
end Gcs
