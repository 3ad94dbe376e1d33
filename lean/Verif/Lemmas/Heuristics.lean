import Verif.Spec.Heuristics
import Verif.Spec.Checks
import Verif.Model.Heuristics

/-! Helper lemmas for heuristics. -/

namespace Gcs
open IntervalSet

section
variable {d : Doms} {v : VarId} {n : Nat}

/-! ## Partitions -/

theorem branch_two {b c : Cond} (hb : (Lit.cond b).Valid n ∧ (Lit.cond b).RangeOK) (hc : (Lit.cond c).Valid n ∧ (Lit.cond c).RangeOK)
    (pb : ∃ a, Within d a ∧ b.holds a) (pc : ∃ a, Within d a ∧ c.holds a) (h : ∀ a, b.holds a ↔ ¬ c.holds a) : BranchOK n d [b, c] where
  valid := by
    intro x hx
    simp only [List.mem_cons, List.not_mem_nil, or_false] at hx
    rcases hx with rfl | rfl <;> assumption
  possible := by
    intro x hx
    simp only [List.mem_cons, List.not_mem_nil, or_false] at hx
    rcases hx with rfl | rfl <;> assumption
  strict := by
    intro x hx
    simp only [List.mem_cons, List.not_mem_nil, or_false] at hx
    rcases hx with rfl | rfl
    · obtain ⟨a, ha, k⟩ := pc
      exact ⟨a, ha, fun k' => (h a).1 k' k⟩
    · obtain ⟨a, ha, k⟩ := pb
      exact ⟨a, ha, (h a).1 k⟩
  covers := by
    intro a _
    by_cases hx : c.holds a
    · exact ⟨c, by simp, hx⟩
    · exact ⟨b, by simp, (h a).2 hx⟩
  apart := by
    simp only [List.pairwise_cons, List.mem_singleton, List.not_mem_nil, forall_eq, false_imp_iff, implies_true, List.Pairwise.nil, and_true]
    exact fun a _ k => (h a).1 k.1 k.2

theorem BranchOK.swap {b c : Cond} (h : BranchOK n d [b, c]) : BranchOK n d [c, b] where
  valid := fun x hx => h.valid x (by simpa [or_comm] using hx)
  possible := fun x hx => h.possible x (by simpa [or_comm] using hx)
  strict := fun x hx => h.strict x (by simpa [or_comm] using hx)
  covers := fun a ha => by obtain ⟨x, hx, k⟩ := h.covers a ha; exact ⟨x, by simpa [or_comm] using hx, k⟩
  apart := by
    have := h.apart
    simp only [List.pairwise_cons, List.mem_singleton, List.not_mem_nil, forall_eq, false_imp_iff, implies_true, List.Pairwise.nil, and_true] at this ⊢
    exact fun a ha k => this a ha ⟨k.2, k.1⟩

theorem plain_ok {o : CondOp} {y : Int} (hv : v.Valid n) (hy : InI64 y) (ho : ¬ (o = .inRange ∨ o = .notInRange)) :
    (Lit.cond ⟨v, o, y, 0⟩).Valid n ∧ (Lit.cond ⟨v, o, y, 0⟩).RangeOK :=
  ⟨⟨hv, hy, show InI64 0 by decide⟩, fun h => absurd h ho⟩

theorem branch_eq_ne (hv : v.Valid n) {y z : Int} (hy : InI64 y) (py : Poss d v y) (pz : Poss d v z) (hz : z ≠ y) :
    BranchOK n d [.eq v y, .ne v y] := by
  refine branch_two (plain_ok hv hy (by simp)) (plain_ok hv hy (by simp)) ?_ ?_ ?_
  · obtain ⟨a, ha, e⟩ := py; exact ⟨a, ha, e⟩
  · obtain ⟨a, ha, e⟩ := pz; exact ⟨a, ha, show v.eval a ≠ y from e ▸ hz⟩
  · intro a; show v.eval a = y ↔ ¬ v.eval a ≠ y; omega

theorem branch_le_gt (hv : v.Valid n) {y x z : Int} (hy : InI64 (y + 1)) (px : Poss d v x) (hx : x ≤ y) (pz : Poss d v z) (hz : y < z) :
    BranchOK n d [⟨v, .less, y + 1, 0⟩, ⟨v, .greaterEqual, y + 1, 0⟩] := by
  refine branch_two (plain_ok hv hy (by simp)) (plain_ok hv hy (by simp)) ?_ ?_ ?_
  · obtain ⟨a, ha, e⟩ := px; exact ⟨a, ha, show v.eval a < y + 1 by omega⟩
  · obtain ⟨a, ha, e⟩ := pz; exact ⟨a, ha, show v.eval a ≥ y + 1 by omega⟩
  · intro a; show v.eval a < y + 1 ↔ ¬ v.eval a ≥ y + 1; omega

theorem Open.other (h : Open d v) (y : Int) : ∃ z, Poss d v z ∧ z ≠ y := by
  obtain ⟨p, q, hp, hq, hne⟩ := h
  by_cases e : p = y
  · exact ⟨q, hq, fun k => hne (e.trans k.symm)⟩
  · exact ⟨p, hp, e⟩

theorem branch_each (hv : v.Valid n) (ho : Open d v) {L : List Int} (nd : L.Nodup) (hL : ∀ y, y ∈ L ↔ Poss d v y) (hi : ∀ y ∈ L, InI64 y) :
    BranchOK n d (L.map (Cond.eq v)) where
  valid := by
    intro b hb
    obtain ⟨y, hy, rfl⟩ := List.mem_map.1 hb
    exact plain_ok hv (hi y hy) (by simp)
  possible := by
    intro b hb
    obtain ⟨y, hy, rfl⟩ := List.mem_map.1 hb
    obtain ⟨a, ha, e⟩ := (hL y).1 hy
    exact ⟨a, ha, e⟩
  strict := by
    intro b hb
    obtain ⟨y, hy, rfl⟩ := List.mem_map.1 hb
    obtain ⟨z, ⟨a, ha, e⟩, hz⟩ := ho.other y
    exact ⟨a, ha, show ¬ v.eval a = y from e ▸ hz⟩
  covers := by
    intro a ha
    exact ⟨_, List.mem_map.2 ⟨v.eval a, (hL _).2 (ha.poss v), rfl⟩, rfl⟩
  apart := by
    refine List.Pairwise.map _ ?_ nd
    intro x y hxy a _ k
    exact hxy (k.1.symm.trans k.2)

/-! ## Values -/

theorem ListsAscending.nodup {P : Int → Prop} {L : List Int} (h : ListsAscending P L) : L.Nodup := h.1.imp fun h => by omega
theorem ListsDescending.nodup {P : Int → Prop} {L : List Int} (h : ListsDescending P L) : L.Nodup := h.1.imp fun h => by omega

theorem each_inI64 (hd : DomsOK d) (hv : v.Valid d.length) {g : Gen Int} (h : eachValue d v = .ok g) : ∀ y ∈ g.1, InI64 y := by
  have happ : ∀ (x : Int) y, Mem x (rawOf d v) → applyView x (deview v).2.1 (deview v).2.2 = .ok y → InI64 y := by
    intro x y hx e
    rcases applyView_raw hd hv hx with ⟨k, _⟩ | ⟨z, k, hz⟩
    · rw [k] at e; cases e
    · rw [k] at e; cases e; exact hz.2
  have ok := rawOf_ok hd hv
  have he := each_spec _ ok.wf ok.inRange
  have key : ∀ (l : List Int) (e : Option Err), (∀ x ∈ l, Mem x (rawOf d v)) →
      ∀ y ∈ (genMap (applyView · (deview v).2.1 (deview v).2.2) l e).1, InI64 y := by
    intro l
    induction l with
    | nil => intro e _ y hy; simp [genMap] at hy
    | cons x xs ih =>
      intro e hl y hy
      unfold genMap at hy
      cases e' : applyView x (deview v).2.1 (deview v).2.2 with
      | error k => rw [e'] at hy; simp at hy
      | ok z =>
        rw [e'] at hy
        rcases List.mem_cons.1 hy with rfl | hy
        · exact happ x _ (hl x (by simp)) e'
        · exact ih e (fun w hw => hl w (by simp [hw])) y hy
  cases v with
  | simple i =>
    simp only [eachValue, deview, stateOf_ok hv, bind, Except.bind, pure, Except.pure, Except.ok.injEq] at h
    subst h
    have hr : rawOf d (.simple i) = d[i]'hv := by simp only [rawOf]; rw [List.getElem?_eq_getElem (show i < d.length from hv)]; rfl
    rw [hr] at key he
    exact key _ _ fun x hx => (he.1.2 x).1 hx
  | view i ng k =>
    simp only [eachValue, deview, stateOf_ok hv.1, bind, Except.bind, pure, Except.pure, Except.ok.injEq] at h
    subst h
    have hr : rawOf d (.view i ng k) = d[i]'hv.1 := by simp [rawOf, List.getElem?_eq_getElem (show i < d.length from hv.1)]
    rw [hr] at key he
    exact key _ _ fun x hx => (he.1.2 x).1 hx
  | const c =>
    simp only [eachValue, deview, Except.ok.injEq] at h
    subst h
    exact key _ _ fun x hx => by rw [List.mem_singleton.1 hx]; exact mem_const.2 rfl

/-- Copying the values of a variable: all of them, each once, in the order of the underlying variable. -/
theorem values_roo (hd : DomsOK d) (hv : v.Valid d.length) : RightOrOverflow (valuesOf d v) (fun L =>
    (if v.negated then ListsDescending (Poss d v) L else ListsAscending (Poss d v) L) ∧ L.Nodup ∧ (∀ y, y ∈ L ↔ Poss d v y) ∧ ∀ y ∈ L, InI64 y) := by
  obtain ⟨g, L, h, hL, -, hall, herr, -⟩ := eachValue_spec hd hv
  have hi := each_inI64 hd hv h
  unfold valuesOf
  rw [h]
  show RightOrOverflow (genAll g) _
  unfold genAll
  cases e : g.2 with
  | some k => rw [herr k e]; exact .inl rfl
  | none =>
    have := hall e
    subst this
    refine .inr ⟨g.1, rfl, hL, ?_, ?_, hi⟩
    · cases hn : v.negated
      · rw [hn] at hL; exact ListsAscending.nodup hL
      · rw [hn] at hL; exact ListsDescending.nodup hL
    · cases hn : v.negated
      · rw [hn] at hL; exact hL.2
      · rw [hn] at hL; exact hL.2

theorem reversed_roo (hd : DomsOK d) (hv : v.Valid d.length) : RightOrOverflow (do genAll (← eachValueReversed d v)) (fun L =>
    ListsDescending (Poss d v) L ∧ ∀ y ∈ L, InI64 y) := by
  unfold eachValueReversed
  rcases copyOfValues_spec hd hv with ⟨h, -⟩ | ⟨t, h, wt, rt, mt⟩
  · rw [h]; exact .inl rfl
  · rw [h]
    show RightOrOverflow (genAll (eachReversed t)) _
    have hs := eachReversed_spec t wt rt
    unfold genAll
    cases e : (eachReversed t).2 with
    | some k =>
      left
      by_cases hm : Mem i64Min t
      · have := hs.2.1 hm; rw [this] at e; cases e; rfl
      · have := hs.2.2 hm; rw [this] at e; cases e
    | none =>
      refine .inr ⟨_, rfl, ⟨hs.1.1, fun x => (hs.1.2 x).trans (mt x)⟩, fun y hy => mem_of_inRange rt ((hs.1.2 y).1 hy)⟩

theorem open_length {L : List Int} (ho : Open d v) (nd : L.Nodup) (hL : ∀ y, y ∈ L ↔ Poss d v y) : 2 ≤ L.length := by
  obtain ⟨x, y, hx, hy, hne⟩ := ho
  have : [x, y].length ≤ L.length := by
    refine List.Nodup.length_le_of_subset (by simp [hne]) ?_
    intro z hz
    simp only [List.mem_cons, List.not_mem_nil, or_false] at hz
    rcases hz with rfl | rfl
    · exact (hL _).2 hx
    · exact (hL _).2 hy
  exact this

theorem length_open {L : List Int} (nd : L.Nodup) (hL : ∀ y, y ∈ L ↔ Poss d v y) (h : 2 ≤ L.length) : Open d v := by
  match L, nd, hL, h with
  | x :: y :: l, nd, hL, _ =>
    refine ⟨x, y, (hL x).1 (by simp), (hL y).1 (by simp), ?_⟩
    simp only [List.nodup_cons, List.mem_cons, not_or] at nd
    exact nd.1.1

theorem size_roo (hd : DomsOK d) (hv : v.Valid d.length) : RightOrOverflow (domainSize d v) (fun k =>
    InI64 k ∧ 1 ≤ k ∧ (2 ≤ k ↔ Open d v) ∧ ∀ L : List Int, L.Nodup → (∀ y, y ∈ L ↔ Poss d v y) → k = (L.length : Int)) := by
  obtain ⟨L, nd, hL, h⟩ := domainSize_spec hd hv
  rw [h]
  refine (exact_roo _).mono fun k hk => ?_
  obtain ⟨rfl, hi⟩ := hk
  refine ⟨hi, ?_, ⟨fun h2 => length_open nd hL (by omega), fun ho => by have := open_length ho nd hL; omega⟩, ?_⟩
  · obtain ⟨a, ha⟩ := exists_within hd
    have := List.length_pos_of_mem ((hL _).2 (ha.poss v))
    omega
  · intro L' nd' hL'
    have h1 := nd.length_le_of_subset (fun x hx => (hL' x).2 ((hL x).1 hx))
    have h2 := nd'.length_le_of_subset (fun x hx => (hL x).2 ((hL' x).1 hx))
    omega

theorem not_open {v : VarId} (hv : v.Valid d.length) (h : ¬ Open d v) (hd : DomsOK d) : ∀ i, v.underlyingIndex = some i → Fixed d i := by
  intro i hi
  have key : ∀ i (hi : i < d.length), (∀ x y, Mem x (d[i]'hi) → Mem y (d[i]'hi) → x = y) → Fixed d i := by
    intro i hi hu
    obtain ⟨w, hw⟩ := (hd.get hi).nonempty
    exact ⟨_, List.getElem?_eq_getElem hi, w, fun x => ⟨fun hx => hu x w hx hw, fun e => e ▸ hw⟩⟩
  cases v with
  | const c => cases hi
  | simple j =>
    cases hi
    refine key i hv fun x y hx hy => ?_
    by_cases e : x = y
    · exact e
    · refine absurd ⟨x, y, ?_, ?_, e⟩ h
      · obtain ⟨a, ha, k⟩ := exists_within_at hd (List.getElem?_eq_getElem hv) hx; exact ⟨a, ha, k⟩
      · obtain ⟨a, ha, k⟩ := exists_within_at hd (List.getElem?_eq_getElem hv) hy; exact ⟨a, ha, k⟩
  | view j ng k =>
    cases hi
    refine key i hv.1 fun x y hx hy => ?_
    by_cases e : x = y
    · exact e
    · obtain ⟨a, ha, ka⟩ := exists_within_at hd (List.getElem?_eq_getElem hv.1) hx
      obtain ⟨b, hb, kb⟩ := exists_within_at hd (List.getElem?_eq_getElem hv.1) hy
      refine absurd ⟨_, _, ha.poss _, hb.poss _, ?_⟩ h
      simp only [VarId.eval, ka, kb]
      cases ng <;> simp <;> omega

end
end Gcs
