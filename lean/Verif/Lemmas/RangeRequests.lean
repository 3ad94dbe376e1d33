import Verif.Lemmas.RangePartition

/-!
# Lemmas on requests for range literals
-/

namespace Gcs.Ranges

/-- Some value of the variable is in the interval. -/
abbrev Meets (lb ub : Int) (I : Ivl) : Prop := max I.1 lb ≤ min I.2 ub

/-- What is true of the partition, except perhaps for one literal that is being defined. -/
structure Part (lb ub : Int) (ex : Ivl → Prop) (bs : List Int) (st : St) : Prop where
  cuts : st.cuts = some bs
  sorted : Sorted bs
  first : lb ∈ bs
  last : ub + 1 ∈ bs
  within : ∀ z ∈ bs, lb ≤ z ∧ z ≤ ub + 1
  cells : ∀ c, IsCell bs c → st.Has c
  ends : ∀ I, st.Has I → Meets lb ub I → ¬ ex I → max I.1 lb ∈ bs ∧ min I.2 ub + 1 ∈ bs
  covered : ∀ a, Settled st.clauses a → ∀ J, st.Has J → Meets lb ub J → ¬ ex J → (∀ c, IsCell bs c → J.1 ≤ c.1 → c.2 ≤ J.2 → a c = some false) → a J = some false
  wipe : ∀ a, Settled st.clauses a → ¬ ∀ c, IsCell bs c → a c = some false

theorem IsCell.in_bounds {lb ub : Int} {ex : Ivl → Prop} {bs : List Int} {st : St} (h : Part lb ub ex bs st) {c : Ivl} (hc : IsCell bs c) : lb ≤ c.1 ∧ c.2 ≤ ub := by
  have h1 := h.within _ hc.lo; have h2 := h.within _ hc.hi; omega

theorem needDirect_cuts {lb ub : Int} {st : St} {v : Int} {bs : List Int} (hn : v ∉ st.eqs) (h : Base lb ub st) (hc : st.cuts = some bs)
    (h1 : v ∈ bs) (h2 : v + 1 ∈ bs) (d : Nat) : needDirect lb ub (d + 1) v st = .ok (addEq v st) := by
  have k : (addEq v st).cuts = some bs := by rw [(addEq_ok h hn).2.cuts, hc]
  have e : ∀ f p, p ∈ bs → ensureCut f p (addEq v st) = .ok (addEq v st) := by
    intro f p hp; unfold ensureCut; rw [k]; simp [hp]
  unfold needDirect
  rw [if_neg hn]
  show (if (addEq v st).cuts.isSome ∧ lb ≤ v ∧ v ≤ ub then _ else _) = _
  split
  · show (do let st ← ensureCut _ v (addEq v st); ensureCut _ (v + 1) st) = _
    rw [e _ v h1]; show ensureCut _ (v + 1) (addEq v st) = _; rw [e _ _ h2]
  · rfl

theorem defineCell_ok {lb ub : Int} {st : St} {bs : List Int} (h : Base lb ub st) (hc : st.cuts = some bs) {c : Ivl} (h1 : c.1 ∈ bs) (h2 : c.2 + 1 ∈ bs)
    (hle : c.1 ≤ c.2) (hn : c ∉ st.invars) :
    ∃ st', (∀ d, defineCell (needDirect lb ub (d + 1)) c st = .ok st') ∧ Base lb ub st' ∧ Grows st st' c := by
  unfold defineCell
  by_cases e : c.1 = c.2
  · obtain ⟨v, w⟩ := c
    simp only at e; subst e
    by_cases m : v ∈ st.eqs
    · refine ⟨st, fun d => ?_, h, fun I => ?_, fun _ m => m, rfl, fun _ m => .inl m⟩
      · simp [needDirect, m]
      · constructor
        · exact .inl
        · rintro (k | rfl)
          · exact k
          · exact .inl ⟨rfl, m⟩
    · refine ⟨addEq v st, fun d => ?_, addEq_ok h m⟩
      simp only [if_true]
      exact needDirect_cuts m h hc h1 h2 d
  · exact ⟨definePlain c st, fun d => by simp [e], definePlain_ok h (by omega) hn⟩

/-- Adding a clause over literals that have been defined. -/
theorem Base.add {lb ub : Int} {st : St} (h : Base lb ub st) {c : Clause} (hc : ∀ l ∈ c, st.Has l.ivl) (ht : ∀ x, lb ≤ x → x ≤ ub → ∃ l ∈ c, l.Holds x) :
    Base lb ub { st with clauses := st.clauses ++ [c] } where
  eqsNodup := h.eqsNodup
  invarsNodup := h.invarsNodup
  wide := h.wide
  noTree := h.noTree
  tree := h.tree
  has := fun d hd => by
    rcases List.mem_append.1 hd with k | k
    · exact h.has d k
    · simp at k; subst k; exact hc
  holds := fun d hd => by
    rcases List.mem_append.1 hd with k | k
    · exact h.holds d k
    · simp at k; subst k; exact ht
  down := fun a ha => h.down a (ha.mono fun d k => List.mem_append_left _ k)

theorem ensureCut_ok {lb ub : Int} {ex : Ivl → Prop} {bs : List Int} {st : St} (h : Base lb ub st) (hp : Part lb ub ex bs st)
    (hx : ∀ I, ex I → I.1 = I.2) {p : Int} (h1 : lb ≤ p) (h2 : p ≤ ub + 1) :
    ∃ st' bs', (∀ d, ensureCut (needDirect lb ub (d + 1)) p st = .ok st') ∧ Base lb ub st' ∧ Part lb ub ex bs' st' ∧ p ∈ bs' ∧ (∀ z ∈ bs, z ∈ bs') ∧
      (∀ I, st.Has I → st'.Has I) ∧ ∀ I, st'.Has I → st.Has I ∨ IsCell bs' I := by
  by_cases m : p ∈ bs
  · exact ⟨st, bs, fun d => by unfold ensureCut; rw [hp.cuts]; simp [m], h, hp, m, fun _ k => k, fun _ k => k, fun _ k => .inl k⟩
  have hlast : p < ub + 1 := by
    have : p ≠ ub + 1 := by rintro rfl; exact m hp.last
    omega
  obtain ⟨a, b', e1, e2, cell, k1, k2⟩ := around hp.sorted m hp.first hp.last h1 hlast
  obtain ⟨b, rfl⟩ : ∃ b, b' = b + 1 := ⟨b' - 1, by omega⟩
  rw [Int.add_sub_cancel] at cell
  have bnd := cell.in_bounds hp
  simp only at bnd
  have cin := cell_insert cell k1 (show p ≤ b by omega)
  have left : IsCell (insertCut p bs) (a, p - 1) := (cin _).2 (.inr (.inl rfl))
  have right : IsCell (insertCut p bs) (p, b) := (cin _).2 (.inr (.inr rfl))
  -- neither half is there as a range
  have notThere : ∀ I, I ∈ st.invars → I ≠ (a, p - 1) ∧ I ≠ (p, b) := by
    intro I hI
    have wide := h.wide I hI
    have ends := fun k => hp.ends I (.inr hI) k (fun k => by have := hx I k; omega)
    constructor
    · rintro rfl
      have := (ends (by unfold Meets; simp only; omega)).2
      simp only at this
      rw [show min (p - 1) ub + 1 = p by omega] at this; exact m this
    · rintro rfl
      have := (ends (by unfold Meets; simp only; omega)).1
      simp only at this
      rw [show max p lb = p by omega] at this; exact m this
  let s0 : St := { st with cuts := some (insertCut p bs) }
  have b0 : Base lb ub s0 := ⟨h.eqsNodup, h.invarsNodup, h.wide, h.noTree, h.tree, h.has, h.holds, h.down⟩
  obtain ⟨s1, r1, b1, g1⟩ := defineCell_ok b0 (bs := insertCut p bs) rfl left.lo left.hi left.le (fun k => (notThere _ k).1 rfl)
  have c1 : s1.cuts = some (insertCut p bs) := g1.cuts
  obtain ⟨s2, r2, b2, g2⟩ := defineCell_ok b1 c1 right.lo right.hi right.le (fun k => by
    rcases g1.invars _ k with k | k
    · exact (notThere _ k).2 rfl
    · have := congrArg Prod.fst k; simp only at this; omega)
  have has2 : ∀ I, s2.Has I ↔ st.Has I ∨ I = (a, p - 1) ∨ I = (p, b) := by
    intro I; rw [g2.has, g1.has, or_assoc]; exact Iff.rfl
  let split : Clause := [⟨false, (a, b)⟩, ⟨true, (a, p - 1)⟩, ⟨true, (p, b)⟩]
  have sub : ∀ c ∈ st.clauses, c ∈ s2.clauses ++ [split] := fun c k => List.mem_append_left _ (g2.clauses c (g1.clauses c k))
  have cellF : ∀ f, Settled (s2.clauses ++ [split]) f → f (a, p - 1) = some false → f (p, b) = some false → f (a, b) = some false := by
    intro f hf u w
    refine hf.cover (ds := [(a, p - 1), (p, b)]) (List.mem_append_right _ (by simp [split])) ?_
    intro d hd; simp at hd; rcases hd with rfl | rfl <;> assumption
  refine ⟨{ s2 with clauses := s2.clauses ++ [split] }, insertCut p bs, fun d => ?_, b2.add ?_ ?_, ⟨?_, ?_, ?_, ?_, ?_, ?_, ?_, ?_, ?_⟩, mem_insertCut.2 (.inl rfl),
    fun z k => mem_insertCut.2 (.inr k), fun I k => (has2 I).2 (.inl k), fun I k => ?_⟩
  · unfold ensureCut
    rw [hp.cuts]
    simp only [m, if_false, e1, e2, Int.add_sub_cancel]
    have q := r1 d
    simp only [s0] at q
    rw [q]
    simp only [bind, Except.bind]
    rw [r2 d]
    rfl
  · intro l hl
    simp only [split, List.mem_cons, List.not_mem_nil, or_false] at hl
    rw [has2]
    rcases hl with rfl | rfl | rfl
    · exact .inl (hp.cells _ cell)
    · exact .inr (.inl rfl)
    · exact .inr (.inr rfl)
  · intro x _ _
    by_cases u : a ≤ x ∧ x ≤ b
    · by_cases w : x ≤ p - 1
      · exact ⟨⟨true, (a, p - 1)⟩, by simp [split], by simp [Lit.Holds]; omega⟩
      · exact ⟨⟨true, (p, b)⟩, by simp [split], by simp [Lit.Holds]; omega⟩
    · exact ⟨⟨false, (a, b)⟩, by simp [split], by simpa [Lit.Holds] using u⟩
  · rw [g2.cuts, c1]
  · exact sorted_insertCut hp.sorted
  · exact mem_insertCut.2 (.inr hp.first)
  · exact mem_insertCut.2 (.inr hp.last)
  · intro z hz
    rcases mem_insertCut.1 hz with rfl | hz
    · exact ⟨h1, h2⟩
    · exact hp.within z hz
  · intro c hc
    refine (has2 c).2 ?_
    rcases (cin c).1 hc with k | k
    · exact .inl (hp.cells c k.1)
    · exact .inr k
  · intro I hI hm hne
    rcases (has2 I).1 hI with k | rfl | rfl
    · have := hp.ends I k hm hne
      exact ⟨mem_insertCut.2 (.inr this.1), mem_insertCut.2 (.inr this.2)⟩
    · have l1 := left.lo; have l2 := left.hi; simp only at l1 l2 ⊢
      rw [show max a lb = a by omega, show min (p - 1) ub + 1 = p - 1 + 1 by omega]; exact ⟨l1, l2⟩
    · have l1 := right.lo; have l2 := right.hi; simp only at l1 l2 ⊢
      rw [show max p lb = p by omega, show min b ub + 1 = b + 1 by omega]; exact ⟨l1, l2⟩
  · intro f hf J hJ hm hne all
    rcases (has2 J).1 hJ with k | rfl | rfl
    · refine hp.covered f (hf.mono sub) J k hm hne fun c hc u w => ?_
      by_cases e : c = (a, b)
      · subst e
        exact cellF f hf (all _ left u (by simp only at w ⊢; omega)) (all _ right (by simp only at u ⊢; omega) w)
      · exact all c ((cin c).2 (.inl ⟨hc, e⟩)) u w
    · exact all _ left (Int.le_refl _) (Int.le_refl _)
    · exact all _ right (Int.le_refl _) (Int.le_refl _)
  · intro f hf all
    refine hp.wipe f (hf.mono sub) fun c hc => ?_
    by_cases e : c = (a, b)
    · subst e; exact cellF f hf (all _ left) (all _ right)
    · exact all c ((cin c).2 (.inl ⟨hc, e⟩))
  · rcases (has2 I).1 k with k | rfl | rfl
    · exact .inl k
    · exact .inr left
    · exact .inr right

/-- What is true between requests. -/
structure Inv (lb ub : Int) (st : St) : Prop where
  base : Base lb ub st
  none : st.cuts = none → ∀ I ∈ st.invars, ¬ Meets lb ub I
  part : ∀ bs, st.cuts = some bs → Part lb ub (fun _ => False) bs st

/-- Nothing is lost. -/
structure Keeps (st st' : St) : Prop where
  has : ∀ I, st.Has I → st'.Has I
  part : st.cuts ≠ none → st'.cuts ≠ none

theorem needDirect_ok {lb ub : Int} {st : St} (h : Inv lb ub st) (v : Int) :
    ∃ st', (∀ d, needDirect lb ub (d + 2) v st = .ok st') ∧ Inv lb ub st' ∧ Keeps st st' ∧ st'.Has (v, v) := by
  by_cases m : v ∈ st.eqs
  · exact ⟨st, fun d => by simp [needDirect, m], h, ⟨fun _ k => k, fun k => k⟩, .inl ⟨rfl, m⟩⟩
  obtain ⟨hb, hg⟩ := addEq_ok h.base m
  by_cases k : st.cuts = none ∨ ¬ (lb ≤ v ∧ v ≤ ub)
  · refine ⟨addEq v st, fun d => ?_, ⟨hb, fun k' => ?_, fun bs k' => ?_⟩, ⟨fun I k => (hg.has I).2 (.inl k), fun k => by rw [hg.cuts]; exact k⟩, (hg.has _).2 (.inr rfl)⟩
    · unfold needDirect
      rw [if_neg m]
      show (if (addEq v st).cuts.isSome ∧ lb ≤ v ∧ v ≤ ub then _ else _) = _
      rw [if_neg]
      · rfl
      · rw [hg.cuts]; rintro ⟨u, w⟩
        rcases k with k | k
        · simp [k] at u
        · exact k w
    · rw [hg.cuts] at k'
      intro I hI
      rcases hg.invars I hI with u | rfl
      · exact h.none k' I u
      · have := hb.wide _ hI; simp only at this; omega
    · rw [hg.cuts] at k'
      have hp := h.part bs k'
      have hv : ¬ (lb ≤ v ∧ v ≤ ub) := by
        rcases k with k | k
        · rw [k] at k'; simp at k'
        · exact k
      have old : ∀ I, (addEq v st).Has I → Meets lb ub I → st.Has I := by
        intro I hI hm
        rcases (hg.has I).1 hI with u | rfl
        · exact u
        · unfold Meets at hm; simp only at hm; omega
      exact ⟨by rw [hg.cuts, k'], hp.sorted, hp.first, hp.last, hp.within, fun c hc => (hg.has c).2 (.inl (hp.cells c hc)),
        fun I hI hm ne => hp.ends I (old I hI hm) hm ne, fun a ha J hJ hm ne all => hp.covered a (ha.mono hg.clauses) J (old J hJ hm) hm ne all,
        fun a ha => hp.wipe a (ha.mono hg.clauses)⟩
  · obtain ⟨bs, hc⟩ : ∃ bs, st.cuts = some bs := by
      cases e : st.cuts with
      | none => exact absurd (.inl e) k
      | some bs => exact ⟨bs, rfl⟩
    have hv : lb ≤ v ∧ v ≤ ub := by
      apply Decidable.byContradiction; intro u; exact k (.inr u)
    have hp := h.part bs hc
    have p0 : Part lb ub (· = (v, v)) bs (addEq v st) := by
      have old : ∀ I, (addEq v st).Has I → I ≠ (v, v) → st.Has I := fun I hI hne => by
        rcases (hg.has I).1 hI with u | u
        · exact u
        · exact absurd u hne
      exact ⟨by rw [hg.cuts, hc], hp.sorted, hp.first, hp.last, hp.within, fun c hc => (hg.has c).2 (.inl (hp.cells c hc)),
        fun I hI hm ne => hp.ends I (old I hI ne) hm id, fun a ha J hJ hm ne all => hp.covered a (ha.mono hg.clauses) J (old J hJ ne) hm id all,
        fun a ha => hp.wipe a (ha.mono hg.clauses)⟩
    have hx : ∀ I : Ivl, I = (v, v) → I.1 = I.2 := by rintro _ rfl; rfl
    obtain ⟨s1, bs1, r1, b1, p1, m1, _, k1, _⟩ := ensureCut_ok hb p0 hx (p := v) hv.1 (by omega)
    obtain ⟨s2, bs2, r2, b2, p2, m2, i2, k2, _⟩ := ensureCut_ok b1 p1 hx (p := v + 1) (by omega) (by omega)
    have cell : IsCell bs2 (v, v) := ⟨i2 _ m1, m2, Int.le_refl _, fun z _ => by simp only; omega⟩
    refine ⟨s2, fun d => ?_, ⟨b2, fun k => ?_, fun bs k => ?_⟩, ⟨fun I k => k2 I (k1 I ((hg.has I).2 (.inl k))), fun _ => ?_⟩, k2 _ (k1 _ ((hg.has _).2 (.inr rfl)))⟩
    · unfold needDirect
      rw [if_neg m]
      show (if (addEq v st).cuts.isSome ∧ lb ≤ v ∧ v ≤ ub then _ else _) = _
      rw [if_pos ⟨by rw [hg.cuts, hc]; rfl, hv⟩]
      show (do let s ← ensureCut (needDirect lb ub (d + 1)) v (addEq v st); ensureCut (needDirect lb ub (d + 1)) (v + 1) s) = _
      rw [r1 d]
      exact r2 d
    · rw [p2.cuts] at k; simp at k
    · rw [p2.cuts] at k; simp at k; subst k
      refine ⟨p2.cuts, p2.sorted, p2.first, p2.last, p2.within, p2.cells, fun I hI hm _ => ?_, fun a ha J hJ hm _ all => ?_, p2.wipe⟩
      · by_cases e : I = (v, v)
        · subst e
          simp only
          rw [show max v lb = v by omega, show min v ub + 1 = v + 1 by omega]; exact ⟨cell.lo, cell.hi⟩
        · exact p2.ends I hI hm e
      · by_cases e : J = (v, v)
        · subst e; exact all _ cell (Int.le_refl _) (Int.le_refl _)
        · exact p2.covered a ha J hJ hm e all
    · rw [p2.cuts]; simp

theorem defineCells_ok {lb ub : Int} {bs : List Int} : ∀ {l : List Ivl} {st : St}, Base lb ub st → st.cuts = some bs → (∀ c ∈ l, IsCell bs c) →
    l.Pairwise (fun x y => x.1 < y.1) → (∀ c ∈ l, c ∉ st.invars) →
    ∃ st', (∀ d, defineCells (needDirect lb ub (d + 1)) l st = .ok st') ∧ Base lb ub st' ∧ (∀ I, st'.Has I ↔ st.Has I ∨ I ∈ l) ∧
      (∀ c ∈ st.clauses, c ∈ st'.clauses) ∧ st'.cuts = some bs
  | [], st, h, hc, _, _, _ => ⟨st, fun _ => rfl, h, fun I => by simp, fun _ m => m, hc⟩
  | c :: l, st, h, hc, hl, hp, hn => by
    obtain ⟨hp1, hp2⟩ := List.pairwise_cons.1 hp
    have cell := hl c (by simp)
    obtain ⟨s1, r1, b1, g1⟩ := defineCell_ok h hc cell.lo cell.hi cell.le (hn c (by simp))
    obtain ⟨s2, r2, b2, h2, c2, k2⟩ := defineCells_ok b1 (by rw [g1.cuts, hc]) (fun d hd => hl d (List.mem_cons_of_mem _ hd)) hp2 (fun d hd k => by
      rcases g1.invars d k with k | rfl
      · exact hn d (List.mem_cons_of_mem _ hd) k
      · exact Int.lt_irrefl _ (hp1 _ hd))
    refine ⟨s2, fun d => ?_, b2, fun I => ?_, fun x m => c2 x (g1.clauses x m), k2⟩
    · unfold defineCells; rw [r1 d]; exact r2 d
    · rw [h2, g1.has, List.mem_cons, or_assoc]

theorem firstCuts_ok {lb ub lo hi : Int} (eqs : List Int) (h1 : lb ≤ lo) (h2 : lo ≤ hi) (h3 : hi ≤ ub) :
    Sorted (firstCuts lb ub eqs lo hi) ∧ lb ∈ firstCuts lb ub eqs lo hi ∧ ub + 1 ∈ firstCuts lb ub eqs lo hi ∧ lo ∈ firstCuts lb ub eqs lo hi ∧
      hi + 1 ∈ firstCuts lb ub eqs lo hi ∧ (∀ z ∈ firstCuts lb ub eqs lo hi, lb ≤ z ∧ z ≤ ub + 1) ∧
      ∀ v ∈ eqs, lb ≤ v → v ≤ ub → v ∈ firstCuts lb ub eqs lo hi ∧ v + 1 ∈ firstCuts lb ub eqs lo hi := by
  have fold : ∀ (eqs bs : List Int), Sorted bs → (∀ z ∈ bs, lb ≤ z ∧ z ≤ ub + 1) →
      ∃ out, eqs.foldl (fun bs v => if lb ≤ v ∧ v ≤ ub then insertCut (v + 1) (insertCut v bs) else bs) bs = out ∧ Sorted out ∧ (∀ z ∈ bs, z ∈ out) ∧
        (∀ z ∈ out, lb ≤ z ∧ z ≤ ub + 1) ∧ ∀ v ∈ eqs, lb ≤ v → v ≤ ub → v ∈ out ∧ v + 1 ∈ out := by
    intro eqs
    induction eqs with
    | nil => intro bs hs hw; exact ⟨bs, rfl, hs, fun _ m => m, hw, by simp⟩
    | cons v eqs ih =>
      intro bs hs hw
      rw [List.foldl_cons]
      split
      · rename_i hv
        obtain ⟨out, e, k1, k2, k3, k4⟩ := ih _ (sorted_insertCut (p := v + 1) (sorted_insertCut (p := v) hs)) (fun z hz => by
          rcases mem_insertCut.1 hz with rfl | hz
          · omega
          · rcases mem_insertCut.1 hz with rfl | hz
            · omega
            · exact hw z hz)
        refine ⟨out, e, k1, fun z m => k2 z (mem_insertCut.2 (.inr (mem_insertCut.2 (.inr m)))), k3, fun w hw' u1 u2 => ?_⟩
        rcases List.mem_cons.1 hw' with rfl | hw'
        · exact ⟨k2 _ (mem_insertCut.2 (.inr (mem_insertCut.2 (.inl rfl)))), k2 _ (mem_insertCut.2 (.inl rfl))⟩
        · exact k4 w hw' u1 u2
      · rename_i hv
        obtain ⟨out, e, k1, k2, k3, k4⟩ := ih bs hs hw
        refine ⟨out, e, k1, k2, k3, fun w hw' u1 u2 => ?_⟩
        rcases List.mem_cons.1 hw' with rfl | hw'
        · exact absurd ⟨u1, u2⟩ hv
        · exact k4 w hw' u1 u2
  have s0 : Sorted (insertCut (ub + 1) (insertCut lb [])) := sorted_insertCut (sorted_insertCut List.Pairwise.nil)
  obtain ⟨out, e, k1, k2, k3, k4⟩ := fold eqs _ s0 (fun z hz => by simp only [mem_insertCut, List.not_mem_nil, or_false] at hz; omega)
  have ef : firstCuts lb ub eqs lo hi = insertCut (hi + 1) (insertCut lo out) := by unfold firstCuts; rw [← e]
  rw [ef]
  refine ⟨sorted_insertCut (sorted_insertCut k1), ?_, ?_, ?_, ?_, fun z hz => ?_, fun v hv u1 u2 => ?_⟩
  · exact mem_insertCut.2 (.inr (mem_insertCut.2 (.inr (k2 _ (by simp [mem_insertCut])))))
  · exact mem_insertCut.2 (.inr (mem_insertCut.2 (.inr (k2 _ (by simp [mem_insertCut])))))
  · exact mem_insertCut.2 (.inr (mem_insertCut.2 (.inl rfl)))
  · exact mem_insertCut.2 (.inl rfl)
  · rcases mem_insertCut.1 hz with rfl | hz
    · omega
    · rcases mem_insertCut.1 hz with rfl | hz
      · omega
      · exact k3 z hz
  · have := k4 v hv u1 u2
    exact ⟨mem_insertCut.2 (.inr (mem_insertCut.2 (.inr this.1))), mem_insertCut.2 (.inr (mem_insertCut.2 (.inr this.2)))⟩

theorem initPartition_ok {lb ub lo hi : Int} {st : St} (h : Inv lb ub st) (hc : st.cuts = none) (h1 : lb ≤ lo) (h2 : lo ≤ hi) (h3 : hi ≤ ub) :
    ∃ st' bs', (∀ d, initPartition (needDirect lb ub (d + 1)) lb ub lo hi st = .ok st') ∧ Base lb ub st' ∧ Part lb ub (fun _ => False) bs' st' ∧ lo ∈ bs' ∧ hi + 1 ∈ bs' ∧
      (∀ I, st.Has I → st'.Has I) ∧ ∀ I, st'.Has I → st.Has I ∨ IsCell bs' I := by
  obtain ⟨ss, fl, fu, flo, fhi, fw, fe⟩ := firstCuts_ok st.eqs h1 h2 h3
  unfold initPartition
  generalize firstCuts lb ub st.eqs lo hi = bs at *
  let s0 : St := { st with cuts := some bs }
  have b0 : Base lb ub s0 := ⟨h.base.eqsNodup, h.base.invarsNodup, h.base.wide, h.base.noTree, h.base.tree, h.base.has, h.base.holds, h.base.down⟩
  have inb : ∀ c, IsCell bs c → lb ≤ c.1 ∧ c.2 ≤ ub := fun c k => by
    have h1 := fw _ k.lo; have h2 := fw _ k.hi; omega
  obtain ⟨s1, r1, b1, g1, c1, k1⟩ := defineCells_ok b0 (bs := bs) rfl (fun c m => (mem_cells ss c).1 m) (cells_sorted ss) (fun c m k => by
    have cc := (mem_cells ss c).1 m
    have := inb c cc; have := cc.le
    exact h.none hc c k (by unfold Meets; omega))
  have has1 : ∀ I, s1.Has I ↔ st.Has I ∨ IsCell bs I := fun I => by rw [g1, mem_cells ss]; exact Iff.rfl
  have hne : cells bs ≠ [] := by
    obtain ⟨c, k, _⟩ := cell_at ss fl fu (x := lb) (Int.le_refl _) (by omega)
    intro e; have := (mem_cells ss c).2 k; rw [e] at this; simp at this
  -- a literal there was is outside or a single value
  have old : ∀ I, s1.Has I → Meets lb ub I → IsCell bs I := by
    intro I hI hm
    rcases (has1 I).1 hI with k | k
    · rcases k with ⟨e, k⟩ | k
      · unfold Meets at hm
        have := fe _ k (by omega) (by omega)
        exact ⟨this.1, e ▸ this.2, by omega, fun z _ => by omega⟩
      · exact absurd hm (h.none hc I k)
    · exact k
  refine ⟨{ s1 with clauses := s1.clauses ++ [(cells bs).map (⟨true, ·⟩)] }, bs, fun d => ?_, b1.add ?_ ?_, ⟨k1, ss, fl, fu, fw, fun c k => (has1 c).2 (.inr k), ?_, ?_, ?_⟩, flo, fhi,
    fun I k => (has1 I).2 (.inl k), fun I k => (has1 I).1 k⟩
  · show (do let s ← defineCells _ (cells bs) s0; return _) = _
    rw [r1 d]; rfl
  · intro l hl
    obtain ⟨c, m, rfl⟩ := List.mem_map.1 hl
    exact (has1 c).2 (.inr ((mem_cells ss c).1 m))
  · intro x u w
    obtain ⟨c, k, u', w'⟩ := cell_at ss fl fu (x := x) u (by omega)
    exact ⟨⟨true, c⟩, List.mem_map_of_mem ((mem_cells ss c).2 k), by simp [Lit.Holds, u', w']⟩
  · intro I hI hm _
    have k := old I hI hm
    have := inb I k
    have l1 := k.lo; have l2 := k.hi
    rw [show max I.1 lb = I.1 by omega, show min I.2 ub + 1 = I.2 + 1 by omega]; exact ⟨l1, l2⟩
  · intro a _ J hJ hm _ all
    exact all J (old J hJ hm) (Int.le_refl _) (Int.le_refl _)
  · intro a ha all
    exact ha.root hne (List.mem_append_right _ (by simp)) fun c m => all c ((mem_cells ss c).1 m)

theorem needInvar_ok {lb ub : Int} {st : St} (h : Inv lb ub st) (lo hi : Int) :
    ∃ st', (∀ d, needInvar lb ub (d + 2) lo hi st = .ok st') ∧ Inv lb ub st' ∧ Keeps st st' ∧ (lo ≤ hi → st'.Has (lo, hi)) ∧
      (lo < hi → Meets lb ub (lo, hi) → st'.cuts ≠ none) := by
  unfold needInvar
  by_cases k1 : lo > hi
  · exact ⟨st, fun d => by simp only [k1, if_true]; rfl, h, ⟨fun _ k => k, fun k => k⟩, fun k => by omega, fun k => by omega⟩
  simp only [k1, if_false]
  by_cases k2 : lo = hi
  · subst k2
    obtain ⟨st', r, i, k, m⟩ := needDirect_ok h lo
    exact ⟨st', fun d => by simp only [if_true]; exact r d, i, k, fun _ => m, fun k => by omega⟩
  simp only [k2, if_false]
  by_cases k3 : (lo, hi) ∈ st.invars
  · refine ⟨st, fun d => by simp only [k3, if_true]; rfl, h, ⟨fun _ k => k, fun k => k⟩, fun _ => .inr k3, fun _ m e => h.none e _ k3 m⟩
  simp only [k3, if_false]
  by_cases k4 : max lo lb > min hi ub
  · have nm : ¬ Meets lb ub (lo, hi) := by unfold Meets; simp only; omega
    obtain ⟨hb, hg⟩ := definePlain_ok h.base (s := (lo, hi)) (by simp only; omega) k3
    refine ⟨definePlain (lo, hi) st, fun d => by simp only [k4, if_true]; rfl, ⟨hb, fun k => ?_, fun bs k => ?_⟩, ⟨fun I k => (hg.has I).2 (.inl k), fun k => by rw [hg.cuts]; exact k⟩,
      fun _ => (hg.has _).2 (.inr rfl), fun _ m => absurd m nm⟩
    · rw [hg.cuts] at k
      intro I hI
      rcases hg.invars I hI with u | rfl
      · exact h.none k I u
      · exact nm
    · rw [hg.cuts] at k
      have hp := h.part bs k
      have old : ∀ I, (definePlain (lo, hi) st).Has I → Meets lb ub I → st.Has I := by
        intro I hI hm
        rcases (hg.has I).1 hI with u | rfl
        · exact u
        · exact absurd hm nm
      exact ⟨by rw [hg.cuts, k], hp.sorted, hp.first, hp.last, hp.within, fun c hc => (hg.has c).2 (.inl (hp.cells c hc)),
        fun I hI hm ne => hp.ends I (old I hI hm) hm ne, fun a ha J hJ hm ne all => hp.covered a (ha.mono hg.clauses) J (old J hJ hm) hm ne all,
        fun a ha => hp.wipe a (ha.mono hg.clauses)⟩
  simp only [k4, if_false]
  generalize eu : max lo lb = u at *
  generalize ew : min hi ub = w at *
  -- the partition has both ends as boundaries
  obtain ⟨s1, bs, r1, b1, p1, m1, m2, keep, new⟩ : ∃ s1 bs, (∀ d, withEnds (needDirect lb ub (d + 2)) lb ub u w st = .ok s1) ∧ Base lb ub s1 ∧
      Part lb ub (fun _ => False) bs s1 ∧ u ∈ bs ∧ w + 1 ∈ bs ∧ (∀ I, st.Has I → s1.Has I) ∧ (∀ I, s1.Has I → I = (lo, hi) → IsCell bs I) := by
    have notHas : ¬ st.Has (lo, hi) := by
      rintro (k | k)
      · exact k2 k.1
      · exact k3 k
    cases e : st.cuts with
    | none =>
      obtain ⟨s1, bs, r, b, p, m1, m2, keep, new⟩ := initPartition_ok (lo := u) (hi := w) h e (by omega) (by omega) (by omega)
      refine ⟨s1, bs, fun d => ?_, b, p, m1, m2, keep, ?_⟩
      · unfold withEnds; rw [e]; simp only [Option.isNone_none, if_true]; exact r (d + 1)
      · rintro I k rfl; exact (new _ k).resolve_left notHas
    | some bs0 =>
      have hx : ∀ I : Ivl, False → I.1 = I.2 := fun _ k => k.elim
      obtain ⟨s1, bs1, r1, b1, p1, m1, _, keep1, new1⟩ := ensureCut_ok h.base (h.part bs0 e) hx (p := u) (by omega) (by omega)
      obtain ⟨s2, bs2, r2, b2, p2, m2, i2, keep2, new2⟩ := ensureCut_ok b1 p1 hx (p := w + 1) (by omega) (by omega)
      refine ⟨s2, bs2, fun d => ?_, b2, p2, i2 _ m1, m2, fun I k => keep2 I (keep1 I k), ?_⟩
      · unfold withEnds; rw [e]; simp only [Option.isNone_some, Bool.false_eq_true, if_false]
        rw [r1 (d + 1)]; exact r2 (d + 1)
      · rintro I k rfl
        rcases new2 _ k with k' | k'
        · have c1 := (new1 _ k').resolve_left notHas
          -- a cell of the first, with both ends still there
          have bnd := c1.in_bounds p1
          simp only at bnd
          have hi' : hi = w := by omega
          refine ⟨i2 _ c1.lo, i2 _ c1.hi, c1.le, fun z hz => ?_⟩
          -- the second cut adds only a boundary there already is
          have : w + 1 ∈ bs1 := hi' ▸ c1.hi
          have same : s2 = s1 ∧ bs2 = bs1 := by
            have e2 := r2 0
            unfold ensureCut at e2
            rw [p1.cuts] at e2
            simp only [this, if_true, Except.ok.injEq] at e2
            subst e2
            have := p2.cuts; rw [p1.cuts] at this; simp at this
            exact ⟨rfl, this.symm⟩
          rw [same.2] at hz
          exact c1.gap z hz
        · exact k'
  obtain ⟨⟨y, more, ey, cy⟩, l, el, hl⟩ := walk_ok p1.sorted m1 m2 (by omega)
  have kept : Keeps st s1 := ⟨keep, fun _ => by rw [p1.cuts]; simp⟩
  -- one cell
  by_cases k5 : lo = u ∧ hi = w ∧ y = w + 1
  · refine ⟨s1, fun d => ?_, ⟨b1, fun k => by rw [p1.cuts] at k; simp at k, fun bs' k => ?_⟩, kept, fun _ => p1.cells _ ?_, fun _ _ => by rw [p1.cuts]; simp⟩
    · rw [r1 d]
      show (match s1.cuts.map (·.dropWhile (· ≠ u)) with | some (x :: y :: more) => _ | _ => _) = _
      rw [p1.cuts, Option.map_some, ey]
      simp only [k5, and_self, if_true]; rfl
    · rw [p1.cuts] at k; simp at k; subst k; exact p1
    · have : (lo, hi) = (u, y - 1) := Prod.ext k5.1 (by simp only; omega)
      rw [this]; exact cy
  -- several
  have notIn : (lo, hi) ∉ s1.invars := fun k => by
    have c := new _ (.inr k) rfl
    have bnd := c.in_bounds p1
    simp only at bnd
    have e1 : lo = u := by omega
    have e2 : hi = w := by omega
    refine k5 ⟨e1, e2, ?_⟩
    have g1 := c.gap y (by have := cy.hi; simpa using this)
    have g2 := cy.gap (w + 1) m2
    have := cy.le
    simp only at g1 g2 this
    omega
  obtain ⟨b2, g2⟩ := definePlain_ok b1 (s := (lo, hi)) (by simp only; omega) notIn
  let cover : Clause := ⟨false, (lo, hi)⟩ :: l.map (⟨true, ·⟩)
  have sub : ∀ c ∈ s1.clauses, c ∈ (definePlain (lo, hi) s1).clauses ++ [cover] := fun c k => List.mem_append_left _ (g2.clauses c k)
  refine ⟨{ definePlain (lo, hi) s1 with clauses := (definePlain (lo, hi) s1).clauses ++ [cover] }, fun d => ?_, ⟨b2.add ?_ ?_, fun k => ?_, fun bs' k => ?_⟩,
    ⟨fun I k => (g2.has I).2 (.inl (keep I k)), fun _ => ?_⟩, fun _ => (g2.has _).2 (.inr rfl), fun _ _ => ?_⟩
  · rw [r1 d]
    show (match s1.cuts.map (·.dropWhile (· ≠ u)) with | some (x :: y :: more) => _ | _ => _) = _
    rw [p1.cuts, Option.map_some, ey]
    simp only [k5, if_false]
    rw [← ey, el]; rfl
  · intro m hm
    rcases List.mem_cons.1 hm with rfl | hm
    · exact (g2.has _).2 (.inr rfl)
    · obtain ⟨c, k, rfl⟩ := List.mem_map.1 hm
      exact (g2.has c).2 (.inl (p1.cells c ((hl c).1 k).1))
  · intro x q1 q2
    by_cases q : lo ≤ x ∧ x ≤ hi
    · obtain ⟨c, hc, c1, c2⟩ := cell_at p1.sorted m1 m2 (x := x) (by omega) (by omega)
      have t1 := hc.gap u m1
      have t2 := hc.gap (w + 1) m2
      exact ⟨⟨true, c⟩, List.mem_cons_of_mem _ (List.mem_map_of_mem ((hl c).2 ⟨hc, by omega, by omega⟩)), by simp [Lit.Holds, c1, c2]⟩
    · exact ⟨⟨false, (lo, hi)⟩, List.mem_cons_self, by simpa [Lit.Holds] using q⟩
  · have k : (definePlain (lo, hi) s1).cuts = none := k
    rw [g2.cuts, p1.cuts] at k; simp at k
  · have k : (definePlain (lo, hi) s1).cuts = some bs' := k
    rw [g2.cuts, p1.cuts] at k; simp at k; subst k
    refine ⟨by show (definePlain (lo, hi) s1).cuts = _; rw [g2.cuts, p1.cuts], p1.sorted, p1.first, p1.last, p1.within, fun c k => (g2.has c).2 (.inl (p1.cells c k)), ?_, ?_, fun a ha => p1.wipe a (ha.mono sub)⟩
    · intro I hI hm hne
      rcases (g2.has I).1 hI with k | rfl
      · exact p1.ends I k hm hne
      · simp only; rw [eu, ew]; exact ⟨m1, m2⟩
    · intro a ha J hJ hm hne all
      rcases (g2.has J).1 hJ with k | rfl
      · exact p1.covered a (ha.mono sub) J k hm hne all
      · refine ha.cover (ds := l) (List.mem_append_right _ (by simp [cover])) fun c hc => ?_
        have := (hl c).1 hc
        exact all c this.1 (by simp only; omega) (by simp only; omega)
  · show (definePlain (lo, hi) s1).cuts ≠ none
    rw [g2.cuts, p1.cuts]; simp
  · show (definePlain (lo, hi) s1).cuts ≠ none
    rw [g2.cuts, p1.cuts]; simp

theorem inv_empty (lb ub : Int) : Inv lb ub {} where
  base := ⟨by simp, by simp, by simp, by simp, by simp, by simp, by simp, by intro a _ I J h; simp [St.Has] at h⟩
  none := by simp
  part := by simp

/-- The literal that is asked for. -/
def Ask.ivl : Ask → Ivl
  | .eq v => (v, v)
  | .range lo hi => (lo, hi)

theorem asks_ok {lb ub : Int} : ∀ (xs : List Ask) {st : St}, Inv lb ub st → ∃ st', (∀ d, asks lb ub (d + 2) xs st = .ok st') ∧ Inv lb ub st' ∧ Keeps st st' ∧
    ∀ x ∈ xs, (x.ivl.1 ≤ x.ivl.2 → st'.Has x.ivl) ∧ (x.ivl.1 < x.ivl.2 → Meets lb ub x.ivl → st'.cuts ≠ none)
  | [], st, h => ⟨st, fun _ => rfl, h, ⟨fun _ k => k, fun k => k⟩, by simp⟩
  | x :: xs, st, h => by
    obtain ⟨s1, r1, i1, k1, m1⟩ : ∃ s1, (∀ d, ask lb ub (d + 2) x st = .ok s1) ∧ Inv lb ub s1 ∧ Keeps st s1 ∧
        (x.ivl.1 ≤ x.ivl.2 → s1.Has x.ivl) ∧ (x.ivl.1 < x.ivl.2 → Meets lb ub x.ivl → s1.cuts ≠ none) := by
      cases x with
      | eq v =>
        obtain ⟨s1, r, i, k, m⟩ := needDirect_ok h v
        exact ⟨s1, r, i, k, fun _ => m, fun k => by simp [Ask.ivl] at k⟩
      | range lo hi =>
        obtain ⟨s1, r, i, k, m, m'⟩ := needInvar_ok h lo hi
        exact ⟨s1, r, i, k, m, m'⟩
    obtain ⟨s2, r2, i2, k2, m2⟩ := asks_ok xs i1
    refine ⟨s2, fun d => ?_, i2, ⟨fun I k => k2.has I (k1.has I k), fun k => k2.part (k1.part k)⟩, fun y hy => ?_⟩
    · unfold asks; rw [r1 d]; exact r2 d
    · rcases List.mem_cons.1 hy with rfl | hy
      · exact ⟨fun k => k2.has _ (m1.1 k), fun k k' => k2.part (m1.2 k k')⟩
      · exact m2 y hy

end Gcs.Ranges
