import Verif.Lemmas.PbBits

/-! What a session knows, and what its rows say, call by call: literals. -/

namespace Gcs.Pb

variable {s s' s'' : Session} {α β : Bools} {w : Vals}

theorem upd_same {A B : Type} [DecidableEq A] (f : A → B) (x : A) (y : B) : upd f x y x = y := by simp [upd]
theorem upd_other {A B : Type} [DecidableEq A] (f : A → B) {x z : A} (y : B) (h : z ≠ x) : upd f x y z = f z := by simp [upd, h]

/-- Every literal is named after what it means, and about a variable that was set up. -/
structure WF (s : Session) : Prop where
  bits : ∀ p b, s.t.bits p = some b → ∃ l u, s.bounds p = some (l, u) ∧ InI64 u ∧ registerBits p l u = .ok b
  ge : ∀ p v x, s.t.ge p v = some x → x = ⟨.ge p v, false⟩ ∧ (s.t.bits p).isSome
  eq : ∀ p v x, s.t.eq p v = some x → s.Known p ∧ (x = ⟨.eq p v, false⟩ ∨ (s.bounds p = some (0, 1) ∧ (s.t.bits p).isSome ∧ (v = 1 ∧ x = ⟨.bit p 0, false⟩ ∨ v = 0 ∧ x = ⟨.bit p 0, true⟩)))
  within : ∀ p lo hi x, s.t.within p lo hi = some x → x = ⟨.within p lo hi, false⟩ ∧ s.Known p
  view : ∀ i neg add k, s.t.view i neg add = some k → s.Known (.real i) ∧ s.Known (.aux k)
  aux : ∀ k, s.Known (.aux k) → k < s.nextAux
  asked : ∀ a ∈ s.asked, (∀ x ∈ a.ineq.lhs, ∀ p ∈ x.2.vars, s.Known p) ∧ ∀ r ∈ a.reifs.getD [], ∀ p ∈ (Term.item r).vars, s.Known p
  compact : s.compact = true → ∀ p, s.Known p → s.bounded p = true
  bounded : ∀ p, s.bounded p = true → s.Known p
  /-- a variable without bits has a literal for each value -/
  direct : ∀ p l u, s.bounds p = some (l, u) → s.t.bits p = none → s.bounded p = true ∧ ∀ v, l ≤ v → v ≤ u → (s.t.eq p v).isSome

theorem WF.known (wf : WF s) {p : PVar} {b : Bits} (h : s.t.bits p = some b) : s.Known p := by
  obtain ⟨l, u, h, _⟩ := wf.bits p b h
  simp [Session.Known, h]

theorem WF.known' (wf : WF s) {p : PVar} (h : (s.t.bits p).isSome) : s.Known p := by
  obtain ⟨b, hb⟩ := Option.isSome_iff_exists.1 h
  exact wf.known hb

/-- Nothing but names of literals was added, and the rows say what these mean. -/
structure Grows (s s' : Session) : Prop where
  wf : WF s'
  bits : s'.t.bits = s.t.bits
  bounds : s'.bounds = s.bounds
  compact : s'.compact = s.compact
  inProof : s'.inProof = s.inProof
  asked : s'.asked = s.asked
  ge : ∀ p v, (s.t.ge p v).isSome → s'.t.ge p v = s.t.ge p v
  rows : ∃ rs, s'.rows = s.rows ++ rs ∧ ∀ α w, Good s' α w ↔ Good s α w ∧ ∀ r ∈ rs, r.Holds α

theorem Grows.refl (wf : WF s) : Grows s s := ⟨wf, rfl, rfl, rfl, rfl, rfl, fun _ _ _ => rfl, [], by simp, fun α w => by simp⟩

theorem Grows.trans (h : Grows s s') (h' : Grows s' s'') : Grows s s'' := by
  obtain ⟨rs, hr, hg⟩ := h.rows
  obtain ⟨rs', hr', hg'⟩ := h'.rows
  refine ⟨h'.wf, h'.bits.trans h.bits, h'.bounds.trans h.bounds, h'.compact.trans h.compact, h'.inProof.trans h.inProof, h'.asked.trans h.asked, fun p v hs => ?_, rs ++ rs', by rw [hr', hr, List.append_assoc], fun α w => ?_⟩
  · rw [← h.ge p v hs]; exact h'.ge p v (by rw [h.ge p v hs]; exact hs)
  · rw [hg', hg, and_assoc]
    simp only [List.mem_append, or_imp, forall_and]

/-- What is asked depends on the bits only. -/
theorem item_congr {t t' : Tracker} {w w' : Vals} (r : PItem) (hb : ∀ p ∈ (Term.item r).vars, t'.bits p = t.bits p) (hw : ∀ p ∈ (Term.item r).vars, w' p = w p) :
    r.Holds t' α w' ↔ r.Holds t α w := by
  cases r with
  | flag n b => rfl
  | bit p k b =>
    have := hb p (List.mem_singleton.2 rfl)
    simp only [PItem.Holds, this]
  | lit l =>
    cases l with
    | aux i op v u =>
      have := hw (.aux i) (List.mem_singleton.2 rfl)
      simp only [PItem.Holds, PLit.Holds, this]
    | lit l =>
      cases l with
      | tt => rfl
      | ff => rfl
      | cond c =>
        obtain ⟨v, op, x, u⟩ := c
        cases v with
        | const c => rfl
        | simple i =>
          have := hw (.real i) (by simp [Term.vars])
          simp only [PItem.Holds, PLit.Holds, Lit.holds, Cond.holds, VarId.eval, Vals.asg, this]
        | view i neg add =>
          have := hw (.real i) (by simp [Term.vars])
          simp only [PItem.Holds, PLit.Holds, Lit.holds, Cond.holds, VarId.eval, Vals.asg, this]

theorem term_congr {t t' : Tracker} {w w' : Vals} (r : Term) (hb : ∀ p ∈ r.vars, t'.bits p = t.bits p) (hw : ∀ p ∈ r.vars, w' p = w p) :
    r.value t' α w' = r.value t α w := by
  cases r with
  | aux i => exact hw (.aux i) (List.mem_singleton.2 rfl)
  | item i => simp only [Term.value, item_congr i hb hw]
  | var v =>
    cases v with
    | const c => rfl
    | simple i =>
      have := hw (.real i) (by simp [Term.vars])
      simp only [Term.value, VarId.eval, Vals.asg, this]
    | view i neg add =>
      have := hw (.real i) (by simp [Term.vars])
      simp only [Term.value, VarId.eval, Vals.asg, this]

theorem total_congr {t t' : Tracker} {w w' : Vals} : ∀ (l : List (Int × Term)), (∀ x ∈ l, ∀ p ∈ x.2.vars, t'.bits p = t.bits p) → (∀ x ∈ l, ∀ p ∈ x.2.vars, w' p = w p) →
    total t' α w' l = total t α w l
  | [], _, _ => rfl
  | (c, v) :: l, hb, hw => by
    rw [total, total, term_congr v (hb _ (List.mem_cons_self ..)) (hw _ (List.mem_cons_self ..)),
      total_congr l (fun x hx => hb x (List.mem_cons_of_mem _ hx)) (fun x hx => hw x (List.mem_cons_of_mem _ hx))]

theorem asked_congr {t t' : Tracker} {w w' : Vals} (a : Asked) (P : PVar → Prop) (hP : (∀ x ∈ a.ineq.lhs, ∀ p ∈ x.2.vars, P p) ∧ ∀ r ∈ a.reifs.getD [], ∀ p ∈ (Term.item r).vars, P p)
    (hb : ∀ p, P p → t'.bits p = t.bits p) (hw : ∀ p, P p → w' p = w p) : a.Holds t' α w' ↔ a.Holds t α w := by
  unfold Asked.Holds Ineq.Holds
  rw [total_congr a.ineq.lhs (fun x hx p hp => hb p (hP.1 x hx p hp)) (fun x hx p hp => hw p (hP.1 x hx p hp))]
  have : (∀ r ∈ a.reifs.getD [], r.Holds t' α w') ↔ (∀ r ∈ a.reifs.getD [], r.Holds t α w) :=
    forall₂_congr fun r hr => item_congr r (fun p hp => hb p (hP.2 r hr p hp)) (fun p hp => hw p (hP.2 r hr p hp))
  rw [this]

theorem asked_same {t t' : Tracker} (a : Asked) (hb : t'.bits = t.bits) : a.Holds t' α w ↔ a.Holds t α w :=
  asked_congr a (fun _ => True) ⟨fun _ _ _ _ => trivial, fun _ _ _ _ => trivial⟩ (fun _ _ => by rw [hb]) (fun _ _ => rfl)

/-- Good, in parts. -/
theorem good_iff : Good s α w ↔ Means s.t α w ∧ InBounds s w ∧ ∀ a ∈ s.asked, a.Holds s.t α w := ⟨fun h => ⟨h.1, h.2, h.3⟩, fun h => ⟨h.1, h.2.1, h.2.2⟩⟩
theorem means_iff {t : Tracker} : Means t α w ↔ (∀ p b, t.bits p = some b → sum α b = w p) ∧ (∀ p v x, t.ge p v = some x → (x.Holds α ↔ v ≤ w p)) ∧
    (∀ p v x, t.eq p v = some x → (x.Holds α ↔ w p = v)) ∧ (∀ p lo hi x, t.within p lo hi = some x → (x.Holds α ↔ lo ≤ w p ∧ w p ≤ hi)) ∧
    (∀ i neg add k, t.view i neg add = some k → w (.aux k) = (VarId.view i neg add).eval w.asg) :=
  ⟨fun h => ⟨h.1, h.2, h.3, h.4, h.5⟩, fun h => ⟨h.1, h.2.1, h.2.2.1, h.2.2.2.1, h.2.2.2.2⟩⟩

/-! ## Naming a literal -/

theorem storeGe_at (p : PVar) (v : Int) : (s.storeGe p v).t.ge p v = some ⟨.ge p v, false⟩ := by simp [Session.storeGe, upd]

theorem storeGe_cases {p q : PVar} {v v' : Int} {x : XLit} : (s.storeGe p v).t.ge q v' = some x ↔ (q = p ∧ v' = v ∧ x = ⟨.ge p v, false⟩) ∨ (¬ (q = p ∧ v' = v) ∧ s.t.ge q v' = some x) := by
  simp only [Session.storeGe, upd]
  by_cases hq : q = p
  · subst hq
    by_cases hv : v' = v
    · subst hv; simp [upd, eq_comm]
    · simp [upd, hv]
  · simp [hq]

theorem good_ge (wf : WF s) (p : PVar) (v : Int) : Good (s.storeGe p v) α w ↔ Good s α w ∧ ((⟨.ge p v, false⟩ : XLit).Holds α ↔ v ≤ w p) := by
  have hge : (∀ q v' x, (s.storeGe p v).t.ge q v' = some x → (x.Holds α ↔ v' ≤ w q)) ↔
      (∀ q v' x, s.t.ge q v' = some x → (x.Holds α ↔ v' ≤ w q)) ∧ ((⟨.ge p v, false⟩ : XLit).Holds α ↔ v ≤ w p) := by
    constructor
    · intro h
      have h0 := h p v _ (storeGe_at p v)
      refine ⟨fun q v' x hx => ?_, h0⟩
      by_cases hc : q = p ∧ v' = v
      · obtain ⟨rfl, rfl⟩ := hc
        rw [(wf.ge _ _ _ hx).1]; exact h0
      · exact h q v' x (storeGe_cases.2 (.inr ⟨hc, hx⟩))
    · rintro ⟨h, h0⟩ q v' x hx
      rcases storeGe_cases.1 hx with ⟨rfl, rfl, rfl⟩ | ⟨_, hx⟩
      · exact h0
      · exact h q v' x hx
  rw [good_iff, good_iff, means_iff, means_iff, hge]
  have ha : (∀ a ∈ (s.storeGe p v).asked, a.Holds (s.storeGe p v).t α w) ↔ ∀ a ∈ s.asked, a.Holds s.t α w :=
    forall₂_congr fun a _ => asked_same a rfl
  rw [ha]
  have hb : InBounds (s.storeGe p v) w ↔ InBounds s w := Iff.rfl
  rw [hb]
  constructor
  · rintro ⟨⟨a, ⟨b, c⟩, d⟩, e, f⟩; exact ⟨⟨⟨a, b, d⟩, e, f⟩, c⟩
  · rintro ⟨⟨⟨a, b, d⟩, e, f⟩, c⟩; exact ⟨⟨a, ⟨b, c⟩, d⟩, e, f⟩

theorem wf_ge (wf : WF s) {p : PVar} {v : Int} (hb : (s.t.bits p).isSome) : WF (s.storeGe p v) := by
  refine { wf with ge := fun q v' x hx => ?_ }
  rcases storeGe_cases.1 hx with ⟨rfl, rfl, rfl⟩ | ⟨_, hx⟩
  · exact ⟨rfl, hb⟩
  · exact wf.ge q v' x hx

theorem storeEq_cases {p q : PVar} {v v' : Int} {y x : XLit} (hn : s.t.eq p v = none) :
    (s.storeEq p v y).t.eq q v' = some x ↔ (q = p ∧ v' = v ∧ x = y) ∨ (¬ (q = p ∧ v' = v) ∧ s.t.eq q v' = some x) := by
  simp only [Session.storeEq, upd]
  by_cases hq : q = p
  · subst hq
    by_cases hv : v' = v
    · subst hv; simp [upd, hn, eq_comm]
    · simp [upd, hv]
  · simp [hq]

theorem storeEq_at {p : PVar} {v : Int} {y : XLit} (hn : s.t.eq p v = none) : (s.storeEq p v y).t.eq p v = some y := by simp [Session.storeEq, upd, hn]

theorem good_eq {p : PVar} {v : Int} {y : XLit} (hn : s.t.eq p v = none) : Good (s.storeEq p v y) α w ↔ Good s α w ∧ (y.Holds α ↔ w p = v) := by
  have heq : (∀ q v' x, (s.storeEq p v y).t.eq q v' = some x → (x.Holds α ↔ w q = v')) ↔
      (∀ q v' x, s.t.eq q v' = some x → (x.Holds α ↔ w q = v')) ∧ (y.Holds α ↔ w p = v) := by
    constructor
    · intro h
      refine ⟨fun q v' x hx => ?_, h p v _ (storeEq_at hn)⟩
      by_cases hc : q = p ∧ v' = v
      · obtain ⟨rfl, rfl⟩ := hc
        rw [hn] at hx; cases hx
      · exact h q v' x ((storeEq_cases hn).2 (.inr ⟨hc, hx⟩))
    · rintro ⟨h, h0⟩ q v' x hx
      rcases (storeEq_cases hn).1 hx with ⟨rfl, rfl, rfl⟩ | ⟨_, hx⟩
      · exact h0
      · exact h q v' x hx
  rw [good_iff, good_iff, means_iff, means_iff, heq]
  have ha : (∀ a ∈ (s.storeEq p v y).asked, a.Holds (s.storeEq p v y).t α w) ↔ ∀ a ∈ s.asked, a.Holds s.t α w :=
    forall₂_congr fun a _ => asked_same a rfl
  rw [ha]
  have hb : InBounds (s.storeEq p v y) w ↔ InBounds s w := Iff.rfl
  rw [hb]
  constructor
  · rintro ⟨⟨a, b, ⟨c, d⟩, e⟩, f, g⟩; exact ⟨⟨⟨a, b, c, e⟩, f, g⟩, d⟩
  · rintro ⟨⟨⟨a, b, c, e⟩, f, g⟩, d⟩; exact ⟨⟨a, b, ⟨c, d⟩, e⟩, f, g⟩

theorem wf_eq (wf : WF s) {p : PVar} {v : Int} (hn : s.t.eq p v = none) (hk : s.Known p) : WF (s.storeEq p v ⟨.eq p v, false⟩) := by
  refine { wf with eq := fun q v' x hx => ?_, direct := fun q l u hb hz => ⟨(wf.direct q l u hb hz).1, fun v' h1 h2 => ?_⟩ }
  · rcases (storeEq_cases hn).1 hx with ⟨rfl, rfl, rfl⟩ | ⟨_, hx⟩
    · exact ⟨hk, .inl rfl⟩
    · exact wf.eq q v' x hx
  · by_cases hc : q = p ∧ v' = v
    · obtain ⟨rfl, rfl⟩ := hc
      rw [storeEq_at hn]; rfl
    · obtain ⟨x, hx⟩ := Option.isSome_iff_exists.1 ((wf.direct q l u hb hz).2 v' h1 h2)
      rw [(storeEq_cases hn).2 (.inr ⟨hc, hx⟩)]; rfl

theorem storeWithin_cases (wf : WF s) {p q : PVar} {lo hi lo' hi' : Int} {x : XLit} :
    (s.storeWithin p lo hi).t.within q lo' hi' = some x ↔ (q = p ∧ lo' = lo ∧ hi' = hi ∧ x = ⟨.within p lo hi, false⟩) ∨ (¬ (q = p ∧ lo' = lo ∧ hi' = hi) ∧ s.t.within q lo' hi' = some x) := by
  simp only [Session.storeWithin, upd]
  by_cases hq : q = p
  · subst hq
    by_cases hl : lo' = lo
    · subst hl
      by_cases hh : hi' = hi
      · subst hh
        cases h : s.t.within q lo' hi' with
        | none => simp [upd, eq_comm]
        | some y => simp [upd, (wf.within _ _ _ _ h).1, eq_comm]
      · simp [upd, hh]
    · simp [upd, hl]
  · simp [hq]

theorem storeWithin_at (wf : WF s) (p : PVar) (lo hi : Int) : (s.storeWithin p lo hi).t.within p lo hi = some ⟨.within p lo hi, false⟩ :=
  (storeWithin_cases wf).2 (.inl ⟨rfl, rfl, rfl, rfl⟩)

theorem good_within (wf : WF s) (p : PVar) (lo hi : Int) : Good (s.storeWithin p lo hi) α w ↔ Good s α w ∧ ((⟨.within p lo hi, false⟩ : XLit).Holds α ↔ lo ≤ w p ∧ w p ≤ hi) := by
  have hge : (∀ q lo' hi' x, (s.storeWithin p lo hi).t.within q lo' hi' = some x → (x.Holds α ↔ lo' ≤ w q ∧ w q ≤ hi')) ↔
      (∀ q lo' hi' x, s.t.within q lo' hi' = some x → (x.Holds α ↔ lo' ≤ w q ∧ w q ≤ hi')) ∧ ((⟨.within p lo hi, false⟩ : XLit).Holds α ↔ lo ≤ w p ∧ w p ≤ hi) := by
    constructor
    · intro h
      have h0 := h p lo hi _ (storeWithin_at wf p lo hi)
      refine ⟨fun q lo' hi' x hx => ?_, h0⟩
      by_cases hc : q = p ∧ lo' = lo ∧ hi' = hi
      · obtain ⟨rfl, rfl, rfl⟩ := hc
        rw [(wf.within _ _ _ _ hx).1]; exact h0
      · exact h q lo' hi' x ((storeWithin_cases wf).2 (.inr ⟨hc, hx⟩))
    · rintro ⟨h, h0⟩ q lo' hi' x hx
      rcases (storeWithin_cases wf).1 hx with ⟨rfl, rfl, rfl, rfl⟩ | ⟨_, hx⟩
      · exact h0
      · exact h q lo' hi' x hx
  rw [good_iff, good_iff, means_iff, means_iff, hge]
  have ha : (∀ a ∈ (s.storeWithin p lo hi).asked, a.Holds (s.storeWithin p lo hi).t α w) ↔ ∀ a ∈ s.asked, a.Holds s.t α w :=
    forall₂_congr fun a _ => asked_same a rfl
  rw [ha]
  have hb : InBounds (s.storeWithin p lo hi) w ↔ InBounds s w := Iff.rfl
  rw [hb]
  constructor
  · rintro ⟨⟨a, b, c, ⟨d, d'⟩, e⟩, f, g⟩; exact ⟨⟨⟨a, b, c, d, e⟩, f, g⟩, d'⟩
  · rintro ⟨⟨⟨a, b, c, d, e⟩, f, g⟩, d'⟩; exact ⟨⟨a, b, c, ⟨d, d'⟩, e⟩, f, g⟩

theorem wf_within (wf : WF s) {p : PVar} (lo hi : Int) (hk : s.Known p) : WF (s.storeWithin p lo hi) := by
  refine { wf with within := fun q lo' hi' x hx => ?_ }
  rcases (storeWithin_cases wf).1 hx with ⟨rfl, rfl, rfl, rfl⟩ | ⟨_, hx⟩
  · exact ⟨rfl, hk⟩
  · exact wf.within q lo' hi' x hx

/-! ## Order literals -/

/-- Storing a literal, adding its rows, noting the value. -/
theorem ge_step (wf : WF s) {p : PVar} {v : Int} {q : Row × Row} (hn : s.t.ge p v = none) {b : Bool} (hbp : s.inProof = b)
    (h : (if b then geRowsRed (s.storeGe p v).t p v else geRows (s.storeGe p v).t p v) = .ok q) :
    Grows s (((s.storeGe p v).addRows q).noteGe p v) ∧ (s.t.bits p).isSome := by
  have hb : ∃ b', (s.storeGe p v).t.bits p = some b' := by
    cases b
    · exact geRows_bits h
    · exact geRowsRed_bits h
  obtain ⟨bs, hbs⟩ := hb
  have hbs' : s.t.bits p = some bs := hbs
  have rows : ∀ α, (q.1.Holds α ∧ q.2.Holds α) ↔ ((⟨.ge p v, false⟩ : XLit).Holds α ↔ v ≤ sum α bs) := by
    intro α
    cases b
    · exact geRows_ok hbs (storeGe_at p v) h
    · exact geRowsRed_ok hbs (storeGe_at p v) h
  have hk : (s.t.bits p).isSome := by rw [hbs']; rfl
  have w1 := wf_ge (v := v) wf hk
  refine ⟨⟨{ w1 with }, rfl, rfl, rfl, rfl, rfl, fun p' v' hs => ?_, [q.1, q.2], rfl, fun α w => ?_⟩, hk⟩
  · obtain ⟨x, hx⟩ := Option.isSome_iff_exists.1 hs
    rw [hx]
    refine storeGe_cases.2 (.inr ⟨?_, hx⟩)
    rintro ⟨rfl, rfl⟩
    rw [hn] at hx; cases hx
  · have hg := good_ge (α := α) (w := w) wf p v
    have : Good (((s.storeGe p v).addRows q).noteGe p v) α w ↔ Good (s.storeGe p v) α w := ⟨fun h => ⟨h.1, h.2, h.3⟩, fun h => ⟨h.1, h.2, h.3⟩⟩
    rw [this, hg]
    refine and_congr_right fun hgood => ?_
    have := rows α
    rw [hgood.means.bits p bs hbs'] at this
    rw [← this]
    simp

theorem needGe_grows (fuel : Nat) :
    (∀ (s : Session) p v s', WF s → s.needGe fuel p v = .ok s' → Grows s s' ∧ s'.t.eq = s.t.eq ∧ (s'.t.ge p v).isSome) ∧
    (∀ ks (s : Session) v s', WF s → Session.needGes fuel ks s v = .ok s' → Grows s s' ∧ s'.t.eq = s.t.eq) := by
  induction fuel with
  | zero =>
    refine ⟨fun s p v s' _ h => ?_, fun ks s v s' wf h => ?_⟩
    · rw [Session.needGe] at h; cases h
    · cases ks with
      | nil => rw [Session.needGes] at h; cases h; exact ⟨.refl wf, rfl⟩
      | cons k ks => rw [Session.needGes] at h; cases h; simp
  | succ fuel ih =>
    obtain ⟨ih1, ih2⟩ := ih
    refine ⟨fun s p v s' wf h => ?_, fun ks s v s' wf h => ?_⟩
    · rw [Session.needGe] at h
      split at h
      · rename_i hs
        cases h; exact ⟨.refl wf, rfl, hs⟩
      · rename_i hs
        have hn : s.t.ge p v = none := by simpa using hs
        obtain ⟨q, hq, h⟩ := bindOk h
        have hst := ge_step wf hn rfl hq
        have hat : ((((s.storeGe p v).addRows q).noteGe p v).t.ge p v) = some ⟨.ge p v, false⟩ := storeGe_at p v
        dsimp only at h
        generalize hs1 : ((s.storeGe p v).addRows q).noteGe p v = s1 at h hst hat
        have heq : s1.t.eq = s.t.eq := by rw [← hs1]; rfl
        have fin : ∀ s2, Grows s1 s2 → s2.t.eq = s1.t.eq → Grows s s2 ∧ s2.t.eq = s.t.eq ∧ (s2.t.ge p v).isSome := by
          intro s2 g e
          exact ⟨hst.1.trans g, e.trans heq, by rw [g.ge p v (by rw [hat]; rfl), hat]; rfl⟩
        cases p with
        | aux k =>
          dsimp only at h
          split at h
          · obtain ⟨x, hx, h⟩ := bindOk h
            obtain ⟨g, e, _⟩ := ih1 _ _ _ _ hst.1.wf h
            exact fin _ g e
          · cases h
            exact fin _ (.refl hst.1.wf) rfl
        | real i =>
          obtain ⟨g, e⟩ := ih2 _ _ _ _ hst.1.wf h
          exact fin _ g e
    · cases ks with
      | nil => rw [Session.needGes] at h; cases h; exact ⟨.refl wf, rfl⟩
      | cons k ks =>
        rw [Session.needGes] at h
        split at h
        · obtain ⟨x, hx, h⟩ := bindOk h
          obtain ⟨s1, h1, h⟩ := bindOk h
          obtain ⟨g, e, _⟩ := ih1 _ _ _ _ wf h1
          obtain ⟨g', e'⟩ := ih2 _ _ _ _ g.wf h
          exact ⟨g.trans g', e'.trans e⟩
        · cases h

/-! ## Equalities -/

theorem needGesFor_grows {fuel : Nat} {p : PVar} {v : Int} (wf : WF s) (h : s.needGesFor fuel p v = .ok s') :
    Grows s s' ∧ s'.t.eq = s.t.eq ∧
    ((s.eqBounds p).map Prod.fst ≠ some v → (s'.t.ge p v).isSome) ∧
    (((s.eqBounds p).map Prod.fst = some v ∨ (s.eqBounds p).map Prod.snd ≠ some v) → (s'.t.ge p (v + 1)).isSome) := by
  unfold Session.needGesFor at h
  obtain ⟨n, hn, h⟩ := bindOk h
  have e := iAdd_eq hn
  subst e
  split at h
  · rename_i h1
    obtain ⟨g, e, k⟩ := (needGe_grows fuel).1 _ _ _ _ wf h
    exact ⟨g, e, fun h2 => absurd h1 h2, fun _ => k⟩
  · rename_i h1
    split at h
    · rename_i h2
      obtain ⟨g, e, k⟩ := (needGe_grows fuel).1 _ _ _ _ wf h
      exact ⟨g, e, fun _ => k, fun h3 => absurd h3 (by rintro (h3 | h3); exact h1 h3; exact h3 h2)⟩
    · obtain ⟨s1, h1', h⟩ := bindOk h
      obtain ⟨g, e, k⟩ := (needGe_grows fuel).1 _ _ _ _ wf h1'
      obtain ⟨g', e', k'⟩ := (needGe_grows fuel).1 _ _ _ _ g.wf h
      exact ⟨g.trans g', e'.trans e, fun _ => by rw [g'.ge p v k]; exact k, fun _ => k'⟩

theorem eq_step (wf : WF s) {p : PVar} {v : Int} {q : Row × Row} (hn : s.t.eq p v = none) {b : Bool}
    (h1 : (s.eqBounds p).map Prod.fst ≠ some v → (s.t.ge p v).isSome)
    (h2 : ((s.eqBounds p).map Prod.fst = some v ∨ (s.eqBounds p).map Prod.snd ≠ some v) → (s.t.ge p (v + 1)).isSome)
    (h : (if b then eqRowsRed (s.storeEq p v ⟨.eq p v, false⟩).t p v (s.eqBounds p) else eqRows (s.storeEq p v ⟨.eq p v, false⟩).t p v (s.eqBounds p)) = .ok q) :
    Grows s (((s.storeEq p v ⟨.eq p v, false⟩).addRows q).noteEq p v) := by
  have hk : s.Known p := by
    by_cases hc : (s.eqBounds p).map Prod.fst = some v
    · obtain ⟨x, hx⟩ := Option.isSome_iff_exists.1 (h2 (.inl hc))
      exact wf.known' (wf.ge _ _ _ hx).2
    · obtain ⟨x, hx⟩ := Option.isSome_iff_exists.1 (h1 hc)
      exact wf.known' (wf.ge _ _ _ hx).2
  have w1 := wf_eq wf hn hk
  refine ⟨{ w1 with }, rfl, rfl, rfl, rfl, rfl, fun p' v' hs => rfl, [q.1, q.2], rfl, fun α w => ?_⟩
  have : Good (((s.storeEq p v ⟨.eq p v, false⟩).addRows q).noteEq p v) α w ↔ Good (s.storeEq p v ⟨.eq p v, false⟩) α w := ⟨fun h => ⟨h.1, h.2, h.3⟩, fun h => ⟨h.1, h.2, h.3⟩⟩
  rw [this, good_eq hn]
  refine and_congr_right fun hgood => ?_
  have needs : EqNeeds (s.storeEq p v ⟨.eq p v, false⟩).t α p v (s.eqBounds p) (w p) := by
    have hbd : ∀ l u, s.eqBounds p = some (l, u) → l ≤ w p ∧ w p ≤ u := by
      intro l u hlu
      unfold Session.eqBounds at hlu
      split at hlu
      · rename_i hc
        exact hgood.bounds p l u hlu (wf.compact hc p hk)
      · cases hlu
    refine ⟨fun h => ?_, fun h => ?_, fun h => ?_, fun h => ?_⟩
    · obtain ⟨⟨l, u⟩, hlu, rfl⟩ := Option.map_eq_some_iff.1 h
      exact (hbd l u hlu).1
    · obtain ⟨⟨l, u⟩, hlu, rfl⟩ := Option.map_eq_some_iff.1 h
      exact (hbd l u hlu).2
    · obtain ⟨x, hx⟩ := Option.isSome_iff_exists.1 (h1 h)
      exact ⟨x, hx, hgood.means.ge _ _ _ hx⟩
    · obtain ⟨x, hx⟩ := Option.isSome_iff_exists.1 (h2 h)
      exact ⟨x, hx, hgood.means.ge _ _ _ hx⟩
  have rows : (q.1.Holds α ∧ q.2.Holds α) ↔ ((⟨.eq p v, false⟩ : XLit).Holds α ↔ w p = v) := by
    cases b
    · exact eqRows_ok (storeEq_at hn) needs h
    · exact eqRowsRed_ok (storeEq_at hn) needs h
  rw [← rows]
  simp

theorem Grows.eqBounds (g : Grows s s') (p : PVar) : s'.eqBounds p = s.eqBounds p := by unfold Session.eqBounds; rw [g.compact, g.bounds]

theorem needEq_grows (fuel : Nat) :
    (∀ (s : Session) p v s', WF s → s.needEq fuel p v = .ok s' → Grows s s') ∧
    (∀ ks (s : Session) v s', WF s → Session.needEqs fuel ks s v = .ok s' → Grows s s') := by
  induction fuel with
  | zero =>
    refine ⟨fun s p v s' _ h => ?_, fun ks s v s' wf h => ?_⟩
    · rw [Session.needEq] at h; cases h
    · cases ks with
      | nil => rw [Session.needEqs] at h; cases h; exact .refl wf
      | cons k ks => rw [Session.needEqs] at h; cases h; simp
  | succ fuel ih =>
    obtain ⟨ih1, ih2⟩ := ih
    refine ⟨fun s p v s' wf h => ?_, fun ks s v s' wf h => ?_⟩
    · rw [Session.needEq] at h
      split at h
      · cases h; exact .refl wf
      · rename_i hs
        have hn : s.t.eq p v = none := by simpa using hs
        obtain ⟨s1, hs1, h⟩ := bindOk h
        obtain ⟨g, e, k1, k2⟩ := needGesFor_grows wf hs1
        rw [← g.eqBounds] at k1 k2
        obtain ⟨q, hq, h⟩ := bindOk h
        have hst := g.trans (eq_step (b := s1.inProof) g.wf (by rw [e]; exact hn) k1 k2 hq)
        dsimp only at h
        generalize ((s1.storeEq p v ⟨.eq p v, false⟩).addRows q).noteEq p v = s2 at h hst
        cases p with
        | aux k =>
          dsimp only at h
          split at h
          · obtain ⟨x, hx, h⟩ := bindOk h
            exact hst.trans (ih1 _ _ _ _ hst.wf h)
          · cases h
            exact hst
        | real i => exact hst.trans (ih2 _ _ _ _ hst.wf h)
    · cases ks with
      | nil => rw [Session.needEqs] at h; cases h; exact .refl wf
      | cons k ks =>
        rw [Session.needEqs] at h
        split at h
        · obtain ⟨x, hx, h⟩ := bindOk h
          obtain ⟨s1, h1, h⟩ := bindOk h
          have g := ih1 _ _ _ _ wf h1
          exact g.trans (ih2 _ _ _ _ g.wf h)
        · cases h

/-! ## Intervals -/

theorem definePlain_grows {fuel : Nat} {p : PVar} {lo hi : Int} (wf : WF s) (hlt : lo < hi) (h : s.definePlain fuel p lo hi = .ok s') : Grows s s' := by
  unfold Session.definePlain at h
  split at h
  · cases h
  obtain ⟨s1, h1, h⟩ := bindOk h
  obtain ⟨n, hn, h⟩ := bindOk h
  have e := iAdd_eq hn
  subst e
  obtain ⟨s2, h2, h⟩ := bindOk h
  obtain ⟨q, hq, h⟩ := bindOk h
  cases h
  obtain ⟨g1, _, k1⟩ := (needGe_grows fuel).1 _ _ _ _ wf h1
  obtain ⟨g2, _, k2⟩ := (needGe_grows fuel).1 _ _ _ _ g1.wf h2
  rw [← g2.ge p lo k1] at k1
  obtain ⟨a, ha⟩ := Option.isSome_iff_exists.1 k1
  obtain ⟨b, hb⟩ := Option.isSome_iff_exists.1 k2
  have hk : s2.Known p := g2.wf.known' (g2.wf.ge _ _ _ ha).2
  refine (g1.trans g2).trans ⟨{ wf_within g2.wf lo hi hk with }, rfl, rfl, rfl, rfl, rfl, fun _ _ _ => rfl, [q.1, q.2], rfl, fun α w => ?_⟩
  have : Good ((s2.storeWithin p lo hi).addRows q) α w ↔ Good (s2.storeWithin p lo hi) α w := ⟨fun h => ⟨h.1, h.2, h.3⟩, fun h => ⟨h.1, h.2, h.3⟩⟩
  rw [this, good_within g2.wf]
  refine and_congr_right fun hgood => ?_
  rw [← withinRows_ok (t := (s2.storeWithin p lo hi).t) hlt (storeWithin_at g2.wf p lo hi) ha hb (hgood.means.ge _ _ _ ha) (hgood.means.ge _ _ _ hb) hq]
  simp

theorem needWithin_grows {fuel : Nat} {p : PVar} {lo hi : Int} (wf : WF s) (h : s.needWithin fuel p lo hi = .ok s') : Grows s s' := by
  unfold Session.needWithin at h
  split at h
  · cases h; exact .refl wf
  split at h
  · exact (needEq_grows fuel).1 _ _ _ _ wf h
  split at h
  · cases h; exact .refl wf
  split at h
  · cases h
  split at h
  · cases h
  exact definePlain_grows wf (by omega) h

theorem needName_grows {fuel : Nat} {l : SLit} (wf : WF s) (h : s.needName fuel l = .ok s') : Grows s s' := by
  cases l with
  | tt => cases h; exact .refl wf
  | ff => cases h; exact .refl wf
  | cond p op v u =>
    cases op with
    | equal => exact (needEq_grows fuel).1 _ _ _ _ wf h
    | notEqual => exact (needEq_grows fuel).1 _ _ _ _ wf h
    | less => exact ((needGe_grows fuel).1 _ _ _ _ wf h).1
    | greaterEqual => exact ((needGe_grows fuel).1 _ _ _ _ wf h).1
    | inRange => exact needWithin_grows wf h
    | notInRange => exact needWithin_grows wf h

theorem backfillGe_grows {fuel k : Nat} {neg : Bool} {add : Int} : ∀ {vs : List Int} {s s' : Session}, WF s → Session.backfillGe fuel k neg add vs s = .ok s' → Grows s s'
  | [], s, s', wf, h => by rw [Session.backfillGe] at h; cases h; exact .refl wf
  | v :: vs, s, s', wf, h => by
    rw [Session.backfillGe] at h
    obtain ⟨x, hx, h⟩ := bindOk h
    obtain ⟨s1, h1, h⟩ := bindOk h
    have g := ((needGe_grows fuel).1 _ _ _ _ wf h1).1
    exact g.trans (backfillGe_grows g.wf h)

theorem backfillEq_grows {fuel k : Nat} {neg : Bool} {add : Int} : ∀ {vs : List Int} {s s' : Session}, WF s → Session.backfillEq fuel k neg add vs s = .ok s' → Grows s s'
  | [], s, s', wf, h => by rw [Session.backfillEq] at h; cases h; exact .refl wf
  | v :: vs, s, s', wf, h => by
    rw [Session.backfillEq] at h
    obtain ⟨x, hx, h⟩ := bindOk h
    obtain ⟨s1, h1, h⟩ := bindOk h
    have g := (needEq_grows fuel).1 _ _ _ _ wf h1
    exact g.trans (backfillEq_grows g.wf h)

end Gcs.Pb
