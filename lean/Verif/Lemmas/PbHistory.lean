import Verif.Lemmas.PbSession

/-! What a session knows, and what its rows say, call by call: variables, views, constraints. -/

namespace Gcs.Pb

variable {s s' s'' : Session} {α β : Bools} {w w' : Vals} {p : PVar}

/-- The invariant of sessions. -/
structure Inv (s : Session) : Prop where
  wf : WF s
  sat : ∀ α, Sat s α ↔ ∃ w, Good s α w

theorem Inv.grow (i : Inv s) (g : Grows s s') : Inv s' := by
  refine ⟨g.wf, fun α => ?_⟩
  obtain ⟨rs, hr, hg⟩ := g.rows
  have : Sat s' α ↔ Sat s α ∧ ∀ r ∈ rs, r.Holds α := by
    unfold Sat; rw [hr]; simp only [List.mem_append, or_imp, forall_and]
  rw [this, i.sat]
  constructor
  · rintro ⟨⟨w, h⟩, h'⟩; exact ⟨w, (hg α w).2 ⟨h, h'⟩⟩
  · rintro ⟨w, h⟩
    have := (hg α w).1 h
    exact ⟨⟨w, this.1⟩, this.2⟩

/-- Values of variables that were not set up do not matter. -/
theorem good_stable (wf : WF s) (h : ∀ p, s.Known p → w' p = w p) (hg : Good s α w) : Good s α w' := by
  refine ⟨⟨fun p b hb => ?_, fun p v x hx => ?_, fun p v x hx => ?_, fun p lo hi x hx => ?_, fun i neg add k hv => ?_⟩, fun p l u hb hr => ?_, fun a ha => ?_⟩
  · rw [h p (wf.known hb)]; exact hg.means.bits p b hb
  · rw [h p (wf.known' (wf.ge p v x hx).2)]; exact hg.means.ge p v x hx
  · rw [h p (wf.eq p v x hx).1]; exact hg.means.eq p v x hx
  · rw [h p (wf.within p lo hi x hx).2]; exact hg.means.within p lo hi x hx
  · have := wf.view i neg add k hv
    have e := hg.means.view i neg add k hv
    rw [h _ this.2, e]
    simp only [VarId.eval, Vals.asg, h _ this.1]
  · rw [h p (by simp [Session.Known, hb])]; exact hg.bounds p l u hb hr
  · exact (asked_congr a (fun p => s.Known p) (wf.asked a ha) (fun _ _ => rfl) (fun p hp => h p hp)).2 (hg.asked a ha)

/-- One variable was added, perhaps with literals for its values. -/
structure Adds (s s' : Session) (p : PVar) : Prop where
  fresh : ¬ s.Known p
  bits : ∀ q, q ≠ p → s'.t.bits q = s.t.bits q
  ge : s'.t.ge = s.t.ge
  eq : ∀ q v, q ≠ p → s'.t.eq q v = s.t.eq q v
  within : s'.t.within = s.t.within
  view : s'.t.view = s.t.view
  bounds : ∀ q, q ≠ p → s'.bounds q = s.bounds q
  bounded : ∀ q, q ≠ p → s'.bounded q = s.bounded q
  asked : s'.asked = s.asked
  compact : s'.compact = s.compact
  known : s'.Known p
  aux : ∀ k, p = .aux k → k < s'.nextAux
  nextAux : s.nextAux ≤ s'.nextAux
  newBits : ∀ b, s'.t.bits p = some b → ∃ l u, s'.bounds p = some (l, u) ∧ InI64 u ∧ registerBits p l u = .ok b
  newEq : ∀ v x, s'.t.eq p v = some x → x = ⟨.eq p v, false⟩ ∨ (s'.bounds p = some (0, 1) ∧ (s'.t.bits p).isSome ∧ (v = 1 ∧ x = ⟨.bit p 0, false⟩ ∨ v = 0 ∧ x = ⟨.bit p 0, true⟩))
  newBounded : s'.compact = true → s'.bounded p = true
  direct : ∀ l u, s'.bounds p = some (l, u) → s'.t.bits p = none → s'.bounded p = true ∧ ∀ v, l ≤ v → v ≤ u → (s'.t.eq p v).isSome

/-- What is known of the new variable. -/
structure New (s : Session) (α : Bools) (p : PVar) (y : Int) : Prop where
  bits : ∀ b, s.t.bits p = some b → sum α b = y
  eq : ∀ v x, s.t.eq p v = some x → (x.Holds α ↔ y = v)
  bounds : ∀ l u, s.bounds p = some (l, u) → s.bounded p = true → l ≤ y ∧ y ≤ u

theorem Adds.keeps (a : Adds s s' p) {q : PVar} (h : s.Known q) : s'.Known q := by
  unfold Session.Known at *
  rw [a.bounds q fun e => a.fresh (e ▸ h)]; exact h

theorem Adds.wf (a : Adds s s' p) (wf : WF s) : WF s' := by
  have hne : ∀ {q}, s.Known q → q ≠ p := fun h e => a.fresh (e ▸ h)
  refine ⟨fun q b hb => ?_, fun q v x hx => ?_, fun q v x hx => ?_, fun q lo hi x hx => ?_, fun i neg add k hv => ?_, fun k hk => ?_, fun x hx => ?_, fun hc q hq => ?_, fun q hq => ?_, fun q l u hb hn => ?_⟩
  · by_cases e : q = p
    · subst e; exact a.newBits b hb
    · rw [a.bits q e] at hb; rw [a.bounds q e]; exact wf.bits q b hb
  · rw [a.ge] at hx
    have := wf.ge q v x hx
    rw [a.bits q (hne (wf.known' this.2))]; exact this
  · by_cases e : q = p
    · subst e; exact ⟨a.known, a.newEq v x hx⟩
    · rw [a.eq q v e] at hx
      have := wf.eq q v x hx
      rw [a.bounds q e, a.bits q e]
      exact ⟨a.keeps this.1, this.2⟩
  · rw [a.within] at hx
    have := wf.within q lo hi x hx
    exact ⟨this.1, a.keeps this.2⟩
  · rw [a.view] at hv
    have := wf.view i neg add k hv
    exact ⟨a.keeps this.1, a.keeps this.2⟩
  · by_cases e : PVar.aux k = p
    · exact a.aux k e.symm
    · have : s.Known (.aux k) := by unfold Session.Known at *; rw [← a.bounds _ e]; exact hk
      exact Nat.lt_of_lt_of_le (wf.aux k this) a.nextAux
  · rw [a.asked] at hx
    have := wf.asked x hx
    exact ⟨fun y hy q hq => a.keeps (this.1 y hy q hq), fun y hy q hq => a.keeps (this.2 y hy q hq)⟩
  · by_cases e : q = p
    · subst e; exact a.newBounded hc
    · rw [a.bounded q e]
      refine wf.compact (by rw [← a.compact]; exact hc) q ?_
      unfold Session.Known at *; rw [← a.bounds _ e]; exact hq
  · by_cases e : q = p
    · subst e; exact a.known
    · rw [a.bounded q e] at hq; exact a.keeps (wf.bounded q hq)
  · by_cases e : q = p
    · subst e; exact a.direct l u hb hn
    · rw [a.bounds q e] at hb
      rw [a.bits q e] at hn
      rw [a.bounded q e]
      refine ⟨(wf.direct q l u hb hn).1, fun v h1 h2 => ?_⟩
      rw [a.eq q v e]; exact (wf.direct q l u hb hn).2 v h1 h2

theorem Adds.good (a : Adds s s' p) (wf : WF s) : Good s' α w ↔ Good s α w ∧ New s' α p (w p) := by
  have hne : ∀ {q}, s.Known q → q ≠ p := fun h e => a.fresh (e ▸ h)
  have ha : ∀ x ∈ s.asked, (x.Holds s'.t α w ↔ x.Holds s.t α w) := fun x hx =>
    asked_congr x (fun p => s.Known p) (wf.asked x hx) (fun q hq => a.bits q (hne hq)) (fun _ _ => rfl)
  constructor
  · intro h
    refine ⟨⟨⟨fun q b hb => ?_, fun q v x hx => ?_, fun q v x hx => ?_, fun q lo hi x hx => ?_, fun i neg add k hv => ?_⟩, fun q l u hb hr => ?_, fun x hx => ?_⟩,
      ⟨fun b hb => h.means.bits p b hb, fun v x hx => h.means.eq p v x hx, fun l u hb hr => h.bounds p l u hb hr⟩⟩
    · exact h.means.bits q b (by rw [a.bits q (hne (wf.known hb))]; exact hb)
    · exact h.means.ge q v x (by rw [a.ge]; exact hx)
    · exact h.means.eq q v x (by rw [a.eq q v (hne (wf.eq q v x hx).1)]; exact hx)
    · exact h.means.within q lo hi x (by rw [a.within]; exact hx)
    · exact h.means.view i neg add k (by rw [a.view]; exact hv)
    · have e : q ≠ p := hne (by simp [Session.Known, hb])
      exact h.bounds q l u (by rw [a.bounds q e]; exact hb) (by rw [a.bounded q e]; exact hr)
    · exact (ha x hx).1 (h.asked x (by rw [a.asked]; exact hx))
  · rintro ⟨h, n⟩
    refine ⟨⟨fun q b hb => ?_, fun q v x hx => ?_, fun q v x hx => ?_, fun q lo hi x hx => ?_, fun i neg add k hv => ?_⟩, fun q l u hb hr => ?_, fun x hx => ?_⟩
    · by_cases e : q = p
      · subst e; exact n.bits b hb
      · exact h.means.bits q b (by rw [← a.bits q e]; exact hb)
    · exact h.means.ge q v x (by rw [← a.ge]; exact hx)
    · by_cases e : q = p
      · subst e; exact n.eq v x hx
      · exact h.means.eq q v x (by rw [← a.eq q v e]; exact hx)
    · exact h.means.within q lo hi x (by rw [← a.within]; exact hx)
    · exact h.means.view i neg add k (by rw [← a.view]; exact hv)
    · by_cases e : q = p
      · subst e; exact n.bounds l u hb hr
      · exact h.bounds q l u (by rw [← a.bounds q e]; exact hb) (by rw [← a.bounded q e]; exact hr)
    · rw [a.asked] at hx
      exact (ha x hx).2 (h.asked x hx)

theorem Inv.add (i : Inv s) (a : Adds s s' p) {rs : List Row} (hr : s'.rows = s.rows ++ rs) (hn : ∀ α, (∀ r ∈ rs, r.Holds α) ↔ ∃ y, New s' α p y) : Inv s' := by
  refine ⟨a.wf i.wf, fun α => ?_⟩
  have : Sat s' α ↔ Sat s α ∧ ∀ r ∈ rs, r.Holds α := by
    unfold Sat; rw [hr]; simp only [List.mem_append, or_imp, forall_and]
  rw [this, i.sat, hn]
  constructor
  · rintro ⟨⟨w, h⟩, y, h'⟩
    refine ⟨upd w p y, (a.good i.wf).2 ⟨good_stable i.wf (fun q hq => upd_other _ _ fun e => a.fresh (e ▸ hq)) h, ?_⟩⟩
    rw [upd_same]; exact h'
  · rintro ⟨w, h⟩
    have := (a.good i.wf).1 h
    exact ⟨⟨w, this.1⟩, _, this.2⟩

/-- A variable that was not set up has nothing. -/
theorem WF.none (wf : WF s) (h : ¬ s.Known p) : s.t.bits p = none ∧ (∀ v, s.t.eq p v = none) ∧ s.bounds p = none ∧ s.bounded p = false := by
  refine ⟨?_, fun v => ?_, ?_, Bool.eq_false_iff.2 fun e => h (wf.bounded p e)⟩
  · cases hb : s.t.bits p with
    | none => rfl
    | some b => exact absurd (wf.known hb) h
  · cases hb : s.t.eq p v with
    | none => rfl
    | some b => exact absurd (wf.eq p v b hb).1 h
  · cases hb : s.bounds p with
    | none => rfl
    | some b => exact absurd (by simp [Session.Known, hb]) h

/-! ## Setting up variables -/

/-- What every set-up says of other variables. -/
abbrev Others (s s' : Session) (p : PVar) : Prop := s'.Known p ∧ ∀ q, q ≠ p → s'.bounds q = s.bounds q ∧ s'.t.bits q = s.t.bits q

theorem Adds.others (a : Adds s s' p) : Others s s' p := ⟨a.known, fun q hq => ⟨a.bounds q hq, a.bits q hq⟩⟩

theorem register_inv {l u : Int} (i : Inv s) (hf : ¬ s.Known p) (hu : InI64 u) (hc : s.compact = false) {n : Nat} (hn : s.nextAux ≤ n) (ha : ∀ k, p = .aux k → k < n)
    (h : ({ s with nextAux := n } : Session).register p l u = .ok s') : Inv s' ∧ Others s s' p := by
  unfold Session.register at h
  obtain ⟨b, hb, h⟩ := bindOk h
  cases h
  obtain ⟨n1, n2, n3, n4⟩ := i.wf.none hf
  have a : Adds s { s with t := { s.t with bits := upd s.t.bits p (some b) }, bounds := upd s.bounds p (some (l, u)), nextAux := n } p := by
    refine ⟨hf, fun q hq => upd_other _ _ hq, rfl, fun _ _ _ => rfl, rfl, rfl, fun q hq => upd_other _ _ hq, fun _ _ => rfl, rfl, rfl, by simp [Session.Known, upd], ha, hn,
      fun b' hb' => ?_, fun v x hx => ?_, fun hc' => ?_, fun l' u' _ hn => ?_⟩
    · have : b = b' := by simpa [upd] using hb'
      subst this
      exact ⟨l, u, by simp [upd], hu, hb⟩
    · have hx : s.t.eq p v = some x := hx
      rw [n2] at hx; cases hx
    · have hc' : s.compact = true := hc'
      rw [hc] at hc'; cases hc'
    · simp [upd] at hn
  refine ⟨i.add a (rs := []) (by simp) fun α => ⟨fun _ => ⟨sum α b, fun b' hb' => ?_, fun v x hx => ?_, fun l' u' hb' hr => ?_⟩, fun _ r hr => (nomatch hr)⟩, a.others⟩
  · have : b = b' := by simpa [upd] using hb'
    rw [this]
  · have hx : s.t.eq p v = some x := hx
    rw [n2] at hx; cases hx
  · have hr : s.bounded p = true := hr
    rw [n4] at hr; cases hr

theorem setUpBits_inv {l u : Int} (i : Inv s) (hf : ¬ s.Known p) (hu : InI64 u) {n : Nat} (hn : s.nextAux ≤ n) (ha : ∀ k, p = .aux k → k < n)
    (h : ({ s with nextAux := n } : Session).setUpBits p l u = .ok s') : Inv s' ∧ Others s s' p ∧ (s'.t.bits p).isSome := by
  unfold Session.setUpBits Session.register at h
  obtain ⟨s1, h1, h⟩ := bindOk h
  obtain ⟨b, hb, h1⟩ := bindOk h1
  cases h1
  obtain ⟨b', hb', h⟩ := bindOk h
  have e : b = b' := by
    have := eachBit_ok hb'
    simpa [upd] using this
  subst e
  obtain ⟨q, hq, h⟩ := bindOk h
  cases h
  obtain ⟨n1, n2, n3, n4⟩ := i.wf.none hf
  have a : Adds s { s with t := { s.t with bits := upd s.t.bits p (some b) }, bounds := upd s.bounds p (some (l, u)), nextAux := n, rows := s.rows ++ [q.1, q.2], bounded := upd s.bounded p true } p := by
    refine ⟨hf, fun q hq => upd_other _ _ hq, rfl, fun _ _ _ => rfl, rfl, rfl, fun q hq => upd_other _ _ hq, fun q hq => upd_other _ _ hq, rfl, rfl, by simp [Session.Known, upd], ha, hn,
      fun b' hb' => ?_, fun v x hx => ?_, fun hc' => by simp [upd], fun l' u' _ hn => ?_⟩
    · have : b = b' := by simpa [upd] using hb'
      subst this
      exact ⟨l, u, by simp [upd], hu, hb⟩
    · have hx : s.t.eq p v = some x := hx
      rw [n2] at hx; cases hx
    · simp [upd] at hn
  refine ⟨i.add a (rs := [q.1, q.2]) rfl fun α => ?_, a.others, by simp [Session.addRows, upd]⟩
  have hr := boundRows_ok (α := α) hq
  have : (∀ r ∈ [q.1, q.2], r.Holds α) ↔ (q.1.Holds α ∧ q.2.Holds α) := by simp
  rw [this, hr]
  constructor
  · intro hb2
    refine ⟨sum α b, fun b' hb' => ?_, fun v x hx => ?_, fun l' u' hb' hr => ?_⟩
    · have : b = b' := by simpa [Session.addRows, upd] using hb'
      rw [this]
    · have hx : s.t.eq p v = some x := hx
      rw [n2] at hx; cases hx
    · have : l = l' ∧ u = u' := by simpa [Session.addRows, upd] using hb'
      rw [← this.1, ← this.2]; exact hb2
  · rintro ⟨y, hy⟩
    rw [hy.bits b (by simp [Session.addRows, upd])]
    exact hy.bounds l u (by simp [Session.addRows, upd]) (by simp [Session.addRows, upd])

theorem zeroOne_bits (p : PVar) : registerBits p 0 1 = .ok [(1, ⟨.bit p 0, false⟩)] := by
  have h : getBitsEncodingCoeffs 0 1 = .ok (0, 1, 0) := by decide +kernel
  unfold registerBits
  rw [h]
  rfl

theorem storeEqs_frame (p : PVar) : ∀ (vs : List Int) (s : Session), (Session.storeEqs p vs s).t.bits = s.t.bits ∧ (Session.storeEqs p vs s).t.ge = s.t.ge ∧ (Session.storeEqs p vs s).t.within = s.t.within ∧
    (Session.storeEqs p vs s).t.view = s.t.view ∧ (Session.storeEqs p vs s).bounds = s.bounds ∧ (Session.storeEqs p vs s).bounded = s.bounded ∧ (Session.storeEqs p vs s).asked = s.asked ∧
    (Session.storeEqs p vs s).compact = s.compact ∧ (Session.storeEqs p vs s).nextAux = s.nextAux ∧ (Session.storeEqs p vs s).rows = s.rows
  | [], s => ⟨rfl, rfl, rfl, rfl, rfl, rfl, rfl, rfl, rfl, rfl⟩
  | v :: vs, s => storeEqs_frame p vs (s.storeEq p v ⟨.eq p v, false⟩)

theorem storeEqs_other (p : PVar) {q : PVar} (hq : q ≠ p) (v : Int) : ∀ (vs : List Int) (s : Session), (Session.storeEqs p vs s).t.eq q v = s.t.eq q v
  | [], s => rfl
  | v' :: vs, s => by
    rw [Session.storeEqs, storeEqs_other p hq v vs]
    simp [Session.storeEq, upd, hq]

theorem storeEqs_eq (p : PVar) (v : Int) : ∀ (vs : List Int) (s : Session), (∀ x, s.t.eq p v = some x → x = ⟨.eq p v, false⟩) →
    (Session.storeEqs p vs s).t.eq p v = if v ∈ vs then some ⟨.eq p v, false⟩ else s.t.eq p v
  | [], s, _ => by simp [Session.storeEqs]
  | v' :: vs, s, h => by
    have hat : (s.storeEq p v' ⟨.eq p v', false⟩).t.eq p v = if v = v' then some ((s.t.eq p v').getD ⟨.eq p v', false⟩) else s.t.eq p v := by
      by_cases e : v = v' <;> simp [Session.storeEq, upd, e]
    rw [Session.storeEqs, storeEqs_eq p v vs]
    · rw [hat]
      by_cases e : v = v'
      · subst e
        simp only [List.mem_cons, true_or, if_true]
        split
        · rfl
        · cases hx : s.t.eq p v with
          | none => rfl
          | some x => rw [h x hx]; rfl
      · simp [e]
    · intro x hx
      rw [hat] at hx
      split at hx
      · rename_i e
        subst e
        cases hy : s.t.eq p v with
        | none => rw [hy] at hx; cases hx; rfl
        | some y => rw [hy] at hx; cases hx; exact h _ hy
      · exact h x hx

/-- Variables with values 0 and 1. -/
theorem setUpZeroOne_inv (i : Inv s) (hf : ¬ s.Known p) {n : Nat} (hn : s.nextAux ≤ n) (ha : ∀ k, p = .aux k → k < n) :
    Inv (({ s with nextAux := n } : Session).setUpZeroOne p) ∧ Others s (({ s with nextAux := n } : Session).setUpZeroOne p) p := by
  obtain ⟨n1, n2, n3, n4⟩ := i.wf.none hf
  have key : ∀ s' : Session, (s'.t.bits = upd s.t.bits p (some [(1, ⟨.bit p 0, false⟩)])) → s'.t.ge = s.t.ge → (∀ q v, q ≠ p → s'.t.eq q v = s.t.eq q v) → s'.t.within = s.t.within → s'.t.view = s.t.view →
      s'.bounds = upd s.bounds p (some (0, 1)) → s'.bounded = upd s.bounded p true → s'.asked = s.asked → s'.compact = s.compact → s'.nextAux = n → s'.rows = s.rows ++ [zeroOneRow p] →
      (∀ v x, s'.t.eq p v = some x → v = 1 ∧ x = ⟨.bit p 0, false⟩ ∨ v = 0 ∧ x = ⟨.bit p 0, true⟩) → Inv s' ∧ Others s s' p := by
    intro s' e1 e2 e3 e4 e5 e6 e7 e8 e9 e10 e11 e12
    have hb : s'.t.bits p = some [(1, ⟨.bit p 0, false⟩)] := by rw [e1]; simp [upd]
    have hbd : s'.bounds p = some (0, 1) := by rw [e6]; simp [upd]
    have a : Adds s s' p := by
      refine ⟨hf, fun q hq => by rw [e1]; exact upd_other _ _ hq, e2, e3, e4, e5, fun q hq => by rw [e6]; exact upd_other _ _ hq, fun q hq => by rw [e7]; exact upd_other _ _ hq, e8, e9,
        by simp [Session.Known, hbd], fun k hk => by rw [e10]; exact ha k hk, by rw [e10]; exact hn, fun b' hb' => ?_, fun v x hx => ?_, fun _ => by rw [e7]; simp [upd], fun l' u' _ hn => ?_⟩
      · rw [hb] at hb'; cases hb'
        exact ⟨0, 1, hbd, by decide, zeroOne_bits p⟩
      · exact .inr ⟨hbd, by rw [hb]; rfl, e12 v x hx⟩
      · rw [hb] at hn; cases hn
    refine ⟨i.add a (rs := [zeroOneRow p]) e11 fun α => ?_, a.others⟩
    have h01 := tv_01 (α := α) ⟨.bit p 0, false⟩
    have hone := tv_one (α := α) (x := ⟨.bit p 0, false⟩)
    constructor
    · intro _
      refine ⟨tv α ⟨.bit p 0, false⟩, fun b' hb' => ?_, fun v x hx => ?_, fun l' u' hb' hr => ?_⟩
      · rw [hb] at hb'; cases hb'
        rw [sum_single]; omega
      · rcases e12 v x hx with ⟨rfl, rfl⟩ | ⟨rfl, rfl⟩
        · exact hone.symm
        · have := holds_not (α := α) ⟨.bit p 0, false⟩
          have e : (⟨.bit p 0, true⟩ : XLit) = XLit.not ⟨.bit p 0, false⟩ := rfl
          rw [e, this, ← hone]
          constructor <;> intro _ <;> omega
      · rw [hbd] at hb'; cases hb'; omega
    · intro _ r hr
      rw [List.mem_singleton.1 hr]
      unfold zeroOneRow Row.Holds
      dsimp only
      rw [sum_single]; omega
  cases p with
  | real j =>
    refine key _ rfl rfl (fun q v hq => ?_) rfl rfl rfl rfl rfl rfl rfl rfl fun v x hx => ?_
    · simp [Session.setUpZeroOne, Session.storeEq, upd, hq]
    · simp only [Session.setUpZeroOne, Session.storeEq, upd, if_true] at hx
      by_cases e0 : v = 0
      · subst e0; simp [n2] at hx; exact .inr ⟨rfl, hx.symm⟩
      · by_cases e1 : v = 1
        · subst e1; simp [n2] at hx; exact .inl ⟨rfl, hx.symm⟩
        · simp [e0, e1, n2] at hx
  | aux j =>
    refine key _ rfl rfl (fun q v hq => rfl) rfl rfl rfl rfl rfl rfl rfl rfl fun v x hx => ?_
    have hx : s.t.eq (.aux j) v = some x := hx
    rw [n2] at hx; cases hx

theorem setUpDirect_inv {l u : Int} (i : Inv s) (hf : ¬ s.Known p) {n : Nat} (hn : s.nextAux ≤ n) (ha : ∀ k, p = .aux k → k < n) :
    Inv (({ s with nextAux := n } : Session).setUpDirect p l u) ∧ Others s (({ s with nextAux := n } : Session).setUpDirect p l u) p := by
  unfold Session.setUpDirect
  split
  · exact setUpZeroOne_inv i hf hn ha
  obtain ⟨n1, n2, n3, n4⟩ := i.wf.none hf
  dsimp only
  generalize hs0 : ({ ({ s with nextAux := n } : Session) with bounds := upd s.bounds p (some (l, u)), bounded := upd s.bounded p true } : Session) = s0
  have f := storeEqs_frame p (valuesBetween l u) s0
  have heq : ∀ v, (Session.storeEqs p (valuesBetween l u) s0).t.eq p v = if v ∈ valuesBetween l u then some ⟨.eq p v, false⟩ else none := by
    intro v
    rw [storeEqs_eq]
    · congr 1; rw [← hs0]; exact n2 v
    · intro x hx
      have hx : s.t.eq p v = some x := by rw [← hs0] at hx; exact hx
      rw [n2] at hx; cases hx
  have hoth : ∀ q v, q ≠ p → (Session.storeEqs p (valuesBetween l u) s0).t.eq q v = s.t.eq q v := by
    intro q v hq; rw [storeEqs_other p hq, ← hs0]
  generalize hs1 : Session.storeEqs p (valuesBetween l u) s0 = s1 at f heq hoth
  subst hs0
  obtain ⟨f1, f2, f3, f4, f5, f6, f7, f8, f9, f10⟩ := f
  have hbd : s1.bounds p = some (l, u) := by rw [f5]; simp [upd]
  have hbn : s1.t.bits p = none := by rw [f1]; exact n1
  have a : Adds s (s1.addRows (directRows p l u)) p := by
    refine ⟨hf, fun q hq => by show s1.t.bits q = _; rw [f1], f2, hoth, f3, f4, fun q hq => by show s1.bounds q = _; rw [f5]; exact upd_other _ _ hq,
      fun q hq => by show s1.bounded q = _; rw [f6]; exact upd_other _ _ hq, f7, f8, by show (s1.bounds p).isSome = true; rw [hbd]; rfl, fun k hk => by show k < s1.nextAux; rw [f9]; exact ha k hk,
      by show _ ≤ s1.nextAux; rw [f9]; exact hn, fun b' hb' => ?_, fun v x hx => ?_, fun _ => by show s1.bounded p = true; rw [f6]; simp [upd], fun l' u' hb' _ => ⟨by show s1.bounded p = true; rw [f6]; simp [upd], fun v h1 h2 => ?_⟩⟩
    · have hb' : s1.t.bits p = some b' := hb'
      rw [hbn] at hb'; cases hb'
    · have hx : s1.t.eq p v = some x := hx
      rw [heq] at hx
      split at hx
      · cases hx; exact .inl rfl
      · cases hx
    · have hb' : s1.bounds p = some (l', u') := hb'
      rw [hbd] at hb'; cases hb'
      show (s1.t.eq p v).isSome = true
      rw [heq, if_pos (mem_valuesBetween.2 ⟨h1, h2⟩)]; rfl
  refine ⟨i.add a (rs := [(directRows p l u).1, (directRows p l u).2]) (by show s1.rows ++ _ = _; rw [f10]) fun α => ?_, a.others⟩
  have : (∀ r ∈ [(directRows p l u).1, (directRows p l u).2], r.Holds α) ↔ ((directRows p l u).1.Holds α ∧ (directRows p l u).2.Holds α) := by simp
  rw [this, directRows_ok]
  constructor
  · rintro ⟨y, hy, h⟩
    refine ⟨y, fun b' hb' => ?_, fun v x hx => ?_, fun l' u' hb' hr => ?_⟩
    · have hb' : s1.t.bits p = some b' := hb'
      rw [hbn] at hb'; cases hb'
    · have hx : s1.t.eq p v = some x := hx
      rw [heq] at hx
      split at hx
      · rename_i hm
        cases hx
        exact h v (mem_valuesBetween.1 hm)
      · cases hx
    · have hb' : s1.bounds p = some (l', u') := hb'
      rw [hbd] at hb'; cases hb'; exact hy
  · rintro ⟨y, hy⟩
    refine ⟨y, hy.bounds l u hbd (by show s1.bounded p = true; rw [f6]; simp [upd]), fun v hv => ?_⟩
    exact hy.eq v ⟨.eq p v, false⟩ (by show s1.t.eq p v = _; rw [heq, if_pos (mem_valuesBetween.2 hv)])

/-! ## Calls -/

/-- What a call leaves alone. -/
structure Keeps (s s' : Session) : Prop where
  inv : Inv s'
  known : ∀ p, s.Known p → s'.Known p

theorem Keeps.refl (i : Inv s) : Keeps s s := ⟨i, fun _ h => h⟩
theorem Keeps.trans (h : Keeps s s') (h' : Keeps s' s'') : Keeps s s'' := ⟨h'.inv, fun p k => h'.known p (h.known p k)⟩
theorem Grows.keeps (g : Grows s s') (i : Inv s) : Keeps s s' := ⟨i.grow g, fun p h => by unfold Session.Known at *; rw [g.bounds]; exact h⟩

theorem Others.keeps (o : Others s s' p) (hf : ¬ s.Known p) (i : Inv s') : Keeps s s' :=
  ⟨i, fun q hq => by unfold Session.Known at *; rw [(o.2 q fun e => hf (e ▸ hq)).1]; exact hq⟩

theorem aux_fresh (i : Inv s) : ¬ s.Known (.aux s.nextAux) := fun h => Nat.lt_irrefl _ (i.wf.aux _ h)

theorem setUp_keeps {j : Nat} {l u : Int} {rep : Option Session.Rep} (i : Inv s) (hf : ¬ s.Known (.real j)) (hu : InI64 u) (h : s.setUp j l u rep = .ok s') : Keeps s s' := by
  have ha : ∀ k, PVar.real j = .aux k → k < s.nextAux := fun k hk => (nomatch hk)
  cases rep with
  | none =>
    unfold Session.setUp at h
    dsimp only at h
    split at h
    · cases h
      have := setUpDirect_inv (l := l) (u := u) i hf (Nat.le_refl _) ha
      exact this.2.keeps hf this.1
    · have := setUpBits_inv (n := s.nextAux) i hf hu (Nat.le_refl _) ha h
      exact this.2.1.keeps hf this.1
  | some rep =>
    cases rep with
    | bits =>
      have := setUpBits_inv (n := s.nextAux) i hf hu (Nat.le_refl _) ha h
      exact this.2.1.keeps hf this.1
    | directOnly =>
      cases h
      have := setUpDirect_inv (l := l) (u := u) i hf (Nat.le_refl _) ha
      exact this.2.keeps hf this.1

theorem aux_lt {k n : Nat} (h : PVar.aux n = .aux k) : k < n + 1 := by cases h; omega

theorem createAux_keeps {l u : Int} {rep : Session.Rep} (i : Inv s) (hu : InI64 u) (h : s.createAux l u rep = .ok s') : Keeps s s' := by
  cases rep with
  | bits =>
    have := setUpBits_inv (n := s.nextAux + 1) i (aux_fresh i) hu (Nat.le_succ _) (fun k hk => aux_lt hk) h
    exact this.2.1.keeps (aux_fresh i) this.1
  | directOnly =>
    cases h
    have := setUpDirect_inv (n := s.nextAux + 1) (l := l) (u := u) i (aux_fresh i) (Nat.le_succ _) (fun k hk => aux_lt hk)
    exact this.2.keeps (aux_fresh i) this.1

theorem createFree_keeps {l u : Int} (i : Inv s) (hu : InI64 u) (hc : s.compact = false) (h : s.createFree l u = .ok s') : Keeps s s' := by
  have := register_inv (n := s.nextAux + 1) i (aux_fresh i) hu hc (Nat.le_succ _) (fun k hk => aux_lt hk) h
  exact this.2.keeps (aux_fresh i) this.1

theorem iAdd_in {a b r : Int} (h : iAdd a b = .ok r) : InI64 r := by
  have fin : ∀ {x}, rawOut i64Max x = .ok r → InI64 r := by
    intro x h
    unfold rawOut at h
    split at h
    · cases h; rename_i k; unfold InW i64Max at k; unfold InI64 i64Min i64Max; omega
    · cases h
  unfold iAdd throwIf at h
  obtain ⟨o, ho, h⟩ := bindOk h
  cases o with
  | none => cases h
  | some v =>
    cases h
    unfold addOverflows at ho
    split at ho
    · obtain ⟨y, _, ho⟩ := bindOk ho
      split at ho
      · cases ho
      · obtain ⟨z, hz, ho⟩ := bindOk ho
        cases ho; exact fin hz
    · obtain ⟨y, _, ho⟩ := bindOk ho
      split at ho
      · cases ho
      · obtain ⟨z, hz, ho⟩ := bindOk ho
        cases ho; exact fin hz

theorem viewBounds_in {l u : Int} {neg : Bool} {add : Int} {q : Int × Int} (h : viewBounds l u neg add = .ok q) : InI64 q.2 := by
  unfold viewBounds at h
  split at h
  · obtain ⟨a, _, h⟩ := bindOk h
    obtain ⟨b, _, h⟩ := bindOk h
    obtain ⟨c, _, h⟩ := bindOk h
    obtain ⟨d, hd, h⟩ := bindOk h
    cases h; exact iAdd_in hd
  · obtain ⟨a, _, h⟩ := bindOk h
    obtain ⟨b, hb, h⟩ := bindOk h
    cases h; exact iAdd_in hb

theorem view_step {k j : Nat} {neg : Bool} {add : Int} {q : Row × Row} {vo : Nat → Option (Nat × Bool × Int)} {vs : Nat → List Nat} (i : Inv s) (hn : s.t.view j neg add = none)
    (hk : (s.t.bits (.aux k)).isSome) (h : viewRows s.t k j neg add = .ok q) :
    Grows s { s.addRows q with t := { s.t with view := upd s.t.view j (upd (s.t.view j) neg (upd (s.t.view j neg) add (some k))) }, viewOf := vo, viewsOf := vs } := by
  obtain ⟨bk, hbk⟩ := Option.isSome_iff_exists.1 hk
  obtain ⟨bj, hbj⟩ := viewRows_bits h
  have cases' : ∀ j' neg' add' k', upd s.t.view j (upd (s.t.view j) neg (upd (s.t.view j neg) add (some k))) j' neg' add' = some k' →
      (j' = j ∧ neg' = neg ∧ add' = add ∧ k' = k) ∨ s.t.view j' neg' add' = some k' := by
    intro j' neg' add' k' h
    by_cases e1 : j' = j
    · subst e1
      by_cases e2 : neg' = neg
      · subst e2
        by_cases e3 : add' = add
        · subst e3; simp [upd] at h; exact .inl ⟨rfl, rfl, rfl, h.symm⟩
        · simp [upd, e3] at h; exact .inr h
      · simp [upd, e2] at h; exact .inr h
    · simp [upd, e1] at h; exact .inr h
  have cases'' : ∀ j' neg' add' k', s.t.view j' neg' add' = some k' → upd s.t.view j (upd (s.t.view j) neg (upd (s.t.view j neg) add (some k))) j' neg' add' = some k' := by
    intro j' neg' add' k' hv
    by_cases e1 : j' = j
    · subst e1
      by_cases e2 : neg' = neg
      · subst e2
        by_cases e3 : add' = add
        · subst e3; rw [hn] at hv; cases hv
        · simp [upd, e3, hv]
      · simp [upd, e2, hv]
    · simp [upd, e1, hv]
  have w0 := i.wf
  refine ⟨{ w0 with view := fun j' neg' add' k' h => ?_ }, rfl, rfl, rfl, rfl, rfl, fun _ _ _ => rfl, [q.1, q.2], rfl, fun α w => ?_⟩
  · rcases cases' _ _ _ _ h with ⟨rfl, rfl, rfl, rfl⟩ | h
    · exact ⟨w0.known hbj, w0.known hbk⟩
    · exact w0.view _ _ _ _ h
  · have hr := viewRows_ok (α := α) hbk hbj h
    have hq : (∀ r ∈ [q.1, q.2], r.Holds α) ↔ (q.1.Holds α ∧ q.2.Holds α) := by simp
    rw [hq, hr]
    have ev : ∀ w : Vals, (VarId.view j neg add).eval w.asg = (if neg then - w (.real j) else w (.real j)) + add := fun w => by
      cases neg <;> simp [VarId.eval, Vals.asg]
    constructor
    · intro hg
      have m := hg.means
      have g : Good s α w := ⟨⟨m.bits, m.ge, m.eq, m.within, fun j' neg' add' k' h => m.view j' neg' add' k' (cases'' _ _ _ _ h)⟩, hg.bounds, fun a ha => (asked_same (t := _) (t' := _) a (by rfl)).1 (hg.asked a ha)⟩
      refine ⟨g, ?_⟩
      rw [g.means.bits _ _ hbk, g.means.bits _ _ hbj, ← ev]
      exact m.view j neg add k (by simp [upd])
    · rintro ⟨g, he⟩
      have m := g.means
      refine ⟨⟨m.bits, m.ge, m.eq, m.within, fun j' neg' add' k' h => ?_⟩, g.bounds, fun a ha => (asked_same (t := s.t) (t' := { s.t with view := upd s.t.view j (upd (s.t.view j) neg (upd (s.t.view j neg) add (some k))) }) a rfl).2 (g.asked a ha)⟩
      rcases cases' _ _ _ _ h with ⟨rfl, rfl, rfl, rfl⟩ | h
      · rw [ev, ← m.bits _ _ hbk, ← m.bits _ _ hbj]; exact he
      · exact m.view _ _ _ _ h

theorem needView_keeps {fuel j : Nat} {neg : Bool} {add : Int} (i : Inv s) (h : s.needView fuel j neg add = .ok s') : Keeps s s' := by
  unfold Session.needView at h
  split at h
  · cases h; exact .refl i
  rename_i hnone
  split at h
  · cases h
  split at h
  · cases h
  rename_i l u hb
  obtain ⟨⟨lo, hi⟩, hv, h⟩ := bindOk h
  dsimp only at h
  obtain ⟨s1, h1, h⟩ := bindOk h
  obtain ⟨q, hq, h⟩ := bindOk h
  obtain ⟨s2, h2, h⟩ := bindOk h
  have hu : InI64 hi := viewBounds_in hv
  have hi1 := setUpBits_inv (n := s.nextAux + 1) i (aux_fresh i) hu (Nat.le_succ _) (fun k hk => aux_lt hk) h1
  have k1 := hi1.2.1.keeps (aux_fresh i) hi1.1
  have hview : s1.t.view = s.t.view := by
    have h1' : ({ s with nextAux := s.nextAux + 1 } : Session).setUpBits (.aux s.nextAux) lo hi = .ok s1 := h1
    unfold Session.setUpBits Session.register at h1'
    obtain ⟨a, ha, h1'⟩ := bindOk h1'
    obtain ⟨b, hb, ha⟩ := bindOk ha
    cases ha
    obtain ⟨b', hb', h1'⟩ := bindOk h1'
    obtain ⟨q, hq, h1'⟩ := bindOk h1'
    cases h1'
    rfl
  have g := view_step (vo := upd s1.viewOf s.nextAux (some (j, neg, add))) (vs := upd s1.viewsOf j (s1.viewsOf j ++ [s.nextAux])) hi1.1 (by rw [hview]; simpa using hnone) hi1.2.2 hq
  have k2 := k1.trans (g.keeps k1.inv)
  have g2 := backfillGe_grows k2.inv.wf h2
  have k3 := k2.trans (g2.keeps k2.inv)
  have g3 := backfillEq_grows k3.inv.wf h
  exact k3.trans (g3.keeps k3.inv)

theorem needTerm_keeps {fuel : Nat} {v : Term} (i : Inv s) (h : s.needTerm fuel v = .ok s') : Keeps s s' := by
  unfold Session.needTerm at h
  split at h
  · obtain ⟨l, hl, h⟩ := bindOk h
    exact (needName_grows i.wf h).keeps i
  · split at h
    · cases h; exact .refl i
    · exact needView_keeps i h
  · cases h; exact .refl i

theorem needTerms_keeps {fuel : Nat} : ∀ {l : List (Int × Term)} {s s' : Session}, Inv s → Session.needTerms fuel l s = .ok s' → Keeps s s'
  | [], s, s', i, h => by rw [Session.needTerms] at h; cases h; exact .refl i
  | (c, v) :: l, s, s', i, h => by
    rw [Session.needTerms] at h
    obtain ⟨s1, h1, h⟩ := bindOk h
    have k := needTerm_keeps i h1
    exact k.trans (needTerms_keeps k.inv h)

theorem needReifs_keeps {fuel : Nat} : ∀ {l : Reifs} {s s' : Session}, Inv s → Session.needReifs fuel l s = .ok s' → Keeps s s'
  | [], s, s', i, h => by rw [Session.needReifs] at h; cases h; exact .refl i
  | r :: l, s, s', i, h => by
    rw [Session.needReifs] at h
    obtain ⟨s1, h1, h⟩ := bindOk h
    have k := needTerm_keeps i h1
    exact k.trans (needReifs_keeps k.inv h)

/-- Adding a constraint when all names are there. -/
theorem ask_inv {i : Ineq} {reifs : Option Reifs} {row : Row} (v : Inv s) (hk : (∀ x ∈ i.lhs, ∀ p ∈ x.2.vars, s.Known p) ∧ ∀ r ∈ reifs.getD [], ∀ p ∈ (Term.item r).vars, s.Known p)
    (h : addConstraint s.t i reifs = .ok row) : Inv { s with rows := s.rows ++ [row], asked := s.asked ++ [⟨i, reifs⟩] } := by
  have w0 := v.wf
  refine ⟨{ w0 with asked := fun a ha => ?_ }, fun α => ?_⟩
  · rcases List.mem_append.1 ha with ha | ha
    · exact w0.asked a ha
    · rw [List.mem_singleton.1 ha]; exact hk
  · have : Sat { s with rows := s.rows ++ [row], asked := s.asked ++ [⟨i, reifs⟩] } α ↔ Sat s α ∧ row.Holds α := by
      unfold Sat; simp only [List.mem_append, or_imp, forall_and, List.mem_singleton, forall_eq]
    rw [this, v.sat]
    constructor
    · rintro ⟨⟨w, g⟩, hr⟩
      refine ⟨w, g.means, g.bounds, fun a ha => ?_⟩
      rcases List.mem_append.1 ha with ha | ha
      · exact g.asked a ha
      · rw [List.mem_singleton.1 ha]; exact (add_means g.means h).1 hr
    · rintro ⟨w, g⟩
      have m : Means s.t α w := g.means
      exact ⟨⟨w, m, g.bounds, fun a ha => g.asked a (List.mem_append_left _ ha)⟩, (add_means m h).2 (g.asked _ (List.mem_append_right _ (List.mem_singleton.2 rfl)))⟩

theorem constrain_keeps {fuel : Nat} {i : Ineq} {reifs : Option Reifs} (v : Inv s) (hk : (∀ x ∈ i.lhs, ∀ p ∈ x.2.vars, s.Known p) ∧ ∀ r ∈ reifs.getD [], ∀ p ∈ (Term.item r).vars, s.Known p)
    (h : s.constrain fuel i reifs = .ok s') : Keeps s s' := by
  unfold Session.constrain at h
  obtain ⟨s1, h1, h⟩ := bindOk h
  obtain ⟨s2, h2, h⟩ := bindOk h
  obtain ⟨row, hr, h⟩ := bindOk h
  cases h
  have k1 := needTerms_keeps v h1
  have k2 : Keeps s s2 := by
    cases reifs with
    | none => cases h2; exact k1
    | some rs => exact k1.trans (needReifs_keeps k1.inv h2)
  refine ⟨ask_inv k2.inv ⟨fun x hx p hp => k2.known p (hk.1 x hx p hp), fun r hr p hp => k2.known p (hk.2 r hr p hp)⟩ hr, fun p hp => k2.known p hp⟩

theorem op_keeps {fuel : Nat} {o : Op} (i : Inv s) (hok : o.OK s) (h : o.run fuel s = .ok s') : Keeps s s' := by
  cases o with
  | setUp j l u rep => exact setUp_keeps i hok.1 hok.2.2 h
  | createAux l u rep => exact createAux_keeps i hok.2 h
  | createFree l u => exact createFree_keeps i hok.2.2 hok.1 h
  | needGe p v => exact ((needGe_grows fuel).1 _ _ _ _ i.wf h).1.keeps i
  | needEq p v => exact ((needEq_grows fuel).1 _ _ _ _ i.wf h).keeps i
  | needWithin p lo hi => exact (needWithin_grows i.wf h).keeps i
  | definePlain p lo hi => exact (definePlain_grows i.wf hok h).keeps i
  | needView j neg add => exact needView_keeps i h
  | constrain c reifs => exact constrain_keeps i hok h
  | startProof =>
    cases h
    have w0 := i.wf
    exact ⟨⟨{ w0 with }, fun α => (i.sat α).trans ⟨fun ⟨w, g⟩ => ⟨w, g.1, g.2, g.3⟩, fun ⟨w, g⟩ => ⟨w, g.1, g.2, g.3⟩⟩⟩, fun _ h => h⟩

theorem start_inv (c : Bool) : Inv (Session.start c) := by
  refine ⟨⟨fun _ _ h => (nomatch h), fun _ _ _ h => (nomatch h), fun _ _ _ h => (nomatch h), fun _ _ _ _ h => (nomatch h), fun _ _ _ _ h => (nomatch h), fun _ h => (nomatch h), fun _ h => (nomatch h), fun _ _ h => (nomatch h), fun _ h => (nomatch h), fun _ _ _ h => (nomatch h)⟩, fun α => ?_⟩
  refine ⟨fun _ => ⟨fun _ => 0, ⟨fun _ _ h => (nomatch h), fun _ _ _ h => (nomatch h), fun _ _ _ h => (nomatch h), fun _ _ _ _ h => (nomatch h), fun _ _ _ _ h => (nomatch h)⟩, fun _ _ _ h => (nomatch h), fun _ h => (nomatch h)⟩, fun _ _ h => (nomatch h)⟩

theorem history_inv {c : Bool} (h : History c s) : Inv s := by
  induction h with
  | start => exact start_inv c
  | step fuel o _ hok hr ih => exact (op_keeps ih hok hr).inv

/-! ## From values to 0/1 variables and back -/

theorem encode_means {f : Nat → Bool} (wf : WF s) (hw : ∀ p l u, s.bounds p = some (l, u) → l ≤ w p ∧ w p ≤ u)
    (hv : ∀ i neg add k, s.t.view i neg add = some k → w (.aux k) = (VarId.view i neg add).eval w.asg) : Means s.t (encode w f) w := by
  refine ⟨fun p b hb => ?_, fun p v x hx => ?_, fun p v x hx => ?_, fun p lo hi x hx => ?_, hv⟩
  · obtain ⟨l, u, h1, h2, h3⟩ := wf.bits p b hb
    exact bits_encode h2 h3 (hw p l u h1)
  · rw [(wf.ge p v x hx).1]; simp [XLit.Holds, encode]
  · rcases (wf.eq p v x hx).2 with rfl | ⟨hb, _, h⟩
    · simp [XLit.Holds, encode]
    · have := hw p 0 1 hb
      rcases h with ⟨rfl, rfl⟩ | ⟨rfl, rfl⟩
      · simp only [XLit.Holds, encode, Int.toNat_zero, Int.pow_zero, Int.ediv_one, Bool.not_false, decide_eq_true_eq]; omega
      · simp only [XLit.Holds, encode, Int.toNat_zero, Int.pow_zero, Int.ediv_one, Bool.not_true, decide_eq_false_iff_not]; omega
  · rw [(wf.within p lo hi x hx).1]; simp [XLit.Holds, encode]

/-- The values are determined by the 0/1 variables. -/
theorem value_unique (wf : WF s) (g : Good s α w) (g' : Good s α w') (hk : s.Known p) : w p = w' p := by
  cases hb : s.t.bits p with
  | some b => rw [← g.means.bits p b hb, ← g'.means.bits p b hb]
  | none =>
    obtain ⟨⟨l, u⟩, hlu⟩ := Option.isSome_iff_exists.1 hk
    obtain ⟨hbd, hall⟩ := wf.direct p l u hlu hb
    have hin := g.bounds p l u hlu hbd
    obtain ⟨x, hx⟩ := Option.isSome_iff_exists.1 (hall (w p) hin.1 hin.2)
    exact (((g'.means.eq p _ x hx).1 ((g.means.eq p _ x hx).2 rfl))).symm

end Gcs.Pb
