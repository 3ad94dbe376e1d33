import Verif.Lemmas.Propagate

/-! Undoing changes to watches. -/

namespace Gcs
open IntervalSet Queue

section
variable {n np : Nat}

/-- Watch ids are handed out once. -/
def IdsOK (w : Watches) : Prop := ∀ v, ((armed w v).map (·.id)).Nodup ∧ ∀ x ∈ armed w v, x.id < w.nextId

/-- The same watches are armed, up to the order of the lists. -/
structure WLike (w u : Watches) : Prop where
  armed : ∀ v, (armed u v).Perm (armed w v)
  len : w.byVar.length ≤ u.byVar.length

theorem WLike.refl (w : Watches) : WLike w w := ⟨fun _ => .refl _, Nat.le_refl _⟩
theorem WLike.trans {a b c : Watches} (h : WLike a b) (k : WLike b c) : WLike a c :=
  ⟨fun v => (k.armed v).trans (h.armed v), Nat.le_trans h.len k.len⟩

theorem IdsOK.like {w u : Watches} (h : IdsOK w) (k : WLike w u) (hn : w.nextId ≤ u.nextId) : IdsOK u := by
  intro v
  refine ⟨((k.armed v).map _).nodup_iff.2 (h v).1, fun x hx => ?_⟩
  have := (h v).2 x ((k.armed v).mem_iff.1 hx); omega

theorem armed_set {w : Watches} {v : Nat} (hv : v < w.byVar.length) (l : List RefinedWatch) (u : Nat) :
    armed { w with byVar := w.byVar.set v l } u = if u = v then l else armed w u := by
  unfold armed
  simp only [List.getElem?_set]
  by_cases h : v = u
  · subst h; simp [hv]
  · rw [if_neg h, if_neg (fun e => h e.symm)]

theorem armed_register (w : Watches) (o : Nat) (l : Lit) (p : Nat) (t : Bool) {v : Nat} (hv : l.underlyingIndex = some v) (i : Nat) :
    armed (w.register o l p t) i = armed w i ++ if i = v then [⟨l, p, o, w.nextId, triggerMask l⟩] else [] := register_byVar w o l p t hv i

theorem WStep.ids {w w' : Watches} (h : WStep n np w w') (hw : IdsOK w) : IdsOK w' ∧ w.nextId ≤ w'.nextId := by
  cases h with
  | register o l p h1 h2 h3 =>
    cases hu : l.underlyingIndex with
    | none =>
      have : w.register o l p true = w := by unfold Watches.register; rw [hu]
      rw [this]; exact ⟨hw, Nat.le_refl _⟩
    | some u =>
      have hid : (w.register o l p true).nextId = w.nextId + 1 := by unfold Watches.register; rw [hu]
      refine ⟨fun v => ?_, by omega⟩
      rw [armed_register w o l p true hu, hid]
      by_cases hv : v = u
      · rw [if_pos hv]
        constructor
        · rw [List.map_append, List.nodup_append]
          refine ⟨(hw v).1, by simp, ?_⟩
          intro a ha b hb hab
          simp at hb
          obtain ⟨x, hx, hxe⟩ := List.mem_map.1 ha
          have := (hw v).2 x hx
          omega
        · intro x hx
          rcases List.mem_append.1 hx with hx | hx
          · have := (hw v).2 x hx; omega
          · rw [List.mem_singleton.1 hx]; exact Nat.lt_succ_self _
      · rw [if_neg hv, List.append_nil]
        exact ⟨(hw v).1, fun x hx => by have := (hw v).2 x hx; omega⟩
  | remove v ws test r hb hr =>
    refine ⟨fun u => ?_, Nat.le_refl _⟩
    have hlt : v < w.byVar.length := (List.getElem?_eq_some_iff.1 hb).1
    have ha := armed_set hlt r.1 u
    have ha' : armed { w with byVar := w.byVar.set v r.1, trail := (r.2.map (fun x => ⟨false, v, x⟩)).reverse ++ w.trail } u = if u = v then r.1 else armed w u := ha
    rw [ha']
    have hp := (Watches.removeLoop_ok test 0 ws hr).1
    have hws : armed w v = ws := by unfold armed; rw [hb]; rfl
    by_cases hu : u = v
    · subst hu
      rw [if_pos rfl]
      have h1 := hw u
      rw [hws] at h1
      constructor
      · have := (hp.map (·.id)).nodup_iff.2 h1.1
        rw [List.map_append] at this
        exact (List.nodup_append.1 this).1
      · intro x hx; exact h1.2 x (hp.mem_iff.1 (by simp [hx]))
    · rw [if_neg hu]; exact hw u
  | stateSet o k v => exact ⟨hw, Nat.le_refl _⟩
  | box i p => exact ⟨hw, Nat.le_refl _⟩

theorem WSteps.ids {w w' : Watches} (h : WSteps n np w w') (hw : IdsOK w) : IdsOK w' ∧ w.nextId ≤ w'.nextId := by
  induction h with
  | refl => exact ⟨hw, Nat.le_refl _⟩
  | snoc _ s ih => exact ⟨(s.ids ih.1).1, Nat.le_trans ih.2 (s.ids ih.1).2⟩

theorem removeId_perm {l : List RefinedWatch} {x : RefinedWatch} (hx : x ∈ l) (hn : (l.map (·.id)).Nodup) : (x :: Watches.removeId x.id l).Perm l := by
  unfold Watches.removeId
  cases hf : l.findIdx? (fun y => y.id = x.id) with
  | none =>
    have := List.findIdx?_eq_none_iff.1 hf x hx
    simp at this
  | some i =>
    simp only
    obtain ⟨hi, hp, _⟩ := List.findIdx?_eq_some_iff_getElem.1 hf
    have hix : l[i]? = some x := by
      obtain ⟨j, hj⟩ := List.mem_iff_getElem?.1 hx
      obtain ⟨hjl, hjx⟩ := List.getElem?_eq_some_iff.1 hj
      have hid : l[i].id = x.id := by simpa using hp
      have : i = j := by
        have key : ∀ a b (ha : a < l.length) (hb : b < l.length), a < b → l[a].id ≠ l[b].id := by
          intro a b ha hb hab
          have := List.pairwise_iff_getElem.1 hn a b (by simpa using ha) (by simpa using hb) hab
          simpa using this
        rcases Nat.lt_trichotomy i j with h | h | h
        · exact absurd (by rw [hid, hjx]) (key i j hi hjl h)
        · exact h
        · exact absurd (by rw [hid, hjx]) (key j i hjl hi h)
      subst this; exact hj
    exact (Watches.swapRemove_perm hix).1

/-- Undoing a batch of removals from the list of `v`. -/
theorem undo_removals (v start : Nat) : ∀ (ys : List RefinedWatch) (rest : List WatchEdit) (u : Watches), v < u.byVar.length → start ≤ rest.length →
    ∃ u', u' = { u with byVar := u'.byVar } ∧ u'.byVar.length = u.byVar.length ∧ (∀ x, armed u' x = if x = v then armed u v ++ ys else armed u x) ∧
      Watches.undoTrail start (ys.map (fun x => ⟨false, v, x⟩) ++ rest) u = Watches.undoTrail start rest u'
  | [], rest, u, _, _ => ⟨u, rfl, rfl, by intro x; split <;> simp_all, rfl⟩
  | y :: ys, rest, u, hv, hs => by
    obtain ⟨u', h1, h2, h3, h4⟩ := undo_removals v start ys rest { u with byVar := u.byVar.set v (armed u v ++ [y]) } (by simpa using hv) hs
    refine ⟨u', ?_, ?_, ?_, ?_⟩
    · rw [h1]
    · rw [h2]; simp
    · intro x
      rw [h3, armed_set hv, armed_set hv, if_pos rfl]
      by_cases hx : x = v
      · rw [if_pos hx, if_pos hx]; simp
      · rw [if_neg hx, if_neg hx, if_neg hx]
    · rw [← h4]
      conv => lhs; unfold Watches.undoTrail
      simp only [List.map_cons, List.cons_append, List.length_cons]
      rw [if_pos (by simp; omega)]
      have : Watches.undoEdit ⟨false, v, y⟩ u = .ok { u with byVar := u.byVar.set v (armed u v ++ [y]) } := by
        have hg : u.byVar[v]? = some (armed u v) := by unfold armed; rw [List.getElem?_eq_getElem hv]; rfl
        unfold Watches.undoEdit
        rw [vecAt_ok.2 hg]; rfl
      rw [this]; rfl

/-- Undoing one change. -/
theorem WStep.undo {w w' : Watches} (h : WStep n np w w') (hw : IdsOK w) (start : Nat) (hs : start ≤ w.trail.length) {u : Watches} (hu : WLike w' u) :
    ∃ u', u' = { u with byVar := u'.byVar } ∧ WLike w u' ∧ Watches.undoTrail start w'.trail u = Watches.undoTrail start w.trail u' := by
  cases h with
  | register o l p h1 h2 h3 =>
    cases hl : l.underlyingIndex with
    | none =>
      have : w.register o l p true = w := by unfold Watches.register; rw [hl]
      rw [this] at hu ⊢; exact ⟨u, rfl, hu, rfl⟩
    | some v =>
      have ha := fun i => armed_register w o l p true hl i
      have htr : (w.register o l p true).trail = ⟨true, v, ⟨l, p, o, w.nextId, triggerMask l⟩⟩ :: w.trail := by unfold Watches.register; rw [hl]; rfl
      have hbl : (w.register o l p true).byVar.length = max w.byVar.length (v + 1) := by
        unfold Watches.register; rw [hl]; simp [growTo_length]
      generalize hx : (⟨l, p, o, w.nextId, triggerMask l⟩ : RefinedWatch) = x at ha htr
      have hids := (WStep.ids (WStep.register (n := n) (np := np) w o l p h1 h2 h3) hw).1
      generalize w.register o l p true = w' at *
      have hlen := hu.len
      have hv : v < u.byVar.length := by omega
      have hpv := hu.armed v
      rw [ha, if_pos rfl] at hpv
      have hmem : x ∈ armed u v := hpv.mem_iff.2 (by simp)
      have hnd : ((armed u v).map (·.id)).Nodup := by
        rw [(hpv.map _).nodup_iff]
        have := (hids v).1
        rw [ha, if_pos rfl] at this; exact this
      have hrem := removeId_perm hmem hnd
      refine ⟨{ u with byVar := u.byVar.set v (Watches.removeId x.id (armed u v)) }, rfl, ⟨?_, by simp; omega⟩, ?_⟩
      · intro i
        rw [armed_set hv]
        by_cases hi : i = v
        · rw [if_pos hi, hi]
          refine List.Perm.cons_inv (a := x) ?_
          exact (hrem.trans hpv).trans (List.perm_append_singleton ..)
        · rw [if_neg hi]
          have := hu.armed i
          rw [ha, if_neg hi, List.append_nil] at this
          exact this
      · rw [htr]
        conv => lhs; unfold Watches.undoTrail
        rw [if_pos (by simp; omega)]
        have hg : u.byVar[v]? = some (armed u v) := by unfold armed; rw [List.getElem?_eq_getElem hv]; rfl
        have : Watches.undoEdit ⟨true, v, x⟩ u = .ok { u with byVar := u.byVar.set v (Watches.removeId x.id (armed u v)) } := by
          unfold Watches.undoEdit; rw [vecAt_ok.2 hg]; rfl
        rw [this]; rfl
  | remove v ws test r hb hr =>
    have hlt : v < w.byVar.length := (List.getElem?_eq_some_iff.1 hb).1
    have hp := (Watches.removeLoop_ok test 0 ws hr).1
    have hws : armed w v = ws := by unfold armed; rw [hb]; rfl
    have ha' : ∀ x, armed { w with byVar := w.byVar.set v r.1, trail := (r.2.map (fun x => ⟨false, v, x⟩)).reverse ++ w.trail } x = if x = v then r.1 else armed w x :=
      fun x => armed_set hlt r.1 x
    have hlen : w.byVar.length ≤ u.byVar.length := by have := hu.len; simpa using this
    obtain ⟨u', h1, h2, h3, h4⟩ := undo_removals v start r.2.reverse w.trail u (by omega) hs
    refine ⟨u', h1, ⟨?_, by omega⟩, ?_⟩
    · intro x
      rw [h3]
      have := hu.armed x
      rw [ha'] at this
      by_cases hx : x = v
      · rw [if_pos hx] at this ⊢
        rw [hx] at this ⊢
        rw [hws]
        exact (this.append (List.reverse_perm _)).trans hp
      · rw [if_neg hx] at this ⊢; exact this
    · rw [← h4, List.map_reverse]
  | stateSet o k v => exact ⟨u, rfl, ⟨hu.armed, hu.len⟩, rfl⟩
  | box i p => exact ⟨u, rfl, ⟨hu.armed, hu.len⟩, rfl⟩

theorem WSteps.trail_le {w w' : Watches} (h : WSteps n np w w') : w.trail.length ≤ w'.trail.length := by
  induction h with
  | refl => exact Nat.le_refl _
  | snoc _ s ih =>
    refine Nat.le_trans ih ?_
    cases s with
    | register o l p => unfold Watches.register; cases l.underlyingIndex <;> simp
    | remove => simp
    | stateSet => exact Nat.le_refl _
    | box => exact Nat.le_refl _

theorem WSteps.undo {w w' : Watches} (h : WSteps n np w w') (hw : IdsOK w) {u : Watches} (hu : WLike w' u) (start : Nat) (hs : start ≤ w.trail.length) :
    ∃ u', u' = { u with byVar := u'.byVar } ∧ WLike w u' ∧ Watches.undoTrail start w'.trail u = Watches.undoTrail start w.trail u' := by
  induction h generalizing u with
  | refl => exact ⟨u, rfl, hu, rfl⟩
  | snoc h s ih =>
    obtain ⟨u1, a1, a2, a3⟩ := s.undo (h.ids hw).1 start (Nat.le_trans hs h.trail_le) hu
    obtain ⟨u2, b1, b2, b3⟩ := ih a2
    exact ⟨u2, by rw [b1, a1], b2, a3.trans b3⟩

theorem undoTrail_stop (es : List WatchEdit) (u : Watches) : Watches.undoTrail es.length es u = .ok { u with trail := es } := by
  cases es with
  | nil => rfl
  | cons e es => unfold Watches.undoTrail; rw [if_neg (by simp)]

/-! ## Scratch state -/

/-- The same scratch values, and at least as much room. -/
structure SLike (w u : Watches) : Prop where
  get : ∀ o k, u.stateGet o k = w.stateGet o k
  room : ∀ (o : Nat) vs, w.wstate[o]? = some vs → ∃ us, u.wstate[o]? = some us ∧ vs.length ≤ us.length

theorem SLike.refl (w : Watches) : SLike w w := ⟨fun _ _ => rfl, fun _ vs h => ⟨vs, h, Nat.le_refl _⟩⟩
theorem SLike.trans {a b c : Watches} (h : SLike a b) (k : SLike b c) : SLike a c where
  get o i := (k.get o i).trans (h.get o i)
  room o vs hv := by
    obtain ⟨us, h1, h2⟩ := h.room o vs hv
    obtain ⟨ts, k1, k2⟩ := k.room o us h1
    exact ⟨ts, k1, Nat.le_trans h2 k2⟩

theorem stateSet_spec (w : Watches) (o k x : Nat) :
    ∃ vs, (w.stateSet o k x).wstate[o]? = some vs ∧ k < vs.length ∧ (w.wstate[o]?.getD []).length ≤ vs.length ∧
    (∀ i, vs[i]?.getD 0 = if i = k then x else w.stateGet o i) ∧
    (∀ o', o' ≠ o → (w.stateSet o k x).wstate[o']?.getD [] = w.wstate[o']?.getD []) ∧
    (∀ (o' : Nat) us, o' ≠ o → w.wstate[o']? = some us → (w.stateSet o k x).wstate[o']? = some us) ∧
    (w.stateSet o k x).wsTrail = ⟨o, k, w.stateGet o k⟩ :: w.wsTrail := by
  have hget : ∀ i, (w.wstate[o]?.getD [])[i]?.getD 0 = w.stateGet o i := by
    intro i; unfold Watches.stateGet; cases w.wstate[o]? <;> simp
  have hgrow : (Watches.growTo [] (o + 1) w.wstate)[o]?.getD [] = w.wstate[o]?.getD [] := by
    rw [growTo_get]
    by_cases h : o < w.wstate.length
    · rw [if_pos h]
    · rw [if_neg h, if_pos (by omega), List.getElem?_eq_none (by omega)]; rfl
  have hv : ∀ i, (Watches.growTo 0 (k + 1) (w.wstate[o]?.getD []))[i]?.getD 0 = w.stateGet o i := by
    intro i
    rw [← hget, growTo_get]
    by_cases h : i < (w.wstate[o]?.getD []).length
    · rw [if_pos h]
    · rw [if_neg h, List.getElem?_eq_none (by omega)]; split <;> rfl
  have hlen : o < (Watches.growTo [] (o + 1) w.wstate).length := by rw [growTo_length]; omega
  refine ⟨(Watches.growTo 0 (k + 1) (w.wstate[o]?.getD [])).set k x, ?_, ?_, ?_, ?_, ?_, ?_, ?_⟩
  · unfold Watches.stateSet
    simp only [hgrow]
    rw [List.getElem?_set, if_pos rfl, if_pos hlen]
  · rw [List.length_set, growTo_length]; omega
  · rw [List.length_set, growTo_length]; omega
  · intro i
    rw [List.getElem?_set]
    by_cases h : k = i
    · subst h
      rw [if_pos rfl, if_pos (by rw [growTo_length]; omega), if_pos rfl]; rfl
    · rw [if_neg h, if_neg (fun e => h e.symm), hv]
  · intro o' ho
    unfold Watches.stateSet
    simp only
    rw [List.getElem?_set, if_neg (fun e => ho e.symm), growTo_get]
    by_cases h : o' < w.wstate.length
    · rw [if_pos h]
    · rw [if_neg h, List.getElem?_eq_none (by omega)]; split <;> rfl
  · intro o' us ho hu
    unfold Watches.stateSet
    simp only
    rw [List.getElem?_set, if_neg (fun e => ho e.symm), growTo_get, if_pos (List.getElem?_eq_some_iff.1 hu).1]; exact hu
  · unfold Watches.stateSet
    simp only [hgrow, hv]

theorem stateGet_eq (w : Watches) (o i : Nat) : w.stateGet o i = (w.wstate[o]?.getD [])[i]?.getD 0 := by
  unfold Watches.stateGet; cases w.wstate[o]? <;> simp

theorem WStep.undoS {w w' : Watches} (h : WStep n np w w') (start : Nat) (hs : start ≤ w.wsTrail.length) {u : Watches} (hu : SLike w' u) :
    ∃ u', u' = { u with wstate := u'.wstate } ∧ SLike w u' ∧ Watches.undoStates start w'.wsTrail u = Watches.undoStates start w.wsTrail u' := by
  cases h with
  | register o l p =>
    have h1 : (w.register o l p true).wstate = w.wstate := by unfold Watches.register; cases l.underlyingIndex <;> rfl
    have h2 : (w.register o l p true).wsTrail = w.wsTrail := by unfold Watches.register; cases l.underlyingIndex <;> rfl
    refine ⟨u, rfl, ⟨?_, ?_⟩, by rw [h2]⟩
    · intro o' k; rw [hu.get]; simp only [stateGet_eq, h1]
    · intro o' vs hv; exact hu.room o' vs (by rw [h1]; exact hv)
  | remove v ws test r hb hr => exact ⟨u, rfl, ⟨hu.get, hu.room⟩, rfl⟩
  | box i p => exact ⟨u, rfl, ⟨hu.get, hu.room⟩, rfl⟩
  | stateSet o k x =>
    obtain ⟨vs, h1, h2, h3, h4, h5, h6, h7⟩ := stateSet_spec w o k x
    obtain ⟨us, u1, u2⟩ := hu.room o vs h1
    have hol : o < u.wstate.length := (List.getElem?_eq_some_iff.1 u1).1
    refine ⟨{ u with wstate := u.wstate.set o (us.set k (w.stateGet o k)) }, rfl, ⟨?_, ?_⟩, ?_⟩
    · intro o' i
      rw [stateGet_eq]
      simp only [List.getElem?_set]
      by_cases ho : o = o'
      · subst ho
        rw [if_pos rfl, if_pos hol]
        simp only [Option.getD_some, List.getElem?_set]
        by_cases hi : k = i
        · subst hi; rw [if_pos rfl, if_pos (by omega)]; rfl
        · rw [if_neg hi]
          have e1 := hu.get o i
          rw [stateGet_eq, stateGet_eq, u1, h1] at e1
          simp only [Option.getD_some] at e1
          rw [e1, h4, if_neg (fun e => hi e.symm)]
      · rw [if_neg ho]
        have e1 := hu.get o' i
        rw [stateGet_eq, stateGet_eq, h5 o' (fun e => ho e.symm), ← stateGet_eq w] at e1
        exact e1
    · intro o' ws hw
      simp only [List.getElem?_set]
      by_cases ho : o = o'
      · subst ho
        rw [if_pos rfl, if_pos hol]
        refine ⟨_, rfl, ?_⟩
        rw [hw] at h3
        simp at h3 ⊢; omega
      · rw [if_neg ho]
        exact hu.room o' ws (h6 o' ws (fun e => ho e.symm) hw)
    · rw [h7]
      conv => lhs; unfold Watches.undoStates
      rw [if_pos (by simp; omega)]
      have : Watches.undoState ⟨o, k, w.stateGet o k⟩ u = .ok { u with wstate := u.wstate.set o (us.set k (w.stateGet o k)) } := by
        unfold Watches.undoState
        rw [vecAt_ok.2 u1]
        show (if k < us.length then _ else _) = _
        rw [if_pos (by omega)]; rfl
      rw [this]; rfl

theorem WSteps.wsTrail_le {w w' : Watches} (h : WSteps n np w w') : w.wsTrail.length ≤ w'.wsTrail.length := by
  induction h with
  | refl => exact Nat.le_refl _
  | snoc _ s ih =>
    refine Nat.le_trans ih ?_
    cases s with
    | register o l p => unfold Watches.register; cases l.underlyingIndex <;> simp
    | remove => exact Nat.le_refl _
    | stateSet => simp [Watches.stateSet]
    | box => exact Nat.le_refl _

theorem WSteps.undoS {w w' : Watches} (h : WSteps n np w w') {u : Watches} (hu : SLike w' u) (start : Nat) (hs : start ≤ w.wsTrail.length) :
    ∃ u', u' = { u with wstate := u'.wstate } ∧ SLike w u' ∧ Watches.undoStates start w'.wsTrail u = Watches.undoStates start w.wsTrail u' := by
  induction h generalizing u with
  | refl => exact ⟨u, rfl, hu, rfl⟩
  | snoc h s ih =>
    obtain ⟨u1, a1, a2, a3⟩ := s.undoS start (Nat.le_trans hs h.wsTrail_le) hu
    obtain ⟨u2, b1, b2, b3⟩ := ih a2
    exact ⟨u2, by rw [b1, a1], b2, a3.trans b3⟩

theorem undoStates_stop (es : List WatchStateEdit) (u : Watches) : Watches.undoStates es.length es u = .ok { u with wsTrail := es } := by
  cases es with
  | nil => rfl
  | cons e es => unfold Watches.undoStates; rw [if_neg (by simp)]

/-- `u` is `w` as far as watching is concerned. -/
structure Watches.Same (w u : Watches) : Prop where
  like : WLike w u
  slike : SLike w u
  trail : u.trail = w.trail
  wsTrail : u.wsTrail = w.wsTrail
  nextId : w.nextId ≤ u.nextId

theorem Watches.Same.refl (w : Watches) : w.Same w := ⟨.refl _, .refl _, rfl, rfl, Nat.le_refl _⟩
theorem Watches.Same.trans {a b c : Watches} (h : a.Same b) (k : b.Same c) : a.Same c :=
  ⟨h.like.trans k.like, h.slike.trans k.slike, k.trail.trans h.trail, k.wsTrail.trans h.wsTrail, Nat.le_trans h.nextId k.nextId⟩

/-- After any changes to the watches, and to anything that ends up the same up to order, the callback puts everything back. -/
theorem undo_restores {w w' u : Watches} (h : WSteps n np w w') (hw : IdsOK w) (hu : w'.Same u) :
    ∃ u', Watches.undo w.trail.length w.wsTrail.length u = .ok u' ∧ w.Same u' ∧ u'.inbox = u.inbox ∧ u'.pending = u.pending := by
  obtain ⟨u1, a1, a2, a3⟩ := h.undo hw hu.like w.trail.length (Nat.le_refl _)
  rw [undoTrail_stop] at a3
  have hs1 : SLike w' { u1 with trail := w.trail } := by
    have : ({ u1 with trail := w.trail } : Watches).wstate = u.wstate := by rw [a1]
    refine ⟨fun o k => ?_, fun o vs hv => ?_⟩
    · rw [stateGet_eq, this, ← stateGet_eq]; exact hu.slike.get o k
    · rw [this]; exact hu.slike.room o vs hv
  obtain ⟨u2, b1, b2, b3⟩ := h.undoS hs1 w.wsTrail.length (Nat.le_refl _)
  rw [undoStates_stop] at b3
  have hws : ({ u1 with trail := w.trail } : Watches).wsTrail = w'.wsTrail := by rw [a1]; exact hu.wsTrail
  refine ⟨{ u2 with wsTrail := w.wsTrail }, ?_, ⟨⟨?_, ?_⟩, ⟨b2.get, b2.room⟩, ?_, rfl, ?_⟩, ?_, ?_⟩
  · unfold Watches.undo
    rw [hu.trail, a3]
    show Watches.undoStates w.wsTrail.length ({ u1 with trail := w.trail } : Watches).wsTrail { u1 with trail := w.trail } = _
    exact (congrArg (fun x => Watches.undoStates w.wsTrail.length x { u1 with trail := w.trail }) hws).trans b3
  · intro v
    have : ({ u2 with wsTrail := w.wsTrail } : Watches).byVar = u1.byVar := by rw [b1]
    have e : armed { u2 with wsTrail := w.wsTrail } v = armed u1 v := by unfold armed; rw [this]
    rw [e]; exact a2.armed v
  · have : ({ u2 with wsTrail := w.wsTrail } : Watches).byVar = u1.byVar := by rw [b1]
    rw [this]; exact a2.len
  · show u2.trail = _; rw [b1]
  · show _ ≤ u2.nextId
    rw [b1]
    show _ ≤ u1.nextId
    rw [a1]
    exact Nat.le_trans (h.ids hw).2 hu.nextId
  · show u2.inbox = _; rw [b1]; show u1.inbox = _; rw [a1]
  · show u2.pending = _; rw [b1]; show u1.pending = _; rw [a1]

end
end Gcs
