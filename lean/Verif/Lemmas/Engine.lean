import Verif.Lemmas.Run
import Verif.Props.Queue

/-! Lemmas about waking propagators and firing watches. -/

namespace Gcs
open IntervalSet

/-! ## Removing from watch lists -/

namespace Watches

theorem swapRemove_perm {ws : List RefinedWatch} {i : Nat} {x : RefinedWatch} (h : ws[i]? = some x) :
    (x :: swapRemove i ws).Perm ws ∧ (swapRemove i ws).take i = ws.take i := by
  obtain ⟨hi, hx⟩ := List.getElem?_eq_some_iff.1 h
  have hne : ws ≠ [] := by intro he; subst he; simp at hi
  obtain ⟨l, b, rfl⟩ : ∃ l b, ws = l ++ [b] := ⟨ws.dropLast, ws.getLast hne, (List.dropLast_concat_getLast hne).symm⟩
  unfold swapRemove
  simp only [List.getLast?_append, List.getLast?_singleton, Option.some_or]
  simp only [List.length_append, List.length_cons, List.length_nil] at hi
  by_cases hl : i < l.length
  · rw [List.set_append_left _ _ hl, List.dropLast_concat]
    rw [List.getElem?_append_left hl] at h
    obtain ⟨_, hx'⟩ := List.getElem?_eq_some_iff.1 h
    constructor
    · have h1 : l = l.take i ++ x :: l.drop (i + 1) := by
        conv => lhs; rw [← List.take_append_drop i l]
        rw [List.drop_eq_getElem_cons hl, hx']
      have h2 : l.set i b = l.take i ++ b :: l.drop (i + 1) := List.set_eq_take_append_cons_drop .. |>.trans (by rw [if_pos hl])
      rw [h2]
      conv => rhs; rw [h1]
      generalize l.take i = l1
      generalize l.drop (i + 1) = l2
      have a1 : (x :: (l1 ++ b :: l2)).Perm (x :: b :: (l1 ++ l2)) := .cons _ (List.perm_middle)
      have a2 : (l1 ++ x :: l2 ++ [b]).Perm (x :: b :: (l1 ++ l2)) := by
        refine (List.perm_append_singleton ..).trans ?_
        refine (List.Perm.cons _ List.perm_middle).trans (.swap ..)
      exact a1.trans a2.symm
    · rw [List.take_append_of_le_length (by omega)]
      exact List.take_set_of_le (by omega)
  · have : i = l.length := by omega
    subst this
    have hxb : x = b := by simpa using hx.symm
    subst hxb
    have hset : (l ++ [x]).set l.length x = l ++ [x] := by
      rw [List.set_append_right _ _ (by omega)]; simp
    rw [hset, List.dropLast_concat]
    exact ⟨(List.perm_append_singleton ..).symm, by simp⟩

/-- What `removeLoop` keeps and removes. -/
theorem removeLoop_ok (test : RefinedWatch → Chk Bool) (i : Nat) (ws : List RefinedWatch) {r : List RefinedWatch × List RefinedWatch}
    (h : removeLoop test i ws = .ok r) :
    (r.1 ++ r.2).Perm ws ∧ r.1.take i = ws.take i ∧ (∀ x ∈ r.2, test x = .ok true) ∧ (∀ x ∈ r.1.drop i, test x = .ok false) := by
  unfold removeLoop at h
  split at h
  · rename_i hn
    cases h
    refine ⟨by simp, rfl, by simp, ?_⟩
    have := List.getElem?_eq_none_iff.1 hn
    rw [List.drop_eq_nil_of_le this]; simp
  · rename_i x hx
    have hlt := (List.getElem?_eq_some_iff.1 hx).1
    obtain ⟨b, hb, h⟩ := bind_ok h
    cases b with
    | true =>
      simp only [if_true] at h
      obtain ⟨r', hr', h⟩ := bind_ok h
      cases h
      have := removeLoop_ok test i (swapRemove i ws) hr'
      have hp := swapRemove_perm hx
      refine ⟨?_, this.2.1.trans hp.2, ?_, this.2.2.2⟩
      · exact (List.perm_middle.trans (.cons x this.1)).trans hp.1
      · intro y hy
        rcases List.mem_cons.1 hy with rfl | hy
        · exact hb
        · exact this.2.2.1 y hy
    | false =>
      simp only [Bool.false_eq_true, if_false] at h
      have := removeLoop_ok test (i + 1) ws h
      refine ⟨this.1, ?_, this.2.2.1, ?_⟩
      · have h2 := congrArg (List.take i) this.2.1
        rwa [List.take_take, List.take_take, Nat.min_eq_left (by omega)] at h2
      · intro y hy
        have hget : r.1[i]? = some x := by
          have h2 := congrArg (fun l => l[i]?) this.2.1
          simp only [List.getElem?_take, show i < i + 1 by omega, if_true] at h2
          rw [h2, hx]
        obtain ⟨hl, he⟩ := List.getElem?_eq_some_iff.1 hget
        rw [List.drop_eq_getElem_cons hl, he] at hy
        rcases List.mem_cons.1 hy with rfl | hy
        · exact hb
        · exact this.2.2.2 y hy
  termination_by ws.length - i
  decreasing_by
    all_goals first
      | omega
      | (rw [length_swapRemove]; omega)

theorem removeLoop_error (test : RefinedWatch → Chk Bool) (i : Nat) (ws : List RefinedWatch) {e : Err}
    (h : removeLoop test i ws = .error e) : ∃ x ∈ ws, test x = .error e := by
  unfold removeLoop at h
  split at h
  · cases h
  · rename_i x hx
    have hlt := (List.getElem?_eq_some_iff.1 hx).1
    rcases bind_error h with h | ⟨b, hb, h⟩
    · exact ⟨x, List.mem_of_getElem? hx, h⟩
    cases b with
    | true =>
      simp only [if_true] at h
      rcases bind_error h with h | ⟨b, _, h⟩
      · obtain ⟨y, hy, hy'⟩ := removeLoop_error test i (swapRemove i ws) h
        exact ⟨y, (swapRemove_perm hx).1.mem_iff.1 (by simp [hy]), hy'⟩
      · cases h
    | false =>
      simp only [Bool.false_eq_true, if_false] at h
      exact removeLoop_error test (i + 1) ws h
  termination_by ws.length - i
  decreasing_by
    all_goals first
      | omega
      | (rw [length_swapRemove]; omega)

end Watches

/-! ## The watch lists are sensible -/

/-- Every watch is listed under its own variable, has the mask of its literal, a valid owner and an id already handed out. -/
def WatchesOK (n np : Nat) (w : Watches) : Prop :=
  ∀ (v : Nat) ws x, w.byVar[v]? = some ws → x ∈ ws →
    x.literal.Valid n ∧ x.literal.RangeOK ∧ x.literal.underlyingIndex = some v ∧ x.owner < np ∧ x.mask = triggerMask x.literal ∧ x.id < w.nextId

variable {n np : Nat}

theorem growTo_get {α : Type} (d : α) (k i : Nat) (l : List α) : (Watches.growTo d k l)[i]? = if i < l.length then l[i]? else if i < k then some d else none := by
  unfold Watches.growTo
  rw [List.getElem?_append]
  split
  · rfl
  · rw [List.getElem?_replicate]
    by_cases h : i < k
    · rw [if_pos (by omega), if_pos h]
    · rw [if_neg (by omega), if_neg h]

theorem growTo_length {α : Type} (d : α) (k : Nat) (l : List α) : (Watches.growTo d k l).length = max l.length k := by
  unfold Watches.growTo; simp; omega

/-- The list for variable `v` after a registration. -/
theorem register_byVar (w : Watches) (o : Nat) (l : Lit) (p : Nat) (t : Bool) {v : Nat} (hv : l.underlyingIndex = some v) (i : Nat) :
    (w.register o l p t).byVar[i]?.getD [] =
      (w.byVar[i]?.getD []) ++ if i = v then [⟨l, p, o, w.nextId, triggerMask l⟩] else [] := by
  unfold Watches.register
  rw [hv]
  simp only
  rw [List.getElem?_set]
  by_cases h : v = i
  · subst h
    rw [if_pos rfl, if_pos (by rw [growTo_length]; omega), if_pos rfl]
    rw [growTo_get]
    by_cases h2 : v < w.byVar.length
    · simp [h2]
    · simp [h2]
  · rw [if_neg h, if_neg (fun e => h e.symm), growTo_get]
    by_cases h2 : i < w.byVar.length
    · simp [h2]
    · rw [if_neg h2, List.getElem?_eq_none (by omega)]
      split <;> simp

theorem WStep.ok {w w' : Watches} (h : WStep n np w w') (hw : WatchesOK n np w) : WatchesOK n np w' := by
  cases h with
  | register o l p h1 h2 h3 =>
    intro v ws x hv hx
    cases hu : l.underlyingIndex with
    | none => simp only [Watches.register, hu] at hv ⊢; exact hw v ws x hv hx
    | some u =>
      have := register_byVar w o l p true hu v
      rw [hv] at this
      simp only [Option.getD_some] at this
      rw [this] at hx
      have hid : (w.register o l p true).nextId = w.nextId + 1 := by unfold Watches.register; rw [hu]
      rcases List.mem_append.1 hx with hx | hx
      · cases hb : w.byVar[v]? with
        | none => rw [hb] at hx; simp at hx
        | some ws' =>
          rw [hb] at hx
          obtain ⟨a1, a2, a3, a4, a5, a6⟩ := hw v ws' x hb hx
          exact ⟨a1, a2, a3, a4, a5, by rw [hid]; omega⟩
      · split at hx
        · rename_i hvu
          rw [List.mem_singleton] at hx
          subst hx; subst hvu
          exact ⟨h2, h3, hu, h1, rfl, by rw [hid]; exact Nat.lt_succ_self _⟩
        · simp at hx
  | remove v ws test r hb hr =>
    intro v' ws' x hv hx
    simp only at hv
    rw [List.getElem?_set] at hv
    by_cases he : v = v'
    · subst he
      rw [if_pos rfl] at hv
      split at hv
      · cases hv
        have := (Watches.removeLoop_ok test 0 ws hr).1
        exact hw v ws x hb (this.mem_iff.1 (by simp [hx]))
      · cases hv
    · rw [if_neg he] at hv
      exact hw v' ws' x hv hx
  | stateSet o k v => exact hw
  | box i p => exact hw

theorem WSteps.ok {w w' : Watches} (h : WSteps n np w w') (hw : WatchesOK n np w) : WatchesOK n np w' := by
  induction h with
  | refl => exact hw
  | snoc _ s ih => exact s.ok ih

/-! ## Waking -/

open Queue

/-- `q'` is `q` with exactly the idle propagators in `S` made ready, behind those already ready. -/
structure Woken (np : Nat) (q q' : Queue) (S : Nat → Prop) : Prop where
  inv : Inv np q'
  begin_ : q'.begin_ = q.begin_
  idle : q'.idle = q.idle
  keep : ∀ i : Nat, i < q.end_ ∨ q.idle ≤ i → q'.queue[i]? = q.queue[i]?
  ready : ∀ x, x ∈ Ready q' ↔ x ∈ Ready q ∨ (IsIdle q x ∧ S x)
  order : Ready q <+: Ready q'

theorem Woken.end_le {q q' : Queue} {S} (hq : Inv np q) (h : Woken np q q' S) : q.end_ ≤ q'.end_ := by
  have h1 : (Ready q).length = q.end_ - q.begin_ := by unfold Ready; have := hq.ei; have := hq.idn; have := hq.qlen; simp; omega
  have h2 : (Ready q').length = q'.end_ - q'.begin_ := by unfold Ready; have := h.inv.ei; have := h.inv.idn; have := h.inv.qlen; simp; omega
  have := h.order.length_le
  have := h.begin_
  have := hq.be; have := h.inv.be
  omega

theorem Woken.done {q q' : Queue} {S} (hq : Inv np q) (h : Woken np q q' S) (x : Nat) : IsDone q' x ↔ IsDone q x := by
  unfold IsDone
  rw [h.begin_]
  have := hq.be
  constructor
  · rintro ⟨i, hi, hx⟩; exact ⟨i, hi, by rw [← h.keep i (.inl (by omega))]; exact hx⟩
  · rintro ⟨i, hi, hx⟩; exact ⟨i, hi, by rw [h.keep i (.inl (by omega))]; exact hx⟩

theorem Woken.disabled {q q' : Queue} {S} (h : Woken np q q' S) (x : Nat) : IsDisabled q' x ↔ IsDisabled q x := by
  unfold IsDisabled
  rw [h.idle]
  constructor
  · rintro ⟨i, hi, hx⟩; exact ⟨i, hi, by rw [← h.keep i (.inr hi)]; exact hx⟩
  · rintro ⟨i, hi, hx⟩; exact ⟨i, hi, by rw [h.keep i (.inr hi)]; exact hx⟩

/-- Idle: none of the others. -/
theorem idle_iff {q : Queue} (h : Inv np q) (x : Nat) : IsIdle q x ↔ x < np ∧ ¬ IsDone q x ∧ x ∉ Ready q ∧ ¬ IsDisabled q x := by
  have P := h.partition
  constructor
  · intro hx
    exact ⟨P.only x (.inr (.inr (.inl hx))), fun a => P.doneIdle x ⟨a, hx⟩, fun a => P.readyIdle x ⟨a, hx⟩, fun a => P.idleDisabled x ⟨hx, a⟩⟩
  · rintro ⟨h1, h2, h3, h4⟩
    rcases P.cover x h1 with a | a | a | a
    · exact absurd a h2
    · exact absurd a h3
    · exact a
    · exact absurd a h4

theorem Woken.idle_ {q q' : Queue} {S} (hq : Inv np q) (h : Woken np q q' S) (x : Nat) : IsIdle q' x ↔ IsIdle q x ∧ ¬ S x := by
  rw [idle_iff h.inv, idle_iff hq, h.done hq, h.disabled, h.ready, idle_iff hq]
  constructor
  · rintro ⟨a, b, c, d⟩
    have c1 : x ∉ Ready q := fun e => c (.inl e)
    exact ⟨⟨a, b, c1, d⟩, fun e => c (.inr ⟨⟨a, b, c1, d⟩, e⟩)⟩
  · rintro ⟨⟨a, b, c, d⟩, e⟩
    exact ⟨a, b, fun k => k.elim c (fun k => e k.2), d⟩

theorem Woken.refl {q : Queue} (h : Inv np q) : Woken np q q (fun _ => False) := ⟨h, rfl, rfl, fun _ _ => rfl, by simp, List.prefix_refl _⟩

theorem Woken.congr {q q' : Queue} {S T : Nat → Prop} (h : Woken np q q' S) (e : ∀ x, S x ↔ T x) : Woken np q q' T :=
  ⟨h.inv, h.begin_, h.idle, h.keep, fun x => by rw [h.ready, e], h.order⟩

theorem Woken.trans {q q1 q2 : Queue} {S T : Nat → Prop} (hq : Inv np q) (h : Woken np q q1 S) (k : Woken np q1 q2 T) : Woken np q q2 (fun x => S x ∨ T x) where
  inv := k.inv
  begin_ := k.begin_.trans h.begin_
  idle := k.idle.trans h.idle
  keep i hi := by
    have := h.end_le hq
    have hid := h.idle
    rw [k.keep i (by omega), h.keep i hi]
  ready x := by
    rw [k.ready, h.ready, h.idle_ hq]
    by_cases hs : S x <;> simp [hs]
  order := h.order.trans k.order

theorem enqueue_woken {q : Queue} (h : Inv np q) {p : Nat} (hp : p < np) : ∃ q', q.enqueueIfIdle p = .ok q' ∧ Woken np q q' (fun x => x = p) := by
  obtain ⟨q', e, hi, hb, hid, hk, h1, h2⟩ := enqueueIfIdle_spec h hp
  refine ⟨q', e, hi, hb, hid, hk, ?_, ?_⟩
  · intro x
    by_cases hI : IsIdle q p
    · rw [(h1 hI).1]; simp only [List.mem_append, List.mem_singleton]
      constructor
      · rintro (a | a)
        · exact .inl a
        · exact .inr ⟨a ▸ hI, a⟩
      · rintro (a | a)
        · exact .inl a
        · exact .inr a.2
    · rw [h2 hI]
      constructor
      · exact .inl
      · rintro (a | ⟨a, rfl⟩)
        · exact a
        · exact absurd a hI
  · by_cases hI : IsIdle q p
    · rw [(h1 hI).1]; exact List.prefix_append ..
    · rw [h2 hI]; exact List.prefix_refl _

/-- The coarse part of requeueing wakes exactly the idle subscribers that are not skipped. -/
theorem wake_spec (inf : Inference) (skip : Nat → Bool) : ∀ (ts : List (Nat × Mask)) {q : Queue}, Inv np q → (∀ t ∈ ts, t.1 < np) →
    ∃ q', Sys.wake inf skip ts q = .ok q' ∧ Woken np q q' (fun x => skip x = false ∧ ∃ m, (x, m) ∈ ts ∧ inf ∈ m)
  | [], q, h, _ => ⟨q, rfl, (Woken.refl h).congr (by simp)⟩
  | (p, m) :: r, q, h, hts => by
    by_cases hc : inf ∈ m ∧ ¬ skip p
    · obtain ⟨q1, e1, w1⟩ := enqueue_woken h (hts (p, m) (by simp))
      obtain ⟨q2, e2, w2⟩ := wake_spec inf skip r w1.inv (fun t ht => hts t (by simp [ht]))
      refine ⟨q2, ?_, (w1.trans h w2).congr ?_⟩
      · unfold Sys.wake
        rw [if_pos hc, e1]; exact e2
      · intro x
        constructor
        · rintro (rfl | ⟨a, m', b, c⟩)
          · exact ⟨by simpa using hc.2, m, by simp, hc.1⟩
          · exact ⟨a, m', by simp [b], c⟩
        · rintro ⟨a, m', b, c⟩
          rcases List.mem_cons.1 b with b | b
          · cases b; exact .inl rfl
          · exact .inr ⟨a, m', b, c⟩
    · obtain ⟨q2, e2, w2⟩ := wake_spec inf skip r h (fun t ht => hts t (by simp [ht]))
      refine ⟨q2, ?_, w2.congr ?_⟩
      · unfold Sys.wake
        rw [if_neg hc]; exact e2
      · intro x
        constructor
        · rintro ⟨a, m', b, c⟩; exact ⟨a, m', by simp [b], c⟩
        · rintro ⟨a, m', b, c⟩
          rcases List.mem_cons.1 b with b | b
          · cases b; exact absurd ⟨c, by simp [a]⟩ hc
          · exact ⟨a, m', b, c⟩

end Gcs
