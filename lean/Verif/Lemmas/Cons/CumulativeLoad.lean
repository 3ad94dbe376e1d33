import Verif.Lemmas.Cons.CumulativeSum
import Verif.Lemmas.Cons.Disjunctive2D

/-! What tasks use, and what they use in every case. -/

namespace Gcs.Cumulative
open IntervalSet

section
variable {d d0 root : Doms} {v : VarId} {t j : Task} {ts : List Task} {a : Asg} {u lo x : Int} {n : Nat}

/-- The least and the greatest value. -/
noncomputable def least (d : Doms) (v : VarId) : Int := Classical.epsilon (IsMin (Poss d v))
noncomputable def greatest (d : Doms) (v : VarId) : Int := Classical.epsilon (IsMax (Poss d v))

theorem min_eq {P : Int → Prop} {x y : Int} (hx : IsMin P x) (hy : IsMin P y) : x = y := by
  have h1 := hx.2 y hy.1
  have h2 := hy.2 x hx.1
  omega

theorem max_eq {P : Int → Prop} {x y : Int} (hx : IsMax P x) (hy : IsMax P y) : x = y := by
  have h1 := hx.2 y hy.1
  have h2 := hy.2 x hx.1
  omega

theorem least_spec (hd : DomsOK d) (hv : v.Valid d.length) : IsMin (Poss d v) (least d v) := by
  have ok := rawOf_ok hd hv
  obtain ⟨l, u, b⟩ := exists_bnd ok.wf ok.nonempty
  exact Classical.epsilon_spec (p := IsMin (Poss d v)) ⟨_, view_min hd hv b⟩

theorem greatest_spec (hd : DomsOK d) (hv : v.Valid d.length) : IsMax (Poss d v) (greatest d v) := by
  have ok := rawOf_ok hd hv
  obtain ⟨l, u, b⟩ := exists_bnd ok.wf ok.nonempty
  exact Classical.epsilon_spec (p := IsMax (Poss d v)) ⟨_, view_max hd hv b⟩

theorem low_roo (hd : DomsOK d) (hv : v.Valid d.length) : RightOrOverflow (lowerBound d v) (fun l => l = least d v ∧ InI64 l) :=
  (lower_roo hd hv).mono fun _ h => ⟨min_eq h.2 (least_spec hd hv), h.1⟩

theorem high_roo (hd : DomsOK d) (hv : v.Valid d.length) : RightOrOverflow (upperBound d v) (fun l => l = greatest d v ∧ InI64 l) :=
  (upper_roo hd hv).mono fun _ h => ⟨max_eq h.2 (greatest_spec hd hv), h.1⟩

theorem ends_roo (hd : DomsOK d) (hv : v.Valid d.length) : RightOrOverflow (bounds d v) (fun r => r.1 = least d v ∧ r.2 = greatest d v ∧ InI64 r.1 ∧ InI64 r.2) :=
  (bounds_roo hd hv).mono fun _ h => ⟨min_eq h.1.2 (least_spec hd hv), max_eq h.2.2 (greatest_spec hd hv), h.1.1, h.2.1⟩

/-- The task is there. -/
def Task.Here (t : Task) (a : Asg) : Prop := ∀ p, t.presence = some p → p.eval a = 1

instance : Decidable (t.Here a) := by
  unfold Task.Here
  cases h : t.presence with
  | none => exact .isTrue fun p h => (nomatch h)
  | some p =>
    by_cases e : p.eval a = 1
    · exact .isTrue fun q h => by cases h; exact e
    · exact .isFalse fun h => e (h p rfl)

/-- It is there in every case, and in some case. -/
def Task.Sure (t : Task) (d : Doms) : Prop := ∀ a, Within d a → t.Here a
def Task.Maybe (t : Task) (d : Doms) : Prop := ∃ a, Within d a ∧ t.Here a

/-- The variables. -/
def Task.vars (t : Task) : List VarId := [t.start, t.length, t.height] ++ t.presence.toList

structure Task.Valid (n : Nat) (t : Task) : Prop where
  start : t.start.Valid n
  length : t.length.Valid n
  height : t.height.Valid n
  presence : ∀ p, t.presence = some p → p.Valid n

/-- What is checked when it is posted. -/
structure Task.Sane (t : Task) (a : Asg) : Prop where
  length : 0 ≤ t.length.eval a
  height : 0 ≤ t.height.eval a
  presence : ∀ p, t.presence = some p → 0 ≤ p.eval a ∧ p.eval a ≤ 1

/-- All of it is known. -/
def Task.Set (t : Task) (d : Doms) : Prop := ∀ x ∈ t.vars, Known d x

theorem isPresent_roo (hd : DomsOK d) (ht : t.Valid d.length) (hs : ∀ a, Within d a → t.Sane a) : RightOrOverflow (isPresent d t) (fun b => b = true ↔ t.Sure d) := by
  unfold isPresent
  cases h : t.presence with
  | none => exact .pure ⟨fun _ a _ p hp => (nomatch h.symm.trans hp), fun _ => rfl⟩
  | some p =>
    refine (lower_roo hd (ht.presence p h)).bind fun l hl => .pure ?_
    rw [decide_eq_true_iff]
    refine ⟨fun e a ha q hq => ?_, fun k => ?_⟩
    · rw [h] at hq; cases hq
      have h1 := hl.2.le ha
      have h2 := ((hs a ha).presence p h).2
      omega
    · obtain ⟨b, hb, e⟩ := hl.2.1
      rw [← e]
      exact k b hb p h

theorem isAbsent_roo (hd : DomsOK d) (ht : t.Valid d.length) (hs : ∀ a, Within d a → t.Sane a) : RightOrOverflow (isAbsent d t) (fun b => b = false ↔ t.Maybe d) := by
  unfold isAbsent
  cases h : t.presence with
  | none =>
    obtain ⟨a, ha⟩ := exists_within hd
    exact .pure ⟨fun _ => ⟨a, ha, fun p hp => (nomatch h.symm.trans hp)⟩, fun _ => rfl⟩
  | some p =>
    refine (upper_roo hd (ht.presence p h)).bind fun l hl => .pure ?_
    rw [decide_eq_false_iff_not]
    obtain ⟨b, hb, e⟩ := hl.2.1
    have hb' := (hs b hb).presence p h
    refine ⟨fun k => ⟨b, hb, fun q hq => ?_⟩, fun ⟨a, ha, k⟩ => ?_⟩
    · rw [h] at hq; cases hq
      omega
    · have h1 := hl.2.ge ha
      have h2 := k p h
      omega

/-- What a task uses at the time `u`. -/
def use (a : Asg) (u : Int) (t : Task) : Int := if t.Here a ∧ t.start.eval a ≤ u ∧ u < t.start.eval a + t.length.eval a then t.height.eval a else 0

open Classical in
/-- What it uses in every case. -/
noncomputable def must (d : Doms) (u : Int) (t : Task) : Int := if t.Sure d ∧ greatest d t.start ≤ u ∧ u < least d t.start + least d t.length then least d t.height else 0

theorem use_nonneg (hs : t.Sane a) : 0 ≤ use a u t := by
  unfold use
  split
  · exact hs.height
  · exact Int.le_refl 0

theorem must_le (hd : DomsOK d) (ht : t.Valid d.length) (ha : Within d a) (hs : t.Sane a) : must d u t ≤ use a u t := by
  unfold must
  split
  · rename_i h
    have h1 := (least_spec hd ht.start).le ha; have h2 := (greatest_spec hd ht.start).ge ha; have h3 := (least_spec hd ht.length).le ha; have h4 := (least_spec hd ht.height).le ha
    rw [use, if_pos ⟨h.1 a ha, by omega, by omega⟩]
    exact h4
  · exact use_nonneg hs

theorem must_nonneg (hd : DomsOK d) (ht : t.Valid d.length) (hs : ∀ a, Within d a → t.Sane a) : 0 ≤ must d u t := by
  unfold must
  split
  · obtain ⟨b, hb, e⟩ := (least_spec hd ht.height).1
    have := (hs b hb).height
    omega
  · exact Int.le_refl 0

theorem must_eq (hd : DomsOK d) (ht : t.Valid d.length) (hk : t.Set d) (ha : Within d a) : must d u t = use a u t := by
  have k : ∀ x ∈ [t.start, t.length, t.height], Known d x := fun x hx => hk x (List.mem_append.2 (.inl hx))
  have e1 := (least_spec hd ht.start).eq (k _ (by simp)) ha
  have e2 := (greatest_spec hd ht.start).eq (k _ (by simp)) ha
  have e3 := (least_spec hd ht.length).eq (k _ (by simp)) ha
  have e4 := (least_spec hd ht.height).eq (k _ (by simp)) ha
  have e5 : t.Sure d ↔ t.Here a := ⟨fun h => h a ha, fun h b hb p hp => by
    rw [hk p (by simp [Task.vars, hp]) b a hb ha]; exact h p hp⟩
  rw [must, use, e1, e2, e3, e4]
  by_cases h : t.Here a ∧ t.start.eval a ≤ u ∧ u < t.start.eval a + t.length.eval a
  · rw [if_pos h, if_pos ⟨e5.2 h.1, h.2⟩]
  · rw [if_neg h, if_neg fun k => h ⟨e5.1 k.1, k.2⟩]

theorem Task.Sure.maybe (h : t.Sure d) (hd : DomsOK d) : t.Maybe d := by
  obtain ⟨a, ha⟩ := exists_within hd
  exact ⟨a, ha, h a ha⟩

/-- Everything that may run does so then. -/
structure Spans (d : Doms) (w : Int × Int) (t : Task) : Prop where
  lo : w.1 ≤ least d t.start
  hi : greatest d t.start + greatest d t.length - 1 ≤ w.2

/-- `t_lo` and `t_hi`. -/
def Horizon (d : Doms) (ts : List Task) : Option (Int × Int) → Prop
  | none => ∀ t ∈ ts, ¬ t.Maybe d
  | some w => InI64 w.1 ∧ InI64 w.2 ∧ ∀ t ∈ ts, t.Maybe d → Spans d w t

theorem horizon_roo (hd : DomsOK d) : ∀ (ts seen : List Task) (w : Option (Int × Int)), (∀ t ∈ ts, t.Valid d.length ∧ ∀ a, Within d a → t.Sane a) → Horizon d seen w →
    RightOrOverflow (horizon d ts w) (Horizon d (seen ++ ts))
  | [], seen, w, _, h => .pure (by simpa using h)
  | t :: ts, seen, w, hv, h => by
    have ht := (hv t List.mem_cons_self).1
    have ih := fun w h => horizon_roo hd ts (seen ++ [t]) w (fun s hs => hv s (List.mem_cons_of_mem _ hs)) h
    rw [List.append_assoc, List.singleton_append] at ih
    refine (isAbsent_roo hd ht (hv t List.mem_cons_self).2).bind fun b hb => ?_
    cases b with
    | true =>
      have hn : ¬ t.Maybe d := fun k => nomatch hb.2 k
      refine ih w ?_
      cases w with
      | none =>
          intro s hs
          rcases List.mem_append.1 hs with hs | hs
          · exact h s hs
          · rw [List.mem_singleton.1 hs]; exact hn
      | some w =>
          refine ⟨h.1, h.2.1, fun s hs hm => ?_⟩
          rcases List.mem_append.1 hs with hs | hs
          · exact h.2.2 s hs hm
          · rw [List.mem_singleton.1 hs] at hm; exact absurd hm hn
    | false =>
      refine (ends_roo hd ht.start).bind fun b hb' => (high_roo hd ht.length).bind fun l hl => (add_roo hb'.2.2.2 hl.2).bind fun e he => (sub_roo he.2 (by decide)).bind fun hi hhi => ?_
      refine ih _ ?_
      have f1 := hb'.1; have f2 := hb'.2.1; have f3 := hl.1; have f4 := he.1; have f5 := hhi.1
      cases w with
      | none =>
        refine ⟨hb'.2.2.1, hhi.2, fun s hs hm => ?_⟩
        rcases List.mem_append.1 hs with hs | hs
        · exact absurd hm (h s hs)
        · rw [List.mem_singleton.1 hs]
          exact ⟨by show b.1 ≤ _; omega, by show _ ≤ hi; omega⟩
      | some w =>
        obtain ⟨w1, w2⟩ := w
        refine ⟨?_, ?_, fun s hs hm => ?_⟩
        · show InI64 (if b.1 < w1 then b.1 else w1)
          split
          · exact hb'.2.2.1
          · exact h.1
        · show InI64 (if hi > w2 then hi else w2)
          split
          · exact hhi.2
          · exact h.2.1
        · rcases List.mem_append.1 hs with hs | hs
          · have := h.2.2 s hs hm
            have k1 := this.lo; have k2 := this.hi
            refine ⟨?_, ?_⟩
            · show (if b.1 < w1 then b.1 else w1) ≤ _
              have : w1 ≤ least d s.start := k1
              split <;> omega
            · show _ ≤ (if hi > w2 then hi else w2)
              have : _ ≤ w2 := k2
              split <;> omega
          · rw [List.mem_singleton.1 hs]
            refine ⟨?_, ?_⟩
            · show (if b.1 < w1 then b.1 else w1) ≤ _
              split <;> omega
            · show _ ≤ (if hi > w2 then hi else w2)
              split <;> omega

theorem least_le (hd : DomsOK d) (hv : v.Valid d.length) : least d v ≤ greatest d v := by
  obtain ⟨a, ha⟩ := exists_within hd
  have h1 := (least_spec hd hv).le ha
  have h2 := (greatest_spec hd hv).ge ha
  omega

theorem loadOne_roo {v : List Int} {g : Int → Int} {w : Int × Int} (hd : DomsOK d) (ht : t.Valid d.length) (hs : ∀ a, Within d a → t.Sane a) (hw : InI64 w.1) (hsp : t.Maybe d → Spans d w t)
    (hn : w.2 < w.1 + n) (hv : Vec v w.1 n g) (hf : Fine w.1 n g) :
    RightOrOverflow (loadOne d w.1 v t) (fun v' => Vec v' w.1 n (fun u => g u + must d u t) ∧ Fine w.1 n (fun u => g u + must d u t)) := by
  have idle : (∀ u, must d u t = 0) → Vec v w.1 n (fun u => g u + must d u t) ∧ Fine w.1 n (fun u => g u + must d u t) := fun h => by
    have : (fun u => g u + must d u t) = g := by funext u; rw [h u]; omega
    rw [this]; exact ⟨hv, hf⟩
  unfold loadOne
  refine (isPresent_roo hd ht hs).bind fun b hb => ?_
  cases b with
  | false => exact .pure (idle fun u => by rw [must, if_neg fun h => nomatch hb.2 h.1])
  | true =>
    have sure := hb.1 rfl
    have sp := hsp (sure.maybe hd)
    refine (high_roo hd ht.start).bind fun lst hlst => (low_roo hd ht.start).bind fun l hl => (low_roo hd ht.length).bind fun p hp => (add_roo hl.2 hp.2).bind fun eet heet => ?_
    have k1 := hlst.1; have k2 := hl.1; have k3 := hp.1; have k4 := heet.1
    split
    · refine (low_roo hd ht.height).bind fun h hh => ?_
      have k5 := least_le hd ht.start; have k6 := least_le hd ht.length; have k7 := sp.lo; have k8 := sp.hi
      refine (fill_roo hv hf hw hlst.2 heet.2 hh.2 (by omega) (by omega)).mono fun v' hv' => ?_
      have : (fun u => g u + must d u t) = fun u => g u + if lst ≤ u ∧ u < eet then h else 0 := by
        funext u
        rw [must]
        by_cases c : lst ≤ u ∧ u < eet
        · rw [if_pos c, if_pos ⟨sure, by omega, by omega⟩, hh.1]
        · rw [if_neg c, if_neg fun k => c ⟨by omega, by omega⟩]
      rw [this]; exact hv'
    · exact .pure (idle fun u => by rw [must, if_neg fun h => by omega])

/-- The profile. -/
theorem load_roo {w : Int × Int} (hd : DomsOK d) (hv : ∀ t ∈ ts, t.Valid d.length ∧ ∀ a, Within d a → t.Sane a) (hw : Horizon d ts (some w)) :
    RightOrOverflow (load d w ts) (fun v => ∃ n : Nat, w.2 < w.1 + n ∧ Vec v w.1 n (fun u => tot (must d u) ts) ∧ Fine w.1 n (fun u => tot (must d u) ts)) := by
  unfold load
  refine (sub_roo hw.2.1 hw.1).bind fun r hr => (add_roo hr.2 (by decide)).bind fun range hrange => ?_
  have e1 := hr.1; have e2 := hrange.1
  have hn : w.2 < w.1 + range.toNat := by omega
  refine (foldlM_roo (I := fun rest v => ∃ seen, seen ++ rest = ts ∧ Vec v w.1 range.toNat (fun u => tot (must d u) seen) ∧ Fine w.1 range.toNat (fun u => tot (must d u) seen)) ?_ ts _ ⟨[], rfl, ⟨by simp, fun k hk => by simp [hk]⟩, fun u _ _ => by simp [InI64, i64Min, i64Max]⟩).mono ?_
  · rintro t rest v ⟨seen, e, h1, h2⟩
    have hm : t ∈ ts := by rw [← e]; simp
    refine (loadOne_roo hd (hv t hm).1 (hv t hm).2 hw.1 (hw.2.2 t hm) hn h1 h2).mono fun v' h => ⟨seen ++ [t], by rw [← e]; simp, ?_⟩
    have : (fun u => tot (must d u) (seen ++ [t])) = fun u => tot (must d u) seen + must d u t := by funext u; simp
    rw [this]; exact h
  · rintro v ⟨seen, e, h1, h2⟩
    rw [List.append_nil] at e; subst e
    exact ⟨range.toNat, hn, h1, h2⟩

end
end Gcs.Cumulative
