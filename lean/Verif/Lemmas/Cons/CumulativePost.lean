import Verif.Lemmas.Cons.CumulativeInstall

namespace Gcs.Cumulative
open IntervalSet

section
variable {σ μ : Type} {m n : Nat} {R : Err → Prop} {d root : Doms} {t j : Task} {ts ps : List Task} {a : Asg} {u : Int} {o : Overload} {rules : Rules} {capacity : VarId}

/-- The answer, or an error that is allowed. -/
def Ends (x : Chk α) (P : α → Prop) (Q : Prop) : Prop := x = .error .overflow ∨ (x = .error .invalidProblem ∧ Q) ∨ ∃ r, x = .ok r ∧ P r

theorem Ends.bind {x : Chk α} {f : α → Chk β} {P : α → Prop} {P' : β → Prop} {Q : Prop} (h : RightOrOverflow x P) (hf : ∀ r, P r → Ends (f r) P' Q) : Ends (x >>= f) P' Q := by
  rcases h with h | ⟨r, h, hp⟩
  · exact .inl (by rw [h]; rfl)
  · rw [h]; exact hf r hp

/-- A length or a height may be negative. -/
def Negative (root : Doms) (t : Task) : Prop := ∃ a, Within root a ∧ (t.length.eval a < 0 ∨ t.height.eval a < 0)

theorem negative_roo (hd : DomsOK root) (ht : t.Valid root.length) : RightOrOverflow (negative root t) (fun b => b = true ↔ Negative root t) := by
  refine (lower_roo hd ht.length).bind fun x hx => ?_
  split
  · rename_i h
    obtain ⟨a, ha, e⟩ := hx.2.1
    exact .pure ⟨fun _ => ⟨a, ha, .inl (by omega)⟩, fun _ => rfl⟩
  · rename_i h
    refine (lower_roo hd ht.height).bind fun y hy => .pure ?_
    rw [decide_eq_true_iff]
    refine ⟨fun h => ?_, fun ⟨a, ha, h⟩ => ?_⟩
    · obtain ⟨a, ha, e⟩ := hy.2.1
      exact ⟨a, ha, .inr (by omega)⟩
    · have h1 := hx.2.le ha; have h2 := hy.2.le ha
      omega

/-- A presence may be something else than 0 and 1. -/
def Strange (root : Doms) (t : Task) : Prop := ∃ p a, t.presence = some p ∧ Within root a ∧ ¬ (0 ≤ p.eval a ∧ p.eval a ≤ 1)

theorem strange_roo (hd : DomsOK root) (ht : t.Valid root.length) : RightOrOverflow (strange root t) (fun b => b = true ↔ Strange root t) := by
  unfold strange
  cases h : t.presence with
  | none => exact .pure ⟨(fun h => nomatch h), fun ⟨p, a, hp, _⟩ => nomatch h.symm.trans hp⟩
  | some p =>
    refine (bounds_roo hd (ht.presence p h)).bind fun b hb => .pure ?_
    rw [decide_eq_true_iff]
    refine ⟨fun k => ?_, fun ⟨q, a, hq, ha, k⟩ => ?_⟩
    · rcases k with k | k
      · obtain ⟨a, ha, e⟩ := hb.1.2.1
        exact ⟨p, a, h, ha, by omega⟩
      · obtain ⟨a, ha, e⟩ := hb.2.2.1
        exact ⟨p, a, h, ha, by omega⟩
    · rw [h] at hq; cases hq
      have h1 := hb.1.2.le ha; have h2 := hb.2.2.ge ha
      omega

/-- It may use something. -/
def Active (root : Doms) (t : Task) : Prop := 0 < greatest root t.length ∧ 0 < greatest root t.height ∧ t.presence ≠ some (.const 0)

theorem active_roo (hd : DomsOK root) (ht : t.Valid root.length) : RightOrOverflow (active root t) (fun b => b = true ↔ Active root t) := by
  refine (high_roo hd ht.length).bind fun x hx => (high_roo hd ht.height).bind fun y hy => .pure ?_
  rw [decide_eq_true_iff, Active, ← hx.1, ← hy.1]

theorem resolve_vars : ∀ x ∈ (resolve t).vars, x ∈ t.vars := by
  unfold resolve
  split
  · intro x hx
    simp only [Task.vars, Option.toList_none, List.append_nil] at hx
    exact List.mem_append_left _ hx
  · exact fun _ h => h

theorem resolve_valid (ht : t.Valid n) : (resolve t).Valid n := by
  unfold resolve
  split
  · exact ⟨ht.start, ht.length, ht.height, fun p h => nomatch h⟩
  · exact ht

theorem resolve_sane (ht : t.Sane a) : (resolve t).Sane a := by
  unfold resolve
  split
  · exact ⟨ht.length, ht.height, fun p h => nomatch h⟩
  · exact ht

theorem use_resolve : use a u (resolve t) = use a u t := by
  unfold resolve
  split
  · rename_i h
    have e : ({ t with presence := none } : Task).Here a ↔ t.Here a := ⟨fun _ p hp => by rw [h] at hp; cases hp; rfl, fun _ p hp => nomatch hp⟩
    unfold use
    by_cases k : t.Here a ∧ t.start.eval a ≤ u ∧ u < t.start.eval a + t.length.eval a
    · rw [if_pos k, if_pos ⟨e.2 k.1, k.2⟩]
    · rw [if_neg k, if_neg fun k' => k ⟨e.1 k'.1, k'.2⟩]
  · rfl

theorem use_inactive (hd : DomsOK root) (ht : t.Valid root.length) (hs : t.Sane a) (ha : Within root a) (h : ¬ Active root t) : use a u t = 0 := by
  unfold use
  split
  · rename_i k
    have h1 := (greatest_spec hd ht.length).ge ha; have h2 := (greatest_spec hd ht.height).ge ha
    have h3 := hs.height
    by_cases k1 : 0 < greatest root t.length
    · by_cases k2 : 0 < greatest root t.height
      · refine absurd ⟨k1, k2, fun hp => ?_⟩ h
        have := k.1 _ hp
        exact absurd (show (0 : Int) = 1 from this) (by decide)
      · omega
    · omega
  · rfl

/-- What is posted for tasks. -/
theorem installTasks_ok {z0 : List σ} (ho : R .overflow) (hd : DomsOK root) (hv : ∀ t ∈ ps, t.Valid root.length) (hc : capacity.Valid root.length) (hT : rules.timeTable = true) :
    Ends (installTasks (σ := σ) (μ := μ) rules ps capacity root)
      (fun items => (∃ I es, es.map (·.1) = items ∧ Served root.length m R root z0 I (fun _ => False) (Low ps capacity) (ps.flatMap Task.vars ++ [capacity]) es) ∧
        (∀ t ∈ ps, ¬ Negative root t ∧ ¬ Strange root t) ∧ ∀ a, Within root a → 0 ≤ capacity.eval a)
      ((∃ t ∈ ps, Negative root t) ∨ (∃ a, Within root a ∧ capacity.eval a < 0) ∨ ∃ t ∈ ps, Strange root t) := by
  classical
  unfold installTasks
  refine .bind (anyOf_roo (P := Negative root) ps fun t ht => negative_roo hd (hv t ht)) fun b hb => ?_
  cases b with
  | true => exact .inr (.inl ⟨rfl, .inl (hb.1 rfl)⟩)
  | false =>
    refine .bind (lower_roo hd hc) fun c hcap => ?_
    split
    · rename_i hneg
      obtain ⟨a, ha, e⟩ := hcap.2.1
      exact .inr (.inl ⟨rfl, .inr (.inl ⟨a, ha, by omega⟩)⟩)
    · rename_i hpos
      have hpos : ∀ a, Within root a → 0 ≤ capacity.eval a := fun a ha => by have := hcap.2.le ha; omega
      refine .bind (anyOf_roo (P := Strange root) ps fun t ht => strange_roo hd (hv t ht)) fun b' hb' => ?_
      cases b' with
      | true => exact .inr (.inl ⟨rfl, .inr (.inr (hb'.1 rfl))⟩)
      | false =>
        have n1 : ∀ t ∈ ps, ¬ Negative root t := fun t ht h => nomatch hb.2 ⟨t, ht, h⟩
        have n2 : ∀ t ∈ ps, ¬ Strange root t := fun t ht h => nomatch hb'.2 ⟨t, ht, h⟩
        have sane : ∀ a, Within root a → ∀ t ∈ ps, t.Sane a := fun a ha t ht => by
          have k : ¬ (t.length.eval a < 0 ∨ t.height.eval a < 0) := fun k => n1 t ht ⟨a, ha, k⟩
          exact ⟨by omega, by omega, fun p hp => Classical.byContradiction fun k => n2 t ht ⟨p, a, hp, ha, k⟩⟩
        refine .bind (Disjunctive2D.keep_roo (P := Active root) ps fun t ht => active_roo hd (hv t ht)) fun kept hkept => ?_
        have sub : ∀ t ∈ kept, t ∈ ps ∧ Active root t := fun t ht => by
          rw [hkept] at ht
          have := List.mem_filter.1 ht
          exact ⟨this.1, of_decide_eq_true this.2⟩
        have same : ∀ a, Within root a → (Low ps capacity a ↔ Low (kept.map resolve) capacity a) := fun a ha => by
          have e : ∀ u, tot (use a u) (kept.map resolve) = tot (use a u) ps := fun u => by
            rw [tot_map, hkept, tot_filter]
            refine tot_congr fun t ht => ?_
            rw [use_resolve]
            split
            · rfl
            · rename_i hn
              exact (use_inactive hd (hv t ht) (sane a ha t ht) ha (by simpa using hn)).symm
          simp only [Low, e]
        show Ends (if kept.map resolve = [] then .ok [] else _) _ _
        split
        · rename_i hnil
          refine .inr (.inr ⟨_, rfl, ⟨fun _ _ => True, [], rfl, .nil fun a ha => (same a ha).2 ?_⟩, fun t ht => ⟨n1 t ht, n2 t ht⟩, hpos⟩)
          rw [hnil]
          exact fun u => hpos a ha
        · rename_i hne
          have from' : ∀ t ∈ kept.map resolve, ∃ s ∈ ps, Active root s ∧ t = resolve s := fun t ht => by
            obtain ⟨s, hs, rfl⟩ := List.mem_map.1 ht
            exact ⟨s, (sub s hs).1, (sub s hs).2, rfl⟩
          have val : ∀ t ∈ kept.map resolve, t.Valid root.length := fun t ht => by
            obtain ⟨s, hs, _, rfl⟩ := from' t ht
            exact resolve_valid (hv s hs)
          have sane' : ∀ a, Within root a → ∀ t ∈ kept.map resolve, t.Sane a := fun a ha t ht => by
            obtain ⟨s, hs, _, rfl⟩ := from' t ht
            exact resolve_sane (sane a ha s hs)
          have long : ∀ t ∈ kept.map resolve, 0 < greatest root t.length := fun t ht => by
            obtain ⟨s, hs, k, rfl⟩ := from' t ht
            have : (resolve s).length = s.length := by unfold resolve; split <;> rfl
            rw [this]
            exact k.1
          generalize kept.map resolve = ts at same hne from' val sane' long
          refine .bind (mapAll_eq (g := spanOf root) (Q := fun w => InI64 w.1 ∧ InI64 w.2) ts fun t ht => span_roo hd (val t ht)) fun ws hws => ?_
          have prep : RightOrOverflow (setUp rules root ts ws) (fun o => o.tasks ≠ [] → Slots root ts o) := by
            unfold setUp
            split
            · exact prepare_roo hd val hne long hws.1 hws.2
            · exact .pure fun h => absurd rfl h
          refine .bind prep fun o ho' => ?_
          refine .inr (.inr ⟨_, rfl, ⟨fun d _ => ∀ a, Within d a → Within root a, [(_, Low ts capacity)], rfl, ?_⟩, fun t ht => ⟨n1 t ht, n2 t ht⟩, hpos⟩)
          have served := served_rooted (n := root.length) (m := m) (R := R) (root := root) (z0 := z0) (C := Low ts capacity) (ys := ts.flatMap Task.vars ++ [capacity]) (xs := ps.flatMap Task.vars ++ [capacity])
            (f := prop (σ := σ) (μ := μ) rules o capacity ts) (t := triggers capacity ts)
            (fun d hd' hl hs => ver_prop ho hd' hl hs hd val hc sane' hpos ho' hT)
            (fun y hy => by
              rcases List.mem_append.1 hy with hy | hy
              · obtain ⟨t, ht, hy⟩ := List.mem_flatMap.1 hy
                obtain ⟨s, hs, _, rfl⟩ := from' t ht
                exact List.mem_append_left _ (List.mem_flatMap.2 ⟨s, hs, resolve_vars y hy⟩)
              · exact List.mem_append_right _ hy) triggers_wake rfl
          exact served.congr same

end
end Gcs.Cumulative
