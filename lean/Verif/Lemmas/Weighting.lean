import Verif.Lemmas.Books
import Verif.Spec.Weighting

/-! Weighted degrees. -/

namespace Gcs
open Watches (growTo)

namespace Weights
variable {κ : Type} [DecidableEq κ]

theorem get_put (k : κ) (w : Rat) (x : κ) : ∀ m : Weights κ, (m.put k w).get x = if k = x then some w else m.get x
  | [] => by simp only [put, get]
  | (j, v) :: m => by
    unfold put
    by_cases h : j = k
    · rw [if_pos h]
      simp only [get, h]
      split <;> rfl
    · rw [if_neg h]
      simp only [get, get_put k w x m]
      by_cases h2 : j = x
      · rw [if_pos h2, if_neg (fun e => h (h2.trans e.symm)), if_pos h2]
      · rw [if_neg h2, if_neg h2]

/-- No key occurs twice. -/
def Proper (m : Weights κ) : Prop := (m.map (·.1)).Nodup

theorem mem_keys_put (k : κ) (w : Rat) (x : κ) : ∀ m : Weights κ, x ∈ (m.put k w).map (·.1) ↔ x ∈ m.map (·.1) ∨ x = k
  | [] => by simp [put]
  | (j, v) :: m => by
    unfold put
    by_cases h : j = k
    · rw [if_pos h]; subst h
      simp only [List.map_cons, List.mem_cons]
      exact ⟨.inl, fun h => h.elim id .inl⟩
    · rw [if_neg h, List.map_cons, List.mem_cons, mem_keys_put k w x m, List.map_cons, List.mem_cons, or_assoc]

theorem Proper.put : ∀ {m : Weights κ}, m.Proper → ∀ (k : κ) (w : Rat), (m.put k w).Proper
  | [], _, k, w => by simp [Proper, Weights.put]
  | (j, v) :: m, h, k, w => by
    obtain ⟨h1, h2⟩ := List.nodup_cons.1 h
    unfold Weights.put
    by_cases e : j = k
    · rw [if_pos e]; subst e; exact List.nodup_cons.2 ⟨h1, h2⟩
    · rw [if_neg e]
      refine List.nodup_cons.2 ⟨fun hm => ?_, Proper.put h2 k w⟩
      rcases (mem_keys_put k w j m).1 hm with hm | hm
      · exact h1 hm
      · exact e hm

theorem get_none : ∀ {m : Weights κ} {x : κ}, x ∉ m.map (·.1) → m.get x = none
  | [], _, _ => rfl
  | (j, v) :: m, x, h => by
    rw [List.map_cons, List.mem_cons] at h
    simp only [get]
    rw [if_neg (fun e => h (.inl e.symm)), get_none fun e => h (.inr e)]

end Weights

theorem get_mergeInto {κ : Type} [DecidableEq κ] (p : MergePolicy) (x : κ) : ∀ (r m : Weights κ), r.Proper →
    (WeightingState.mergeInto p r m).get x = match r.get x with | none => m.get x | some t => some (WeightingState.combine p ((m.get x).getD 0) t)
  | [], m, _ => rfl
  | (k, t) :: r, m, h => by
    obtain ⟨h1, h2⟩ := List.nodup_cons.1 h
    rw [WeightingState.mergeInto, get_mergeInto p x r _ h2, Weights.get_put]
    by_cases e : k = x
    · subst e
      simp only [Weights.get, if_pos, Weights.get_none h1]
    · simp only [Weights.get, if_neg e]

namespace Weighting
section
variable {σ μ : Type} {d : Doms}

theorem single_unfixed (hd : DomsOK d) {i : Nat} (hi : i < d.length) : ∃ b, hasSingleValue d (.simple i) = .ok b ∧ (b = false ↔ Unfixed d i) := by
  obtain ⟨b, h1, h2⟩ := hasSingleValue_spec (v := .simple i) hd hi
  refine ⟨b, h1, ?_⟩
  obtain ⟨a, ha⟩ := exists_within hd
  have hp : Poss d (.simple i) ((VarId.simple i).eval a) := ⟨a, ha, rfl⟩
  constructor
  · intro hb
    refine Classical.byContradiction fun hu => ?_
    have : b = true := h2.2 ⟨_, fun z => ⟨fun hz => Classical.byContradiction fun e => hu ⟨_, _, e, hz, hp⟩, fun e => e ▸ hp⟩⟩
    rw [this] at hb; cases hb
  · rintro ⟨y, z, hn, hy, hz⟩
    cases b with
    | false => rfl
    | true =>
      obtain ⟨w, hw⟩ := h2.1 rfl
      exact absurd (((hw y).1 hy).trans ((hw z).1 hz).symm) hn

open Classical in
theorem enoughOpen_eq (hd : DomsOK d) : ∀ (vs : List Nat) (k : Nat), (∀ i ∈ vs, i < d.length) →
    enoughOpen d k vs = .ok (decide (k ≤ (vs.filter fun i => decide (Unfixed d i)).length))
  | _, 0, _ => by simp [enoughOpen]
  | [], k + 1, _ => by simp [enoughOpen]
  | v :: vs, k + 1, h => by
    obtain ⟨b, h1, h2⟩ := single_unfixed hd (h v (by simp))
    have ih := fun j => enoughOpen_eq hd vs j fun i hi => h i (by simp [hi])
    unfold enoughOpen
    rw [h1]
    change (if b = true then enoughOpen d (k + 1) vs else enoughOpen d k vs) = _
    cases b with
    | true =>
      have hn : ¬ Unfixed d v := fun hu => by cases h2.2 hu
      rw [if_pos rfl, ih, List.filter_cons_of_neg (by simpa using hn)]
    | false =>
      have hu := h2.1 rfl
      rw [if_neg (by simp), ih, List.filter_cons_of_pos (by simpa using hu), List.length_cons]
      congr 1
      exact decide_eq_decide.2 (by omega)

theorem two_le_iff {l : List Nat} (h : l.Nodup) : 2 ≤ l.length ↔ ∃ x y, x ≠ y ∧ x ∈ l ∧ y ∈ l := by
  constructor
  · intro hl
    match l, h, hl with
    | x :: y :: r, h, _ =>
      exact ⟨x, y, fun e => (List.nodup_cons.1 h).1 (e ▸ by simp), by simp, by simp⟩
  · rintro ⟨x, y, hn, hx, hy⟩
    match l, hx, hy with
    | [z], hx, hy => exact absurd ((List.mem_singleton.1 hx).trans (List.mem_singleton.1 hy).symm) hn
    | _ :: _ :: _, _, _ => simp

theorem two_open (hd : DomsOK d) {vs : List Nat} (hv : vs.Nodup) (h : ∀ i ∈ vs, i < d.length) :
    ∃ b, enoughOpen d 2 vs = .ok b ∧ (b = true ↔ ∃ x y, x ≠ y ∧ x ∈ vs ∧ y ∈ vs ∧ Unfixed d x ∧ Unfixed d y) := by
  classical
  refine ⟨_, enoughOpen_eq hd vs 2 h, ?_⟩
  have hn : (vs.filter fun i => decide (Unfixed d i)).Nodup := hv.sublist List.filter_sublist
  rw [decide_eq_true_iff]
  refine (two_le_iff hn).trans ?_
  simp only [List.mem_filter, decide_eq_true_iff]
  constructor
  · rintro ⟨x, y, a, ⟨b, c⟩, e, f⟩; exact ⟨x, y, a, b, e, c, f⟩
  · rintro ⟨x, y, a, b, e, c, f⟩; exact ⟨x, y, a, ⟨b, c⟩, e, f⟩

theorem total_eq {acts : List (Act σ μ)} (hd : DomsOK d) (hn : Allocated acts d.length) {contribution : Nat → Chk Rat} {weight : Nat → Rat} :
    ∀ (cs : List Nat) (t : Rat), cs.Nodup → (∀ ci ∈ cs, ∃ c, (Engine.after acts).constraintIds[ci]? = some c ∧ contribution ci = .ok (weight c)) →
    ∃ l : List Nat, l.Nodup ∧ (∀ c, c ∈ l ↔ (∃ ci ∈ cs, (Engine.after acts).constraintIds[ci]? = some c) ∧ Lively acts d c) ∧
      total (Engine.after acts) d contribution cs t = .ok (t + (l.map weight).sum)
  | [], t, _, _ => ⟨[], .nil, by simp, by simp [total, Rat.add_zero]⟩
  | ci :: cs, t, hcs, hc => by
    obtain ⟨n1, n2⟩ := List.nodup_cons.1 hcs
    obtain ⟨c, i1, i2⟩ := hc ci (by simp)
    have hb := books_after acts
    have hl : ci < (Engine.after acts).constraintScope.length := by rw [hb.csLen]; exact (List.getElem?_eq_some_iff.1 i1).1
    have es : (Engine.after acts).constraintScope[ci]?.getD [] = (Engine.after acts).constraintScope[ci] := by rw [List.getElem?_eq_getElem hl]; rfl
    have hs : ∀ i, i ∈ (Engine.after acts).constraintScope[ci] ↔ Touches acts c i := fun i => by
      rw [← es, hb.cs]
      exact ⟨fun ⟨d, h1, h2⟩ => by cases i1.symm.trans h1; exact h2, fun h2 => ⟨c, i1, h2⟩⟩
    obtain ⟨b, b1, b2⟩ := two_open hd (es ▸ hb.csNodup ci) fun i hi => hn c i ((hs i).1 hi)
    have lively : b = true ↔ Lively acts d c := b2.trans ⟨fun ⟨x, y, a, e, f, g⟩ => ⟨x, y, a, (hs x).1 e, (hs y).1 f, g⟩, fun ⟨x, y, a, e, f, g⟩ => ⟨x, y, a, (hs x).2 e, (hs y).2 f, g⟩⟩
    have other : ∀ cj ∈ cs, (Engine.after acts).constraintIds[cj]? ≠ some c := fun cj hj e => n1 (index_unique hb.idsNodup i1 e ▸ hj)
    have ih := fun t' => total_eq hd hn (contribution := contribution) (weight := weight) cs t' n2 fun cj hj => hc cj (by simp [hj])
    have ev : vecAt (Engine.after acts).constraintScope ci = .ok (Engine.after acts).constraintScope[ci] := by unfold vecAt; rw [List.getElem?_eq_getElem hl]
    have et : total (Engine.after acts) d contribution (ci :: cs) t = if b = true then total (Engine.after acts) d contribution cs (t + weight c) else total (Engine.after acts) d contribution cs t := by
      conv => lhs; unfold total
      rw [ev]
      change (do if ← enoughOpen d 2 (Engine.after acts).constraintScope[ci] then let w ← contribution ci; total (Engine.after acts) d contribution cs (t + w) else total (Engine.after acts) d contribution cs t) = _
      rw [b1, i2]; rfl
    rw [et]
    cases b with
    | false =>
      obtain ⟨l, l1, l2, l3⟩ := ih t
      refine ⟨l, l1, fun e => (l2 e).trans ⟨fun ⟨⟨cj, hj, h⟩, g⟩ => ⟨⟨cj, by simp [hj], h⟩, g⟩, ?_⟩, l3⟩
      rintro ⟨⟨cj, hj, h⟩, g⟩
      rcases List.mem_cons.1 hj with rfl | hj
      · cases i1.symm.trans h
        cases lively.2 g
      · exact ⟨⟨cj, hj, h⟩, g⟩
    | true =>
      obtain ⟨l, l1, l2, l3⟩ := ih (t + weight c)
      refine ⟨c :: l, List.nodup_cons.2 ⟨fun h => ?_, l1⟩, fun e => ?_, ?_⟩
      · obtain ⟨⟨cj, hj, h⟩, -⟩ := (l2 c).1 h
        exact other cj hj h
      · rw [List.mem_cons, l2 e]
        constructor
        · rintro (rfl | ⟨⟨cj, hj, h⟩, g⟩)
          · exact ⟨⟨ci, by simp, i1⟩, lively.1 rfl⟩
          · exact ⟨⟨cj, by simp [hj], h⟩, g⟩
        · rintro ⟨⟨cj, hj, h⟩, g⟩
          rcases List.mem_cons.1 hj with rfl | hj
          · cases i1.symm.trans h; exact .inl rfl
          · exact .inr ⟨⟨cj, hj, h⟩, g⟩
      · rw [if_pos rfl, l3, List.map_cons, List.sum_cons, Rat.add_assoc]

theorem weightedDegree_eq' {acts : List (Act σ μ)} (hd : DomsOK d) (hn : Allocated acts d.length) {contribution : Nat → Nat → Chk Rat} {weight : Nat → Rat} {v : VarId} {i : Nat} (hv : v.underlyingIndex = some i)
    (hc : ∀ (ci c : Nat), (Engine.after acts).constraintIds[ci]? = some c → Touches acts c i → contribution ci i = .ok (weight c)) :
    ∃ r, weightedDegree (Engine.after acts) d contribution v = .ok r ∧ WeightedDegree acts d i weight r := by
  have hb := books_after acts
  obtain ⟨l, l1, l2, l3⟩ := total_eq hd hn (contribution := fun ci => contribution ci i) (weight := weight) ((Engine.after acts).varConstraints[i]?.getD []) 0 (hb.adjNodup i) fun ci hi => by
    obtain ⟨c, h1, h2⟩ := (hb.adj i ci).1 hi
    exact ⟨c, h1, hc ci c h1 h2⟩
  refine ⟨(l.map weight).sum, ?_, l, l1, fun c => (l2 c).trans ⟨?_, ?_⟩, rfl⟩
  · unfold weightedDegree; rw [hv]; simp only; rw [l3, Rat.zero_add]
  · rintro ⟨⟨ci, hi, h⟩, g⟩
    obtain ⟨c', h1, h2⟩ := (hb.adj i ci).1 hi
    cases h.symm.trans h1
    exact ⟨h2, g⟩
  · rintro ⟨h, g⟩
    have ⟨x, hx, e, _⟩ := h
    obtain ⟨ci, hci⟩ := List.mem_iff_getElem?.1 ((hb.ids c).2 ⟨x, hx, e⟩)
    exact ⟨⟨ci, (hb.adj i ci).2 ⟨c, hci, h⟩, hci⟩, g⟩

theorem weightedDegree_eq {acts : List (Act σ μ)} (hd : DomsOK d) (hn : Allocated acts d.length) {contribution : Nat → Nat → Chk Rat} {weight : Nat → Rat} {v : VarId} {i : Nat} (hv : v.underlyingIndex = some i)
    (hc : ∀ (ci c : Nat), (Engine.after acts).constraintIds[ci]? = some c → contribution ci i = .ok (weight c)) :
    ∃ r, weightedDegree (Engine.after acts) d contribution v = .ok r ∧ WeightedDegree acts d i weight r := weightedDegree_eq' hd hn hv fun ci c h _ => hc ci c h

/-! ## One weight for each constraint -/

/-- One weight for each constraint. -/
def Table (acts : List (Act σ μ)) (ws : List Rat) (weight : Nat → Rat) : Prop :=
  ws.length = (Engine.after acts).constraintIds.length ∧ ∀ ci c : Nat, (Engine.after acts).constraintIds[ci]? = some c → ws[ci]? = some (weight c)

theorem Table.new (acts : List (Act σ μ)) (w : Rat) : Table acts (Dense.new (Engine.after acts) w) fun _ => w := by
  refine ⟨by simp [Dense.new], fun ci c h => ?_⟩
  unfold Dense.new
  rw [List.getElem?_replicate, if_pos (List.getElem?_eq_some_iff.1 h).1]

theorem Table.set {acts : List (Act σ μ)} {ws : List Rat} {weight : Nat → Rat} (h : Table acts ws weight) {ci c : Nat} (hc : (Engine.after acts).constraintIds[ci]? = some c) (w : Rat) :
    Table acts (ws.set ci w) fun e => if e = c then w else weight e := by
  refine ⟨by simp [h.1], fun cj e he => ?_⟩
  rw [List.getElem?_set]
  have hl : ci < ws.length := by rw [h.1]; exact (List.getElem?_eq_some_iff.1 hc).1
  by_cases x : ci = cj
  · subst x
    cases hc.symm.trans he
    rw [if_pos rfl, if_pos hl]; dsimp only; rw [if_pos rfl]
  · rw [if_neg x, h.2 cj e he]; dsimp only; rw [if_neg]
    rintro rfl
    exact x (index_unique (books_after acts).idsNodup hc he)

theorem Table.at {acts : List (Act σ μ)} {ws : List Rat} {weight : Nat → Rat} (h : Table acts ws weight) {ci c : Nat} (hc : (Engine.after acts).constraintIds[ci]? = some c) : vecAt ws ci = .ok (weight c) := by
  unfold vecAt; rw [h.2 ci c hc]

/-- The propagator belongs to this constraint. -/
def Owns (acts : List (Act σ μ)) (c p : Nat) : Prop := ∃ t, (installed acts)[p]? = some (c, t)

theorem owner {acts : List (Act σ μ)} {p : Nat} (hp : p < (installed acts).length) :
    ∃ ci c t, (installed acts)[p]? = some (c, t) ∧ vecAt (Engine.after acts).propConstraint p = .ok ci ∧ (Engine.after acts).constraintIds[ci]? = some c := by
  obtain ⟨ci, h1, h2⟩ := (books_after acts).prop p _ (List.getElem?_eq_getElem hp)
  exact ⟨ci, _, _, List.getElem?_eq_getElem hp, by unfold vecAt; rw [h1], h2⟩

theorem snapshot_get {acts : List (Act σ μ)} {weight : Nat → Rat} : ∀ (ws : List Rat) (k : Nat) (s : WeightingState),
    (∀ j w, ws[j]? = some w → ∃ c, (Engine.after acts).constraintIds[k + j]? = some c ∧ w = weight c) →
    ∃ s', Dense.snapshotFrom (Engine.after acts) k ws s = .ok s' ∧ ∀ c, s'.optionalWeightOf c =
      if (∃ j, j < ws.length ∧ (Engine.after acts).constraintIds[k + j]? = some c) then some (weight c) else s.optionalWeightOf c
  | [], k, s, _ => ⟨s, rfl, fun c => by rw [if_neg]; rintro ⟨j, h, -⟩; simp at h⟩
  | w :: ws, k, s, h => by
    obtain ⟨c, h1, h2⟩ := h 0 w rfl
    obtain ⟨s', h3, h4⟩ := snapshot_get ws (k + 1) (s.setWeight c w) fun j x hj => by
      have := h (j + 1) x hj
      rwa [show k + (j + 1) = k + 1 + j by omega] at this
    refine ⟨s', ?_, fun e => ?_⟩
    · unfold Dense.snapshotFrom
      have : vecAt (Engine.after acts).constraintIds k = .ok c := by unfold vecAt; rw [show (Engine.after acts).constraintIds[k]? = some c from h1]
      rw [this]; exact h3
    · rw [h4]
      have step : (∃ j, j < (w :: ws).length ∧ (Engine.after acts).constraintIds[k + j]? = some e) ↔ e = c ∨ ∃ j, j < ws.length ∧ (Engine.after acts).constraintIds[k + 1 + j]? = some e := by
        constructor
        · rintro ⟨j, hj, he⟩
          cases j with
          | zero => cases h1.symm.trans he; exact .inl rfl
          | succ j =>
            refine .inr ⟨j, by simpa using hj, ?_⟩
            rwa [show k + 1 + j = k + (j + 1) by omega]
        · rintro (rfl | ⟨j, hj, he⟩)
          · exact ⟨0, by simp, h1⟩
          · refine ⟨j + 1, by simpa using hj, ?_⟩
            rwa [show k + (j + 1) = k + 1 + j by omega]
      by_cases x : ∃ j, j < ws.length ∧ (Engine.after acts).constraintIds[k + 1 + j]? = some e
      · rw [if_pos x, if_pos (step.2 (.inr x))]
      · rw [if_neg x]
        change (Weights.put s.ofConstraint c w).get e = _
        rw [Weights.get_put]
        by_cases ec : c = e
        · rw [if_pos ec, if_pos (step.2 (.inl ec.symm)), h2, ec]
        · rw [if_neg ec, if_neg]
          · rfl
          · intro z
            rcases step.1 z with z | z
            · exact ec z.symm
            · exact x z

end
end Weighting
end Gcs
