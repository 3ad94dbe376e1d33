import Verif.Lemmas.WeightingRefined
import Verif.Props.Books

/-!
# C66: weighted degrees

What the schemes of gcs/variable_weighting.hh report, after any conflicts and restarts, and what is kept when weights are saved and loaded. Throughout, `acts` is what was posted.
-/

namespace Gcs
open Weighting

/-! ## States of weights -/

/-- States that can be had from an empty one. -/
inductive WeightingState.Made : WeightingState → Prop
  | empty : Made {}
  | set {s} (c w) : Made s → Made (s.setWeight c w)
  | setLocal {s} (c x w) : Made s → Made (s.setLocalWeight c x w)
  | merge {s t} (p) : Made s → Made t → Made (s.merge t p)

theorem proper_mergeInto {κ : Type} [DecidableEq κ] (p : MergePolicy) : ∀ (r m : Weights κ), m.Proper → (WeightingState.mergeInto p r m).Proper
  | [], _, h => h
  | _ :: r, _, h => proper_mergeInto p r _ (h.put _ _)

theorem WeightingState.Made.proper {s : WeightingState} (h : s.Made) : s.ofConstraint.Proper ∧ s.ofLocal.Proper := by
  induction h with
  | empty => exact ⟨List.nodup_nil, List.nodup_nil⟩
  | set c w _ ih => exact ⟨ih.1.put _ _, ih.2⟩
  | setLocal c x w _ ih => exact ⟨ih.1, ih.2.put _ _⟩
  | merge p _ _ ih1 ih2 => exact ⟨proper_mergeInto p _ _ ih1.1, proper_mergeInto p _ _ ih1.2⟩

/-- C66: one reads what was written last. -/
theorem weights_read (s : WeightingState) (c e x y : Nat) (w : Rat) :
    (s.setWeight c w).optionalWeightOf e = (if c = e then some w else s.optionalWeightOf e) ∧ (s.setLocalWeight c x w).localWeightOf e y = (if c = e ∧ x = y then some w else s.localWeightOf e y) ∧
    (s.setWeight c w).localWeightOf e y = s.localWeightOf e y ∧ (s.setLocalWeight c x w).optionalWeightOf e = s.optionalWeightOf e ∧ s.weightOf e = (s.optionalWeightOf e).getD 0 := by
  refine ⟨Weights.get_put _ _ _ _, (Weights.get_put _ _ _ _).trans ?_, rfl, rfl, rfl⟩
  by_cases h : c = e ∧ x = y
  · rw [if_pos h, if_pos (Prod.mk.injEq .. ▸ h)]
  · rw [if_neg h, if_neg (Prod.mk.injEq .. ▸ h)]; rfl

/-- C66: merging combines the two weights, entry by entry; an entry that only the other one has is combined with 0, and an entry that it does not have stays. -/
theorem merge_entries {s t : WeightingState} (ht : t.Made) (p : MergePolicy) (c x : Nat) :
    (s.merge t p).optionalWeightOf c = (match t.optionalWeightOf c with | none => s.optionalWeightOf c | some w => some (WeightingState.combine p (s.weightOf c) w)) ∧
    (s.merge t p).localWeightOf c x = (match t.localWeightOf c x with | none => s.localWeightOf c x | some w => some (WeightingState.combine p ((s.localWeightOf c x).getD 0) w)) :=
  ⟨get_mergeInto p c _ _ ht.proper.1, get_mergeInto p (c, x) _ _ ht.proper.2⟩

/-- What combining does. -/
theorem combine_is (a b : Rat) : WeightingState.combine .sum a b = a + b ∧ (WeightingState.combine .max a b = a ∨ WeightingState.combine .max a b = b) ∧ a ≤ WeightingState.combine .max a b ∧ b ≤ WeightingState.combine .max a b ∧
    2 * WeightingState.combine .average a b = a + b := by
  unfold WeightingState.combine
  dsimp only
  refine ⟨rfl, ?_, ?_, ?_, ?_⟩
  · split <;> simp
  · split
    · rename_i h; exact Rat.le_of_lt h
    · exact Rat.le_refl
  · split
    · exact Rat.le_refl
    · rename_i h; exact Rat.not_lt.1 h
  · grind

section
variable {σ μ : Type} {d d0 : Doms} {acts : List (Act σ μ)}

/-! ## Counting conflicts -/

/-- C66: after conflicts of any propagators, the weighted degree of a variable, or a view of it, is the sum of what the constraints weigh that are about it and about two variables that are not fixed. A constraint weighs 1 and the number of its conflicts. -/
theorem classic_degree {ps : List Nat} (hp : ∀ p ∈ ps, p < (installed acts).length) :
    ∃ ws, Classic.noteAll (Engine.after acts) ps (Classic.new (Engine.after acts)) = .ok ws ∧
      ∀ d, DomsOK d → Allocated acts d.length → ∀ v i, v.underlyingIndex = some i →
        ∃ r, weightedDegree (Engine.after acts) d (Classic.contribution ws) v = .ok r ∧ WeightedDegree acts d i (fun c => 1 + tally acts ps c) r := by
  obtain ⟨ws, h1, h2⟩ := classic_noteAll ps hp (Table.new acts 1)
  exact ⟨ws, h1, fun d hd hn v i hv => weightedDegree_eq hd hn hv fun ci c hc => h2.at hc⟩

/-- C66: constants have weighted degree 0. -/
theorem constant_degree (E : Engine σ μ) (d : Doms) (contribution : Nat → Nat → Chk Rat) (k : Int) : weightedDegree E d contribution (.const k) = .ok 0 := rfl

/-! ## Conflict-History Search -/

/-- C66: after any conflicts and restarts, the scores are those of the abstract history; the weighted degree adds 1/10000 to each of them. -/
theorem history_degree {es : List (Option Nat)} (hp : ∀ p, some p ∈ es → p < (installed acts).length) :
    ∃ h, History.noteAll (Engine.after acts) es (History.new (Engine.after acts)) = .ok h ∧
      ∀ d, DomsOK d → Allocated acts d.length → ∀ v i, v.underlyingIndex = some i →
        ∃ r, weightedDegree (Engine.after acts) d h.contribution v = .ok r ∧ WeightedDegree acts d i (fun c => (Recency.start.all (owners acts es)).score c + 1 / 10000) r := by
  obtain ⟨h, h1, h2⟩ := Mirrors.noteAll es hp (Mirrors.new acts)
  refine ⟨h, h1, fun d hd hn v i hv => weightedDegree_eq hd hn hv fun ci c hc => ?_⟩
  unfold History.contribution
  rw [h2.weights.at hc]; rfl

/-- C66: those scores always are between 0 and 1, and the step between 0.06 and 0.4. -/
theorem history_bounds (es : List (Option Nat)) (c : Nat) :
    0 ≤ (Recency.start.all es).score c ∧ (Recency.start.all es).score c ≤ 1 ∧ 3 / 50 ≤ (Recency.start.all es).alpha ∧ (Recency.start.all es).alpha ≤ 2 / 5 := by
  have h := Sane.all es Sane.start
  exact ⟨(h.score c).1, (h.score c).2, h.alpha.1, h.alpha.2⟩

/-! ## Local weights -/

/-- C66: `RefinedWeighting` starts with all weights 1 and, after any conflicts, has local weights as the chosen variant prescribes. Only integer overflow, in the size of a domain, may get in the way. -/
theorem refined_degree (hd : DomsOK d0) (hn : Allocated acts d0.length) (v : Variant) {es : List (Doms × Nat)} (hes : ∀ e ∈ es, DomsOK e.1 ∧ Allocated acts e.1.length ∧ e.2 < (installed acts).length) :
    RightOrOverflow (do Refined.noteAll (Engine.after acts) es (← Refined.new (Engine.after acts) d0 v)) fun h => ∃ w, LocalRun acts d0 v es (fun _ _ => 1) w ∧
      ∀ d, DomsOK d → Allocated acts d.length → ∀ x i, x.underlyingIndex = some i →
        ∃ r, weightedDegree (Engine.after acts) d h.contribution x = .ok r ∧ WeightedDegree acts d i (fun c => w c i) r := by
  refine (Refined.new_roo hd hn v).bind fun h ⟨h1, h2, h3⟩ => ?_
  refine (Refined.noteAll_roo es hes h1 (w := fun _ _ => 1) fun ci c x _ => h3 ci x).mono fun h' ⟨w, w1, w2, w3⟩ => ⟨w, h2 ▸ w1, fun d hd hn x i hx => ?_⟩
  exact weightedDegree_eq hd hn hx fun ci c hc => Refined.contribution_eq w2 w3 hc

/-! ## Saving and loading -/

/-- The constraint has a propagator. -/
abbrev WPosted (acts : List (Act σ μ)) (c : Nat) : Prop := c ∈ (installed acts).map (·.1)

theorem posted_iff (acts : List (Act σ μ)) (c : Nat) : c ∈ (Engine.after acts).constraintIds ↔ WPosted acts c := by
  rw [(books_after acts).ids]; unfold WPosted; rw [List.mem_map]

/-- Weights that are saved in one problem and loaded in another one: a constraint that both have keeps its weight, others get the default. -/
theorem dense_carried {acts' : List (Act σ μ)} {ws : List Rat} {weight : Nat → Rat} (h : Table acts ws weight) (dflt : Rat) :
    ∃ s, Dense.snapshot (Engine.after acts) ws = .ok s ∧ s.Made ∧ (∀ c, s.optionalWeightOf c = if c ∈ (Engine.after acts).constraintIds then some (weight c) else none) ∧
      Table acts' (Dense.load (Engine.after acts') dflt s) fun c => if c ∈ (Engine.after acts).constraintIds then weight c else dflt := by
  obtain ⟨s, h1, h2⟩ := snapshot_get (acts := acts) (weight := weight) ws 0 {} fun j w hj => by
    have hl : j < (Engine.after acts).constraintIds.length := by rw [← h.1]; exact (List.getElem?_eq_some_iff.1 hj).1
    refine ⟨_, by rw [Nat.zero_add]; exact List.getElem?_eq_getElem hl, ?_⟩
    have := h.2 j _ (List.getElem?_eq_getElem hl)
    exact Option.some.inj (hj.symm.trans this)
  have h3 : ∀ c, s.optionalWeightOf c = if c ∈ (Engine.after acts).constraintIds then some (weight c) else none := fun c => by
    rw [h2]
    have : (∃ j, j < ws.length ∧ (Engine.after acts).constraintIds[0 + j]? = some c) ↔ c ∈ (Engine.after acts).constraintIds := by
      rw [List.mem_iff_getElem?]
      constructor
      · rintro ⟨j, -, h⟩; exact ⟨0 + j, h⟩
      · rintro ⟨j, hj⟩; exact ⟨j, by rw [h.1]; exact (List.getElem?_eq_some_iff.1 hj).1, by rw [Nat.zero_add]; exact hj⟩
    by_cases x : c ∈ (Engine.after acts).constraintIds
    · rw [if_pos x, if_pos (this.2 x)]
    · rw [if_neg x, if_neg fun y => x (this.1 y)]; rfl
  refine ⟨s, h1, made_dense ws 0 h1 .empty, h3, by simp [Dense.load], fun ci c hc => ?_⟩
  unfold Dense.load
  rw [List.getElem?_map, hc, Option.map_some, h3]
  dsimp only
  split <;> rfl
where
  made_dense {E : Engine σ μ} : ∀ (ws : List Rat) (k : Nat) {s s' : WeightingState}, Dense.snapshotFrom E k ws s = .ok s' → s.Made → s'.Made
    | [], _, s, s', h, hs => by
      unfold Dense.snapshotFrom at h
      cases h; exact hs
    | w :: ws, k, s, s', h, hs => by
      unfold Dense.snapshotFrom at h
      cases e : vecAt E.constraintIds k with
      | error x => rw [e] at h; cases h
      | ok id =>
        rw [e] at h
        exact made_dense ws (k + 1) h (hs.set id w)

/-- C66: weights that were counted in one problem, saved, and loaded in another one: a constraint that both have keeps its weight, others weigh 1. What is saved is the weight of each constraint of the first one. -/
theorem classic_carried (acts acts' : List (Act σ μ)) {ps : List Nat} (hp : ∀ p ∈ ps, p < (installed acts).length) :
    ∃ ws s, Classic.noteAll (Engine.after acts) ps (Classic.new (Engine.after acts)) = .ok ws ∧ Dense.snapshot (Engine.after acts) ws = .ok s ∧ s.Made ∧
      (∀ c, s.optionalWeightOf c = if WPosted acts c then some (1 + tally acts ps c : Rat) else none) ∧
      ∀ d, DomsOK d → Allocated acts' d.length → ∀ v i, v.underlyingIndex = some i →
        ∃ r, weightedDegree (Engine.after acts') d (Classic.contribution (Dense.load (Engine.after acts') 1 s)) v = .ok r ∧ WeightedDegree acts' d i (fun c => if WPosted acts c then 1 + tally acts ps c else 1) r := by
  obtain ⟨ws, h1, h2⟩ := classic_noteAll ps hp (Table.new acts 1)
  obtain ⟨s, h3, h4, h5, h6⟩ := dense_carried (acts' := acts') h2 1
  simp only [posted_iff] at h5 h6
  exact ⟨ws, s, h1, h3, h4, h5, fun d hd hn v i hv => weightedDegree_eq hd hn hv fun ci c hc => h6.at hc⟩

/-- C66: the same for Conflict-History Search; other constraints have score 0. -/
theorem history_carried (acts acts' : List (Act σ μ)) {es : List (Option Nat)} (hp : ∀ p, some p ∈ es → p < (installed acts).length) :
    ∃ h s, History.noteAll (Engine.after acts) es (History.new (Engine.after acts)) = .ok h ∧ Dense.snapshot (Engine.after acts) h.weights = .ok s ∧ s.Made ∧
      (∀ c, s.optionalWeightOf c = if WPosted acts c then some ((Recency.start.all (owners acts es)).score c) else none) ∧
      ∀ d, DomsOK d → Allocated acts' d.length → ∀ v i, v.underlyingIndex = some i →
        ∃ r, weightedDegree (Engine.after acts') d (History.load (Engine.after acts') s).contribution v = .ok r ∧
          WeightedDegree acts' d i (fun c => (if WPosted acts c then (Recency.start.all (owners acts es)).score c else 0) + 1 / 10000) r := by
  obtain ⟨h, h1, h2⟩ := Mirrors.noteAll es hp (Mirrors.new acts)
  obtain ⟨s, h3, h4, h5, h6⟩ := dense_carried (acts' := acts') h2.weights 0
  simp only [posted_iff] at h5 h6
  refine ⟨h, s, h1, h3, h4, h5, fun d hd hn v i hv => weightedDegree_eq hd hn hv fun ci c hc => ?_⟩
  unfold History.contribution
  rw [show vecAt (History.load (Engine.after acts') s).weights ci = _ from h6.at hc]; rfl

/-- C66: local weights that are saved in one problem and loaded in another one: of a constraint that both have, the weights of its variables are kept; weights of others are 1. -/
theorem refined_carried (acts acts' : List (Act σ μ)) (hd : DomsOK d0) (hn : Allocated acts d0.length) {d0' : Doms} (hd' : DomsOK d0') (hn' : Allocated acts' d0'.length) (v v' : Variant) {es : List (Doms × Nat)}
    (hes : ∀ e ∈ es, DomsOK e.1 ∧ Allocated acts e.1.length ∧ e.2 < (installed acts).length) :
    RightOrOverflow (do
      let h ← Refined.noteAll (Engine.after acts) es (← Refined.new (Engine.after acts) d0 v)
      let s ← Refined.snapshot (Engine.after acts) h
      let h' ← Refined.new (Engine.after acts') d0' v'
      Refined.load (Engine.after acts') h' s) fun l => ∃ w, LocalRun acts d0 v es (fun _ _ => 1) w ∧
      ∀ d, DomsOK d → Allocated acts' d.length → ∀ x i, x.underlyingIndex = some i →
        ∃ r, weightedDegree (Engine.after acts') d l.contribution x = .ok r ∧ WeightedDegree acts' d i (fun c => if WPosted acts c then w c i else 1) r := by
  refine (Refined.new_roo hd hn v).bind fun h ⟨h1, h2, h3⟩ => ?_
  refine (Refined.noteAll_roo es hes h1 (w := fun _ _ => 1) fun ci c x _ => h3 ci x).bind fun h' ⟨w, w1, w2, w3⟩ => ?_
  obtain ⟨s, -, e1, -⟩ := Refined.carried (acts' := acts) w2 w2 w3
  rw [e1]
  change RightOrOverflow (do let h' ← Refined.new (Engine.after acts') d0' v'; Refined.load (Engine.after acts') h' s) _
  refine (Refined.new_roo hd' hn' v').bind fun k ⟨k1, k2, k3⟩ => ?_
  obtain ⟨s', l, f1, f2, f3, f4⟩ := Refined.carried (acts' := acts') w2 k1 w3
  cases e1.symm.trans f1
  rw [f2]
  refine RightOrOverflow.pure ⟨w, h2 ▸ w1, fun d hd hn x i hx => ?_⟩
  simp only [posted_iff] at f4
  exact weightedDegree_eq' hd hn hx fun ci c hc ht => f4 ci c i hc ht

/-! ## At the root -/

/-- C66: before any conflict, the weighted degree is the degree (gcs/variable_weighting.hh:192-195), if each constraint has at most one propagator that is about the variable, and is about two variables that are not fixed. Without that it need not be: see below. -/
theorem root_degree_partial (hd : DomsOK d) (hn : Allocated acts d.length) {v : VarId} {i : Nat} (hv : v.underlyingIndex = some i)
    (h1 : (((installed acts).filter fun x => decide (i ∈ x.2.about)).map (·.1)).Nodup) (h2 : ∀ c, Touches acts c i → Lively acts d c) :
    weightedDegree (Engine.after acts) d (Classic.contribution (Classic.new (Engine.after acts))) v = .ok ((Engine.after acts).degreeOf v : Rat) := by
  obtain ⟨r, r1, l, l1, l2, l3⟩ := weightedDegree_eq hd hn hv (contribution := Classic.contribution (Classic.new (Engine.after acts))) (weight := fun _ => 1) fun ci c hc => (Table.new acts 1).at hc
  have len : l.length = (((installed acts).filter fun x => decide (i ∈ x.2.about)).map (·.1)).length := by
    apply List.Perm.length_eq
    refine (List.perm_ext_iff_of_nodup l1 h1).2 fun c => (l2 c).trans ?_
    simp only [List.mem_map, List.mem_filter, decide_eq_true_iff]
    constructor
    · rintro ⟨⟨x, a, b, e⟩, -⟩; exact ⟨x, ⟨a, e⟩, b⟩
    · rintro ⟨x, ⟨a, e⟩, b⟩; exact ⟨⟨x, a, b, e⟩, h2 c ⟨x, a, b, e⟩⟩
  have deg : (Engine.after acts).degreeOf v = l.length := by
    have : (Engine.after acts).degreeOf v = (Engine.after acts).degreeOf (.simple i) := by
      cases v with
      | simple j => cases hv; rfl
      | view j n a => cases hv; rfl
      | const k => cases hv
    rw [this, (degree_counts acts).1, len, List.length_map, List.countP_eq_length_filter]
  rw [r1, l3, deg]
  congr 1
  clear l1 l2 l3 len deg r1
  induction l with
  | nil => rfl
  | cons a l ih =>
    rw [List.map_cons, List.sum_cons, ih, List.length_cons, Rat.natCast_add, Rat.add_comm]; rfl

end

/-! ## Examples -/

namespace Weighting.Demo
open Books.Demo (acts)
open IntervalSet

def doms : Doms := [[(0, 1)], [(1, 3), (5, 5)], [(4, 4), (6, 6)]]

theorem ok : DomsOK doms := by
  intro s hs
  simp only [doms, List.mem_cons, List.not_mem_nil, or_false] at hs
  rcases hs with rfl | rfl | rfl
  · exact ⟨by simp [WF], by simp [InRange, InI64, i64Min, i64Max], 0, by simp [Mem]⟩
  · exact ⟨by simp [WF], by simp [InRange, InI64, i64Min, i64Max], 1, by simp [Mem]⟩
  · exact ⟨by simp [WF], by simp [InRange, InI64, i64Min, i64Max], 4, by simp [Mem]⟩

theorem allocated : Allocated acts doms.length := by
  rintro c i ⟨x, hx, -, hi⟩
  have : ∀ x ∈ installed acts, ∀ i ∈ x.2.about, i < 3 := by decide
  exact this x hx i hi

/-- Finding: at the root, before any conflict, the weighted degree need not be the degree. Variable 1 has three propagators of two constraints, one of which is about this variable only. -/
theorem root_degree_differs : (Engine.after acts).degreeOf (.simple 1) = 3 ∧ weightedDegree (Engine.after acts) doms (Classic.contribution (Classic.new (Engine.after acts))) (.simple 1) = .ok 1 := by decide +kernel

/-- Constraint 7 weighs 3 after two conflicts of it and one of 5. -/
example : (do let ws ← Classic.noteAll (Engine.after acts) [1, 2, 0] (Classic.new (Engine.after acts)); weightedDegree (Engine.after acts) doms (Classic.contribution ws) (.view 1 true 4)) = .ok 3 := by decide +kernel

example : tally acts [1, 2, 0] 7 = 2 ∧ tally acts [1, 2, 0] 5 = 1 := by decide

/-- The hypotheses of the theorems above hold here. -/
example := classic_degree (acts := acts) (ps := [1, 2, 0]) (by decide)
example := (classic_carried acts (acts.take 2) (ps := [1, 2, 0]) (by decide))
example := history_degree (acts := acts) (es := [some 1, none, some 2, some 3, none]) (by
  intro p hp
  simp only [List.mem_cons, Option.some.injEq, List.not_mem_nil, or_false, reduceCtorEq, false_or] at hp
  rcases hp with rfl | rfl | rfl <;> decide)
example : RightOrOverflow (do Refined.noteAll (Engine.after acts) [(doms, 1), (doms, 3)] (← Refined.new (Engine.after acts) doms .currentArityCurrentDomain)) fun _ => True :=
  (refined_degree ok allocated .currentArityCurrentDomain (es := [(doms, 1), (doms, 3)]) (by
    intro e he
    simp only [List.mem_cons, List.not_mem_nil, or_false] at he
    rcases he with rfl | rfl <;> exact ⟨ok, allocated, by decide⟩)).mono fun _ _ => trivial

/-- Variable 1 has 4 values, and propagator 1 is about two variables that are not fixed. -/
example : (do
    let h ← Refined.noteAll (Engine.after acts) [(doms, 1)] (← Refined.new (Engine.after acts) doms .currentArityCurrentDomain)
    weightedDegree (Engine.after acts) doms h.contribution (.simple 1)) = .ok (1 + 1 / 10) := by decide +kernel

/-- Propagator 1 after propagator 0: the score of constraint 7 is 0.4, then about 0.64. -/
example : (Recency.start.all (owners acts [some 0, some 1])).score 7 = (1 - (2 / 5 - 1 / 1000000)) * (2 / 5) + (2 / 5 - 1 / 1000000) := by decide +kernel

/-- Constraint 7 with a single propagator, about 0 and 1. -/
example : weightedDegree (Engine.after (acts.take 1)) doms (Classic.contribution (Classic.new (Engine.after (acts.take 1)))) (.simple 1) = .ok (((Engine.after (acts.take 1)).degreeOf (.simple 1) : Nat) : Rat) := by
  refine root_degree_partial ok (fun c i h => ?_) rfl (by decide) fun c h => ?_
  · obtain ⟨x, hx, e⟩ := h
    exact allocated c i ⟨x, by
      have : installed (acts.take 1) = [(7, { onChange := [.simple 0, .simple 1] })] := rfl
      rw [this] at hx
      cases List.mem_singleton.1 hx
      exact List.mem_cons_self, e⟩
  · have hc : c = 7 := by
      obtain ⟨x, hx, rfl, -⟩ := h
      exact (by decide : ∀ x ∈ installed (acts.take 1), x.1 = 7) x hx
    subst hc
    have unfixed : ∀ (i : Nat) (s : IntervalSet) (y z : Int), doms[i]? = some s → y ≠ z → Mem y s → Mem z s → Unfixed doms i := fun i s y z hi hn hy hz => by
      obtain ⟨a, ha, e⟩ := exists_within_at ok hi hy
      obtain ⟨b, hb, f⟩ := exists_within_at ok hi hz
      exact ⟨y, z, hn, ⟨a, ha, e⟩, b, hb, f⟩
    exact ⟨0, 1, by decide, ⟨(7, _), List.mem_cons_self, rfl, by decide⟩, ⟨(7, _), List.mem_cons_self, rfl, by decide⟩,
      unfixed 0 _ 0 1 rfl (by decide) (by simp [Mem]) (by simp [Mem]), unfixed 1 _ 1 5 rfl (by decide) (by simp [Mem]) (by simp [Mem])⟩

example : ((({} : WeightingState).setWeight 1 3).merge ((({} : WeightingState).setWeight 1 4).setWeight 2 5) .average).optionalWeightOf 2 = some (5 / 2) := by decide +kernel
example : ((({} : WeightingState).setWeight 1 4).setWeight 2 5).Made := .set _ _ (.set _ _ .empty)

end Weighting.Demo
end Gcs
