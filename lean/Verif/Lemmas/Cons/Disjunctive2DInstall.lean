import Verif.Lemmas.Cons.Disjunctive2D
import Verif.Lemmas.Rooted

namespace Gcs.Disjunctive2D
open IntervalSet

section
variable {σ μ : Type} {n m : Nat} {R : Err → Prop} {root d : Doms} {r s : Rect} {rs : List Rect} {strict : Bool} {p w q v : VarId}

/-- Two rectangles that may be where they are. -/
def Fine (strict : Bool) (a : Asg) (r s : Rect) : Prop := (strict = false ∧ ((r.eval a).Flat ∨ (s.eval a).Flat)) ∨ (r.eval a).Clear (s.eval a)

theorem Fine.symm {a : Asg} (h : Fine strict a r s) : Fine strict a s r := by
  rcases h with ⟨h1, h2⟩ | h
  · exact .inl ⟨h1, h2.symm⟩
  · refine .inr ?_
    rcases h with h | h | h | h
    · exact .inr (.inl h)
    · exact .inl h
    · exact .inr (.inr (.inr h))
    · exact .inr (.inr (.inl h))

abbrev job (n m : Nat) (R : Err → Prop) (root : Doms) (strict : Bool) (rs : List Rect) : Job := { n, m, R, C := fun a => Within root a ∧ rs.Pairwise (Fine strict a) }

theorem ver_push (ho : R .overflow) (hd : DomsOK d) (hl : d.length = n) (hp : p.Valid n) (hw : w.Valid n) (hq : q.Valid n) (hv : v.Valid n) (hn : ∀ a, Within d a → 0 ≤ w.eval a)
    (hf : ∀ a, Within d a → rs.Pairwise (Fine strict a) → 0 < w.eval a → 0 < v.eval a → p.eval a + w.eval a ≤ q.eval a ∨ q.eval a + v.eval a ≤ p.eval a) :
    (push (σ := σ) (μ := μ) p w q v).Ver (job n m R root strict rs) (fun _ => False) (fun _ d' => ∀ a, Within d' a → Within d a) d := by
  subst hl
  refine ver_ask (f := (pushed · p w q v)) ho (pushed_roo hd hp hw hq hv hn) fun o h => ?_
  cases o with
  | none => exact fun _ h => h
  | some l => exact ver_tell_last (h l rfl).1 (fun a ha hC => (h l rfl).2 a ha (hf a ha hC.2)) fun d' _ _ h a ha => ((h a).1 ha).1

theorem ver_separate (ho : R .overflow) (hd : DomsOK d) (hl : d.length = n) (hr : r.Valid n) (hs : s.Valid n) (hn : ∀ a, Within d a → 0 ≤ r.w.eval a ∧ 0 ≤ r.h.eval a ∧ 0 ≤ s.w.eval a ∧ 0 ≤ s.h.eval a)
    (hf : ∀ a, rs.Pairwise (Fine strict a) → Fine strict a r s) :
    (separate (σ := σ) (μ := μ) (r, s)).Ver (job n m R root strict rs) (fun _ => False) (fun _ d' => ∀ a, Within d' a → Within d a) d := by
  have key : ∀ a, Fine strict a r s → (Forced r.x r.w s.x s.w a → 0 < r.h.eval a → 0 < s.h.eval a → r.y.eval a + r.h.eval a ≤ s.y.eval a ∨ s.y.eval a + s.h.eval a ≤ r.y.eval a) ∧
      (Forced r.y r.h s.y s.h a → 0 < r.w.eval a → 0 < s.w.eval a → r.x.eval a + r.w.eval a ≤ s.x.eval a ∨ s.x.eval a + s.w.eval a ≤ r.x.eval a) := by
    intro a h
    refine ⟨fun hF h1 h2 => Classical.byContradiction fun hc => not_packed (strict := strict) hF ?_ h, fun hF h1 h2 => Classical.byContradiction fun hc => not_packed (strict := strict) ?_ hF h⟩
    all_goals exact ⟨by omega, by omega, h1, h2⟩
  refine ver_ask (f := fun d => do
    let p ← parts d r
    let q ← parts d s
    return (decide (Overlap p.1 q.1), decide (Overlap p.2 q.2))) (P := fun o => (o.1 = true → ∀ a, Within d a → Forced r.x r.w s.x s.w a) ∧ (o.2 = true → ∀ a, Within d a → Forced r.y r.h s.y s.h a)) ho
    ((parts_roo hd (hl ▸ hr)).bind fun e he => (parts_roo hd (hl ▸ hs)).bind fun f hf => .pure ⟨fun h a ha => he.1.forced hf.1 (of_decide_eq_true h) ha, fun h a ha => he.2.forced hf.2 (of_decide_eq_true h) ha⟩) fun o h => ?_
  refine ver_seq (S := fun _ => False) (Q' := fun _ d' => ∀ a, Within d' a → Within d a) hd hl (fun _ h => h) (ver_onlyIf (fun h1 => ?_) fun _ _ h => h) fun _ d1 hd1 hl1 h1 _ => ver_onlyIf (fun h2 => ?_) fun _ => h1
  · refine ver_seq (S := fun _ => False) hd hl (fun _ h => h) (ver_push ho hd hl hr.y hr.h hs.y hs.h (fun a ha => (hn a ha).2.1) fun a ha hC => (key a (hf a hC)).1 (h.1 h1 a ha)) fun _ d1 hd1 hl1 hs1 _ => ?_
    refine ver_mono (fun _ d2 h2 a ha => hs1 a (h2 a ha)) _ _ (ver_push ho hd1 hl1 hs.y hs.h hr.y hr.h (fun a ha => (hn a (hs1 a ha)).2.2.2) fun a ha hC k1 k2 => ?_)
    exact ((key a (hf a hC)).1 (h.1 h1 a (hs1 a ha)) k2 k1).symm
  · refine ver_seq (S := fun _ => False) hd1 hl1 (fun _ h => h) (ver_push ho hd1 hl1 hr.x hr.w hs.x hs.w (fun a ha => (hn a (h1 a ha)).1) fun a ha hC => (key a (hf a hC)).2 (h.2 h2 a (h1 a ha))) fun _ d2 hd2 hl2 hs2 _ => ?_
    refine ver_mono (fun _ d3 h3 a ha => h1 a (hs2 a (h3 a ha))) _ _ (ver_push ho hd2 hl2 hs.x hs.w hr.x hr.w (fun a ha => (hn a (h1 a (hs2 a ha))).2.2.1) fun a ha hC k1 k2 => ?_)
    exact ((key a (hf a hC)).2 (h.2 h2 a (h1 a (hs2 a ha))) k2 k1).symm

theorem mem_pairs {α : Type} : ∀ {l : List α} {x : α × α} {P : α → α → Prop}, x ∈ pairs l → x.1 ∈ l ∧ x.2 ∈ l ∧ (l.Pairwise P → P x.1 x.2)
  | [], _, _, h => (nomatch h)
  | y :: ys, x, P, h => by
    rw [pairs, List.mem_append, List.mem_map] at h
    rcases h with ⟨z, hz, rfl⟩ | h
    · exact ⟨List.mem_cons_self, List.mem_cons_of_mem _ hz, fun h => (List.pairwise_cons.1 h).1 z hz⟩
    · have := mem_pairs (P := P) h
      exact ⟨List.mem_cons_of_mem _ this.1, List.mem_cons_of_mem _ this.2.1, fun h => this.2.2 (List.pairwise_cons.1 h).2⟩

theorem mem_zipIdx_get {α : Type} {l : List α} {x : α × Nat} (h : x ∈ l.zipIdx) : l[x.2]? = some x.1 := by
  have := List.mem_zipIdx_iff_getElem?.1 h
  simpa using this

theorem fine_of_ne {α : Type} {P : α → α → Prop} (hP : ∀ x y, P x y → P y x) {l : List α} (h : l.Pairwise P) {i j : Nat} {x y : α} (hi : l[i]? = some x) (hj : l[j]? = some y) (hne : i ≠ j) : P x y := by
  obtain ⟨hi', rfl⟩ := List.getElem?_eq_some_iff.1 hi
  obtain ⟨hj', rfl⟩ := List.getElem?_eq_some_iff.1 hj
  rw [List.pairwise_iff_getElem] at h
  rcases Nat.lt_or_gt_of_ne hne with hl | hl
  · exact h i j hi' hj' hl
  · exact hP _ _ (h j i hj' hi' hl)

/-- The propagation function. -/
theorem ver_prop (ho : R .overflow) (hd : DomsOK d) (hl : d.length = n) (hv : ∀ r ∈ rs, r.Valid n) (hn : ∀ a, Within d a → ∀ r ∈ rs, 0 ≤ r.w.eval a ∧ 0 ≤ r.h.eval a) :
    (prop (σ := σ) (μ := μ) strict rs).Ver (job n m R root strict rs) (fun _ => True)
      (Enforced (fun a => Within root a → rs.Pairwise (Fine strict a)) ((rs.flatMap Rect.vars).filterMap VarId.underlyingIndex) d) d := by
  refine ver_ask (f := (collision · rs)) ho (collision_roo hd rs (hl ▸ hv)) fun b hb => ?_
  cases b with
  | true => exact fun a ha hC => hb.1 rfl (hC.2.imp fun {r s} h (hh : Hit d r s) => not_packed (strict := strict) (hh a ha).1 (hh a ha).2 h)
  | false =>
    refine ver_seq (S := fun _ => False) hd hl (fun _ h => h) (ver_forEach (J := job n m R root strict rs) (fun xs d' => (∀ x ∈ xs, x ∈ pairs rs) ∧ ∀ a, Within d' a → Within d a) ?_ (pairs rs) d hd hl ⟨fun _ h => h, fun _ h => h⟩) fun _ d1 hd1 hl1 h1 _ => ?_
    · rintro x xs d' hd' hl' ⟨hx, hs⟩
      have hm := fun P => mem_pairs (P := P) (hx x List.mem_cons_self)
      refine ver_mono (fun _ d'' h => ⟨fun y hy => hx y (List.mem_cons_of_mem _ hy), fun a ha => hs a (h a ha)⟩) _ _
        (ver_separate ho hd' hl' (hv _ (hm fun _ _ => True).1) (hv _ (hm fun _ _ => True).2.1) (fun a ha => ?_) fun a hC => (hm (Fine strict a)).2.2 hC)
      have k1 := hn a (hs a ha) _ (hm fun _ _ => True).1
      have k2 := hn a (hs a ha) _ (hm fun _ _ => True).2.1
      exact ⟨k1.1, k1.2, k2.1, k2.2⟩
    · refine ver_ask (f := (leaf · strict rs)) ho (leaf_roo hd1 (hl1 ▸ hv)) fun b hb' => ?_
      cases b with
      | true =>
        obtain ⟨r, hr, s, hs, _, _, hst, hne, hsunk⟩ := hb'.1 rfl
        intro a ha hC
        rcases fine_of_ne (P := Fine strict a) (fun _ _ => Fine.symm) hC.2 (mem_zipIdx_get hr) (mem_zipIdx_get hs) hne with h | h
        · rw [hst] at h; exact absurd h.1 (by decide)
        · exact (hsunk a ha).2 h
      | false =>
        refine .intro (fun hk a ha _ => ?_) (by rintro ⟨⟩) (by rintro ⟨⟩)
        have set : ∀ r ∈ rs, r.Set d := fun r hr => by
          have k : ∀ x ∈ r.vars, Known d x := fun x hx => hk x (List.mem_flatMap.2 ⟨r, hr, hx⟩)
          exact ⟨k _ (by simp [Rect.vars]), k _ (by simp [Rect.vars]), k _ (by simp [Rect.vars]), k _ (by simp [Rect.vars])⟩
        have nohit := hb.2 rfl set
        have set1 : ∀ r ∈ rs, r.Set d1 := fun r hr => ⟨(set r hr).1.sub h1, (set r hr).2.1.sub h1, (set r hr).2.2.1.sub h1, (set r hr).2.2.2.sub h1⟩
        rw [List.pairwise_iff_getElem] at nohit ⊢
        intro i j hi hj hij
        refine Classical.byContradiction fun hc => ?_
        have mi : rs[i] ∈ rs := List.getElem_mem hi
        have mj : rs[j] ∈ rs := List.getElem_mem hj
        have ni := hn a (h1 a ha) _ mi
        have nj := hn a (h1 a ha) _ mj
        have hclear : ¬ (rs[i].eval a).Clear (rs[j].eval a) := fun h => hc (.inr h)
        have flat : strict = true → ¬ (rs[i].eval a).Flat ∧ ¬ (rs[j].eval a).Flat := by
          intro hst
          have zi : (rs[i], i) ∈ rs.zipIdx := List.mem_zipIdx_iff_getElem?.2 (by simp [List.getElem?_eq_getElem hi])
          have zj : (rs[j], j) ∈ rs.zipIdx := List.mem_zipIdx_iff_getElem?.2 (by simp [List.getElem?_eq_getElem hj])
          refine ⟨fun hfl => ?_, fun hfl => ?_⟩
          · refine absurd (hb'.2 ⟨_, zi, _, zj, set1 _ mi, set1 _ mj, hst, Nat.ne_of_lt hij, fun b hb => ?_⟩) (by decide)
            rw [eval_known (set1 _ mi) hb ha, eval_known (set1 _ mj) hb ha]
            exact ⟨hfl, hclear⟩
          · refine absurd (hb'.2 ⟨_, zj, _, zi, set1 _ mj, set1 _ mi, hst, Nat.ne_of_gt hij, fun b hb => ?_⟩) (by decide)
            rw [eval_known (set1 _ mi) hb ha, eval_known (set1 _ mj) hb ha]
            exact ⟨hfl, fun h => by
              rcases Fine.symm (strict := strict) (.inr h) with k | k
              · rw [hst] at k; exact absurd k.1 (by decide)
              · exact hclear k⟩
        have flat' : ¬ (rs[i].eval a).Flat ∧ ¬ (rs[j].eval a).Flat := by
          cases strict with
          | true => exact flat rfl
          | false => exact ⟨fun h => hc (.inl ⟨rfl, .inl h⟩), fun h => hc (.inl ⟨rfl, .inr h⟩)⟩
        refine nohit i j hi hj hij fun b hb => ?_
        have e1 := eval_known (set _ mi) hb (h1 a ha)
        have e2 := eval_known (set _ mj) hb (h1 a ha)
        simp only [Rect.eval, Box.mk.injEq] at e1 e2
        simp only [Box.Flat, Box.Clear, Rect.eval, not_or] at hclear flat'
        refine ⟨⟨?_, ?_, ?_, ?_⟩, ?_, ?_, ?_, ?_⟩ <;> omega

theorem keep_roo {α : Type} {p : α → Chk Bool} {P : α → Prop} [DecidablePred P] : ∀ xs : List α, (∀ x ∈ xs, RightOrOverflow (p x) (fun b => b = true ↔ P x)) → RightOrOverflow (keep p xs) (fun ys => ys = xs.filter (fun x => decide (P x)))
  | [], _ => .pure rfl
  | x :: xs, h => by
    refine (h x List.mem_cons_self).bind fun b hb => (keep_roo xs fun y hy => h y (List.mem_cons_of_mem _ hy)).bind fun ys hy => .pure ?_
    subst hy
    cases b with
    | true => rw [if_pos rfl, List.filter_cons_of_pos (by simpa using hb.1 rfl)]
    | false => rw [if_neg (by decide), List.filter_cons_of_neg (by have := hb.2; simp at this ⊢; exact this)]

/-- A size may be negative. -/
def Negative (root : Doms) (r : Rect) : Prop := ∃ a, Within root a ∧ (r.w.eval a < 0 ∨ r.h.eval a < 0)

theorem negative_roo (hd : DomsOK root) (hr : r.Valid root.length) : RightOrOverflow (negative root r) (fun b => b = true ↔ Negative root r) := by
  refine (lower_roo hd hr.w).bind fun x hx => ?_
  split
  · rename_i h
    obtain ⟨a, ha, e⟩ := hx.2.1
    exact .pure ⟨fun _ => ⟨a, ha, .inl (by omega)⟩, fun _ => rfl⟩
  · rename_i h
    refine (lower_roo hd hr.h).bind fun y hy => .pure ?_
    rw [decide_eq_true_iff]
    refine ⟨fun h => ?_, fun ⟨a, ha, h⟩ => ?_⟩
    · obtain ⟨a, ha, e⟩ := hy.2.1
      exact ⟨a, ha, .inr (by omega)⟩
    · have h1 := hx.2.le ha; have h2 := hy.2.le ha
      omega

/-- It is not without area in every case, or that does not matter. -/
def Active (root : Doms) (strict : Bool) (r : Rect) : Prop := strict = true ∨ ¬ (IsMax (Poss root r.w) 0 ∨ IsMax (Poss root r.h) 0)

theorem max_eq {P : Int → Prop} {x y : Int} (hx : IsMax P x) (hy : IsMax P y) : x = y := by
  have h1 := hx.2 y hy.1
  have h2 := hy.2 x hx.1
  omega

theorem active_roo (hd : DomsOK root) (hr : r.Valid root.length) : RightOrOverflow (active root strict r) (fun b => b = true ↔ Active root strict r) := by
  refine (upper_roo hd hr.w).bind fun x hx => (upper_roo hd hr.h).bind fun y hy => .pure ?_
  have h1 : x = 0 ↔ IsMax (Poss root r.w) 0 := ⟨fun h => h ▸ hx.2, fun h => max_eq hx.2 h⟩
  have h2 : y = 0 ↔ IsMax (Poss root r.h) 0 := ⟨fun h => h ▸ hy.2, fun h => max_eq hy.2 h⟩
  rw [Active, ← h1, ← h2]
  cases strict <;> simp

theorem triggers_wake : ∀ x ∈ rs.flatMap Rect.vars, ∀ v, x.underlyingIndex = some v → ∃ y, (y ∈ (triggers rs).onChange ∨ y ∈ (triggers rs).onBounds ∨ y ∈ (triggers rs).onInstantiated) ∧ y.underlyingIndex = some v := by
  intro x hx v hv
  obtain ⟨r, hr, hx⟩ := List.mem_flatMap.1 hx
  refine ⟨x, .inr (.inl (List.mem_flatMap.2 ⟨r, hr, ?_⟩)), hv⟩
  have hc : x.isConst = false := by cases x <;> first | rfl | cases hv
  simp only [Rect.vars, List.mem_cons, List.not_mem_nil, or_false] at hx
  rcases hx with rfl | rfl | rfl | rfl <;> simp [hc]

theorem pairwise_short {α : Type} {P : α → α → Prop} : ∀ {l : List α}, l.length < 2 → l.Pairwise P
  | [], _ => .nil
  | [_], _ => List.pairwise_singleton ..
  | _ :: _ :: _, h => by simp at h; omega

/-- What is posted for rectangles. -/
theorem installRects_ok {z0 : List σ} (ho : R .overflow) (hd : DomsOK root) (hv : ∀ r ∈ rs, r.Valid root.length) :
    (∀ items, installRects (σ := σ) (μ := μ) strict rs root = .ok items → ∃ I es, es.map (·.1) = items ∧ Served root.length m R root z0 I (fun _ => False) (fun a => rs.Pairwise (Fine strict a)) (rs.flatMap Rect.vars) es) ∧
    ∀ e, installRects (σ := σ) (μ := μ) strict rs root = .error e → e = .overflow ∨ (e = .invalidProblem ∧ ∃ r ∈ rs, Negative root r) := by
  classical
  rcases anyOf_roo (P := Negative root) rs fun r hr => negative_roo hd (hv r hr) with h | ⟨b, h, hb⟩
  · have e : installRects (σ := σ) (μ := μ) strict rs root = .error .overflow := by unfold installRects; rw [h]; rfl
    rw [e]
    exact ⟨fun _ h => (nomatch h), fun _ h => by cases h; exact .inl rfl⟩
  cases b with
  | true =>
    have e : installRects (σ := σ) (μ := μ) strict rs root = .error .invalidProblem := by unfold installRects; rw [h]; rfl
    rw [e]
    exact ⟨fun _ h => (nomatch h), fun _ h => by cases h; exact .inr ⟨rfl, hb.1 rfl⟩⟩
  | false =>
    have nonneg : ∀ a, Within root a → ∀ r ∈ rs, 0 ≤ r.w.eval a ∧ 0 ≤ r.h.eval a := fun a ha r hr => by
      have : ¬ Negative root r := fun hn => absurd (hb.2 ⟨r, hr, hn⟩) (by decide)
      have h1 : ¬ (r.w.eval a < 0 ∨ r.h.eval a < 0) := fun h => this ⟨a, ha, h⟩
      omega
    rcases keep_roo (P := Active root strict) rs fun r hr => active_roo hd (hv r hr) with k | ⟨rs', k, hk⟩
    · have e : installRects (σ := σ) (μ := μ) strict rs root = .error .overflow := by unfold installRects; rw [h]; show (keep _ _ >>= _) = _; rw [k]; rfl
      rw [e]
      exact ⟨fun _ h => (nomatch h), fun _ h => by cases h; exact .inl rfl⟩
    · have e : installRects (σ := σ) (μ := μ) strict rs root = if rs'.length < 2 then .ok [] else .ok [.prop (prop strict rs') (triggers rs')] := by
        unfold installRects; rw [h]; show (keep _ _ >>= _) = _; rw [k]; show (if _ then _ else _) = _; rfl
      rw [e]
      have iff : ∀ a, Within root a → (rs.Pairwise (Fine strict a) ↔ rs'.Pairwise (Fine strict a)) := by
        intro a ha
        rw [hk, List.pairwise_filter]
        refine ⟨fun h => h.imp fun h _ _ => h, fun h => ?_⟩
        rw [List.pairwise_iff_getElem] at h ⊢
        intro i j hi hj hij
        have flat : ∀ r ∈ rs, ¬ Active root strict r → strict = false ∧ (r.eval a).Flat := by
          intro r hr hna
          have hst : strict = false := by cases strict with | false => rfl | true => exact absurd (.inl rfl) hna
          have hn := nonneg a ha r hr
          refine ⟨hst, Classical.byContradiction fun hf => hna (.inr ?_)⟩
          rintro (hm | hm)
          · have := hm.ge ha
            exact hf (.inl (by show r.w.eval a = 0; omega))
          · have := hm.ge ha
            exact hf (.inr (by show r.h.eval a = 0; omega))
        by_cases hA : Active root strict rs[i]
        · by_cases hB : Active root strict rs[j]
          · exact h i j hi hj hij (by simpa using hA) (by simpa using hB)
          · have := flat _ (List.getElem_mem hj) hB
            exact .inl ⟨this.1, .inr this.2⟩
        · have := flat _ (List.getElem_mem hi) hA
          exact .inl ⟨this.1, .inl this.2⟩
      have sub : ∀ r ∈ rs', r ∈ rs := fun r hr => by rw [hk] at hr; exact (List.mem_filter.1 hr).1
      split
      · rename_i hlt
        refine ⟨fun items h => ?_, fun _ h => (nomatch h)⟩
        cases h
        exact ⟨fun _ _ => True, [], rfl, .nil fun a ha => (iff a ha).2 (pairwise_short hlt)⟩
      · refine ⟨fun items h => ?_, fun _ h => (nomatch h)⟩
        cases h
        refine ⟨fun d _ => ∀ a, Within d a → Within root a, [(_, fun a => rs'.Pairwise (Fine strict a))], rfl, ?_⟩
        have served := served_rooted (n := root.length) (m := m) (R := R) (root := root) (z0 := z0) (C := fun a => rs'.Pairwise (Fine strict a)) (ys := rs'.flatMap Rect.vars) (xs := rs.flatMap Rect.vars) (f := prop (σ := σ) (μ := μ) strict rs') (t := triggers rs')
          (fun d hd' hl hs => ver_prop ho hd' hl (fun r hr => hv r (sub r hr)) fun a ha r hr => nonneg a (hs a ha) r (sub r hr))
          (fun y hy => by obtain ⟨r, hr, hy⟩ := List.mem_flatMap.1 hy; exact List.mem_flatMap.2 ⟨r, sub r hr, hy⟩) triggers_wake rfl
        exact served.congr iff

/-- Negative sizes are refused. -/
theorem installRects_nonneg {items : List (Item σ μ)} (hd : DomsOK root) (hv : ∀ r ∈ rs, r.Valid root.length) (h : installRects (σ := σ) (μ := μ) strict rs root = .ok items) : ∀ r ∈ rs, ¬ Negative root r := by
  rcases anyOf_roo (P := Negative root) rs fun r hr => negative_roo hd (hv r hr) with k | ⟨b, k, hb⟩
  · unfold installRects at h; rw [k] at h; cases h
  · cases b with
    | true => unfold installRects at h; rw [k] at h; cases h
    | false => exact fun r hr hn => absurd (hb.2 ⟨r, hr, hn⟩) (by decide)

end
end Gcs.Disjunctive2D
