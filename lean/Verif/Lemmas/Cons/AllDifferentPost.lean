import Verif.Lemmas.Cons.AllDifferent
import Verif.Lemmas.Posts

/-!
# Posting all-different constraints
-/

namespace Gcs
open IntervalSet

/-- Two variables are different, or their value does not matter. -/
abbrev Differ2 (ex : List Int) (a : Asg) (x y : VarId) : Prop := x.eval a = y.eval a → x.eval a ∈ ex

theorem differExcept_iff {vars : List VarId} {ex : List Int} {a : Asg} : DifferExcept vars ex a ↔ vars.Pairwise (Differ2 ex a) := by
  rw [List.pairwise_iff_getElem]
  constructor
  · intro h i j hi hj hij
    exact h i j _ _ (List.getElem?_eq_getElem hi) (List.getElem?_eq_getElem hj) (by omega)
  · intro h i j x y hx hy hij e
    obtain ⟨hi, rfl⟩ := List.getElem?_eq_some_iff.1 hx
    obtain ⟨hj, rfl⟩ := List.getElem?_eq_some_iff.1 hy
    rcases Nat.lt_or_gt_of_ne hij with hlt | hlt
    · exact h i j hi hj hlt e
    · rw [e]; exact h j i hj hi hlt e.symm

theorem differExcept_perm {vars ws : List VarId} {ex : List Int} {a : Asg} (h : vars.Perm ws) : DifferExcept vars ex a ↔ DifferExcept ws ex a := by
  rw [differExcept_iff, differExcept_iff]
  exact h.pairwise_iff fun {x y} hxy e => by rw [e]; exact hxy e.symm

theorem differExcept_nil {vars : List VarId} {a : Asg} : DifferExcept vars [] a ↔ (vars.map (·.eval a)).Nodup := by
  rw [differExcept_iff, List.Nodup, List.pairwise_map]
  have : Differ2 [] a = fun x y => x.eval a ≠ y.eval a := by funext x y; simp [Differ2]
  rw [this]

/-- Excluded values nothing can have do not matter. -/
theorem differExcept_usable {root : Doms} {vars : List VarId} {ex ex' : List Int} {a : Asg} (ha : Within root a) (h : ∀ y, y ∈ ex' ↔ y ∈ ex ∧ ∃ v ∈ vars, Poss root v y) :
    DifferExcept vars ex a ↔ DifferExcept vars ex' a := by
  have : ∀ v ∈ vars, (v.eval a ∈ ex ↔ v.eval a ∈ ex') := fun v hv => by
    rw [h]; exact ⟨fun h => ⟨h, v, hv, ha.poss v⟩, fun h => h.1⟩
  exact ⟨fun H i j x y hx hy hij e => (this x (List.mem_of_getElem? hx)).1 (H i j x y hx hy hij e), fun H i j x y hx hy hij e => (this x (List.mem_of_getElem? hx)).2 (H i j x y hx hy hij e)⟩

theorem insertBy_perm {α : Type} (le : α → α → Bool) (x : α) : ∀ ys : List α, (insertBy le x ys).Perm (x :: ys)
  | [] => .refl _
  | y :: ys => by
    rw [insertBy]
    split
    · exact .refl _
    · exact ((insertBy_perm le x ys).cons y).trans (.swap x y ys)

theorem sortBy_perm {α : Type} (le : α → α → Bool) : ∀ xs : List α, (sortBy le xs).Perm xs
  | [] => .refl _
  | x :: xs => (insertBy_perm le x _).trans ((sortBy_perm le xs).cons x)

namespace AllDifferentExcept

theorem mem_once {α : Type} [DecidableEq α] {z : α} : ∀ l : List α, z ∈ once l ↔ z ∈ l
  | [] => Iff.rfl
  | [_] => Iff.rfl
  | x :: y :: rest => by
    have ih := mem_once (z := z) (y :: rest)
    unfold once
    split
    · rename_i e; subst e; rw [ih]; simp
    · rw [List.mem_cons, ih, List.mem_cons (a := z) (b := x)]

theorem mem_dups {z x y : VarId} {rest : List VarId} : z ∈ dups (x :: y :: rest) ↔ (x = y ∧ z = y) ∨ z ∈ dups (y :: rest) := by
  rw [dups]
  by_cases e : x = y
  · rw [if_pos e]
    split
    · rename_i h
      constructor
      · exact .inr
      · rintro (⟨_, rfl⟩ | h')
        · exact List.mem_of_head? h
        · exact h'
    · rw [List.mem_cons]; simp [e]
  · rw [if_neg e]; simp [e]

theorem mem_of_dups {z : VarId} : ∀ l : List VarId, z ∈ dups l → z ∈ l
  | [], h => h
  | [_], h => nomatch h
  | x :: y :: rest, h => by
    rcases mem_dups.1 h with ⟨_, rfl⟩ | h
    · simp
    · exact List.mem_cons_of_mem _ (mem_of_dups _ h)

theorem differ_split {ex : List Int} {a : Asg} : ∀ l : List VarId, l.Pairwise (Differ2 ex a) ↔ (∀ x ∈ dups l, x.eval a ∈ ex) ∧ (once l).Pairwise (Differ2 ex a)
  | [] => by simp [dups, once]
  | [_] => by simp [dups, once]
  | x :: y :: rest => by
    have ih := differ_split (ex := ex) (a := a) (y :: rest)
    have hm : (∀ z ∈ dups (x :: y :: rest), z.eval a ∈ ex) ↔ (x = y → y.eval a ∈ ex) ∧ ∀ z ∈ dups (y :: rest), z.eval a ∈ ex := by
      constructor
      · exact fun h => ⟨fun e => h y (mem_dups.2 (.inl ⟨e, rfl⟩)), fun z hz => h z (mem_dups.2 (.inr hz))⟩
      · rintro ⟨h1, h2⟩ z hz
        rcases mem_dups.1 hz with ⟨e, rfl⟩ | hz
        · exact h1 e
        · exact h2 z hz
    rw [hm, List.pairwise_cons, ih]
    by_cases e : x = y
    · subst e
      rw [once, if_pos rfl]
      constructor
      · rintro ⟨h1, h2, h3⟩
        exact ⟨⟨fun _ => h1 x (by simp) rfl, h2⟩, h3⟩
      · rintro ⟨⟨h1, h2⟩, h3⟩
        refine ⟨fun z hz => ?_, h2, h3⟩
        rcases List.mem_cons.1 hz with rfl | hz
        · exact fun _ => h1 rfl
        · exact (List.pairwise_cons.1 (ih.2 ⟨h2, h3⟩)).1 z hz
    · rw [once, if_neg e, List.pairwise_cons]
      have : (∀ z ∈ once (y :: rest), Differ2 ex a x z) ↔ ∀ z ∈ y :: rest, Differ2 ex a x z := by simp only [mem_once]
      rw [this]
      constructor
      · rintro ⟨h1, h2, h3⟩; exact ⟨⟨fun h => absurd h e, h2⟩, h1, h3⟩
      · rintro ⟨⟨_, h2⟩, h1, h3⟩; exact ⟨h1, h2, h3⟩

end AllDifferentExcept

theorem repeats_differ {a : Asg} : ∀ l : List VarId, repeats l = true → ¬ l.Pairwise (Differ2 [] a)
  | [], h => nomatch h
  | [_], h => nomatch h
  | x :: y :: rest, h => by
    simp only [repeats, Bool.or_eq_true, decide_eq_true_eq] at h
    rw [List.pairwise_cons]
    rintro ⟨h1, h2⟩
    rcases h with rfl | h
    · exact absurd (h1 x (by simp) rfl) (by simp)
    · exact repeats_differ _ h h2

namespace AllDifferent

theorem addVals_spec {ex : List Int} : ∀ (L acc : List Int), acc.Nodup → (addVals ex acc L).Nodup ∧ ∀ y, y ∈ addVals ex acc L ↔ y ∈ acc ∨ (y ∉ ex ∧ y ∈ L)
  | [], acc, h => ⟨h, by simp [addVals]⟩
  | z :: L, acc, h => by
    rw [addVals]
    split
    · rename_i hz
      obtain ⟨h1, h2⟩ := addVals_spec L acc h
      refine ⟨h1, fun y => ?_⟩
      rw [h2, List.mem_cons]
      constructor
      · rintro (h | ⟨h, h'⟩)
        · exact .inl h
        · exact .inr ⟨h, .inr h'⟩
      · rintro (h | ⟨h, rfl | h'⟩)
        · exact .inl h
        · exact .inl (hz.resolve_left h)
        · exact .inr ⟨h, h'⟩
    · rename_i hz
      rw [not_or] at hz
      have hn : (acc ++ [z]).Nodup := by
        rw [List.nodup_append]
        exact ⟨h, by simp, fun a ha b hb => by rw [List.mem_singleton.1 hb]; rintro rfl; exact hz.2 ha⟩
      obtain ⟨h1, h2⟩ := addVals_spec L _ hn
      refine ⟨h1, fun y => ?_⟩
      rw [h2, List.mem_append, List.mem_singleton, List.mem_cons]
      constructor
      · rintro ((h | rfl) | ⟨h, h'⟩)
        · exact .inl h
        · exact .inr ⟨hz.1, .inl rfl⟩
        · exact .inr ⟨h, .inr h'⟩
      · rintro (h | ⟨h, rfl | h'⟩)
        · exact .inl (.inl h)
        · exact .inl (.inr rfl)
        · exact .inr ⟨h, h'⟩

section
variable {d root : Doms}

theorem compress_roo {ex : List Int} (hd : DomsOK d) : ∀ (vs : List VarId) (acc : List Int), acc.Nodup → (∀ y ∈ acc, InI64 y) → (∀ v ∈ vs, v.Valid d.length) →
    RightOrOverflow (compress d ex acc vs) (fun L => L.Nodup ∧ (∀ y ∈ L, InI64 y) ∧ ∀ y, y ∈ L ↔ y ∈ acc ∨ (y ∉ ex ∧ ∃ v ∈ vs, Poss d v y))
  | [], acc, h, hi, _ => .pure ⟨h, hi, by simp⟩
  | v :: vs, acc, h, hi, hv => by
    refine (listed_roo hd (hv v (by simp))).bind fun g hg => (collect_roo hg).bind fun L hL => ?_
    obtain ⟨h1, h2⟩ := addVals_spec (ex := ex) L acc h
    have hi' : ∀ y ∈ addVals ex acc L, InI64 y := fun y hy => ((h2 y).1 hy).elim (hi y) fun h => hL.1 y h.2
    refine (compress_roo hd vs _ h1 hi' fun w hw => hv w (List.mem_cons_of_mem _ hw)).mono fun r hr => ⟨hr.1, hr.2.1, fun y => ?_⟩
    rw [hr.2.2, h2, hL.2, exists_cons, or_assoc, and_or_left]

theorem values_of {vs : List VarId} {vals ex : List Int} (he : ∀ y ∈ ex, InI64 y) (h1 : vals.Nodup) (h2 : ∀ y ∈ vals, InI64 y) (h3 : ∀ y, y ∈ vals ↔ y ∉ ex ∧ ∃ v ∈ vs, Poss root v y) : Values root vs vals ex where
  nodup := h1
  valsOK := h2
  excludedOK := he
  apart y hy := ((h3 y).1 hy).1
  all v hv y hp := by
    by_cases h : y ∈ ex
    · exact .inr h
    · exact .inl ((h3 y).2 ⟨h, v, hv, hp⟩)

/-- If everything is known, what is left satisfies the constraint. -/
theorem Pruned.known {vars : List VarId} {vals ex : List Int} {d' : Doms} (h : Pruned d vars vals ex d') (hk : ∀ x ∈ vars, Known d x) {a : Asg} (ha : Within d' a) : DifferExcept vars ex a := by
  obtain ⟨⟨f, hf⟩, h2⟩ := h
  have hd := ((h2 a).1 ha).1
  have ev : ∀ (i : Nat) v, vars[i]? = some v → v.eval a = f i := fun i v hi => (hk v (List.mem_of_getElem? hi)).poss hd (hf i v hi).1
  intro i j x y hx hy hij e
  rw [ev i x hx, ev j y hy] at e
  rw [ev i x hx]
  exact (hf i x hx).2.2 j (List.getElem?_eq_some_iff.1 hy).1 hij e

/-- Every value left is part of values for all variables that are left too: pruning twice is the same as pruning once. -/
theorem Pruned.keeps {vars : List VarId} {vals ex : List Int} {d' : Doms} (h : Pruned d vars vals ex d') (hd : DomsOK d) (hn : (vars.filterMap VarId.underlyingIndex).Nodup) {f : Nat → Int} (hf : Sel d vars vals ex f) :
    ∃ b, Within d' b ∧ ∀ (i : Nat) v, vars[i]? = some v → v.eval b = f i := by
  obtain ⟨b, hb, e⟩ := exists_values hd vars hn f fun i v hi => (hf i v hi).1
  exact ⟨b, (h.2 b).2 ⟨hb, fun i v hi _ => ⟨f, hf, (e i v hi).symm⟩⟩, e⟩

/-- If everything is known afterwards, and the variables share nothing, what is left satisfies the constraint. -/
theorem Pruned.known' {vars : List VarId} {vals ex : List Int} {d' : Doms} (h : Pruned d vars vals ex d') (hd : DomsOK d) (hn : (vars.filterMap VarId.underlyingIndex).Nodup) (hk : ∀ x ∈ vars, Known d' x)
    {a : Asg} (ha : Within d' a) : DifferExcept vars ex a := by
  obtain ⟨f, hf⟩ := h.1
  obtain ⟨b, hb, e⟩ := h.keeps hd hn hf
  have ev : ∀ (i : Nat) v, vars[i]? = some v → v.eval a = f i := fun i v hi => (hk v (List.mem_of_getElem? hi) a b ha hb).trans (e i v hi)
  intro i j x y hx hy hij e
  rw [ev i x hx, ev j y hy] at e
  rw [ev i x hx]
  exact (hf i x hx).2.2 j (List.getElem?_eq_some_iff.1 hy).1 hij e

end

section
variable {σ μ : Type} {n m : Nat} {R : Err → Prop} {root : Doms} {vars : List VarId} {vals ex : List Int} {old : Nat → List (Option Nat)} {C : Asg → Prop}

theorem refuse_ok (h : ∀ a, Within root a → ¬ C a) : Posts n m R root C vars [refuse (σ := σ) (μ := μ)] :=
  Posts.one fun _ _ _ a _ hc => h a hc.1 hc.2

end
end AllDifferent

namespace AllDifferentExcept

section
variable {σ μ : Type} {n m : Nat} {R : Err → Prop} {root : Doms} {vars : List VarId} {vals ex excluded : List Int} {old : Nat → List (Option Nat)} {C : Asg → Prop}

theorem usable_roo {d : Doms} (hd : DomsOK d) (hv : ∀ v ∈ vars, v.Valid d.length) : ∀ ys : List Int, (∀ y ∈ ys, InI64 y) → RightOrOverflow (usable d vars ys) (fun zs => ∀ y, y ∈ zs ↔ y ∈ ys ∧ ∃ v ∈ vars, Poss d v y)
  | [], _ => .pure (by simp)
  | y :: ys, hy => by
    refine (anyOf_roo (P := fun v => Poss d v y) vars fun v h => inDomain_spec hd (hv v h) y (hy y (by simp))).bind fun b hb => ?_
    refine (usable_roo hd hv ys fun z hz => hy z (List.mem_cons_of_mem _ hz)).bind fun zs hz => .pure fun z => ?_
    by_cases hbt : b = true
    · rw [if_pos hbt, List.mem_cons, hz, List.mem_cons, or_and_right]
      refine or_congr_left ⟨fun e => ⟨e, e ▸ hb.1 hbt⟩, fun h => h.1⟩
    · rw [if_neg hbt, hz, List.mem_cons, or_and_right]
      constructor
      · exact .inr
      · rintro (⟨rfl, h⟩ | h)
        · exact absurd (hb.2 h) hbt
        · exact h

theorem prop_ok (ho : R .overflow) (hf : AllDifferent.Values root vars vals ex) (hv : ∀ v ∈ vars, v.Valid n) (hold : ∀ k, Gac.Injective (old k)) {t : Triggers} (ht : Wakes t vars) (hr : t.refined = [])
    (hC : ∀ a, Within root a → C a → DifferExcept vars ex a) : Implements n m R root (prop (σ := σ) (μ := μ) vars vals ex old) t C (DifferExcept vars ex) vars where
  wakes := ht
  refined := by rw [hr]; simp
  ver d hd hl := by
    refine ver_bind (S := fun _ => False) (fun _ h => h.elim) _ d hd hl (ver_mono (fun _ d' hq _ _ _ => ?_) _ _ (AllDifferent.gac_ver (J := { n, m, R, C := fun a => Within root a ∧ C a }) ho hf hv hold (fun a h => ⟨h.1, hC a h.1 h.2⟩) hd hl))
    show EnforcedIf _ _ _ _ PState.enable _
    exact Enforced.when (.intro (fun hk a ha _ => hq.known hk ha) (fun h => nomatch h) (fun h => nomatch h))

theorem exclude_ok (ho : R .overflow) (hv : ∀ v ∈ vars, v.Valid n) {p : Priority} {xs : List VarId} (hC : ∀ a, Within root a → C a → ∀ x ∈ vars, x.eval a ∈ ex) :
    (Item.init p (Prog.forEach (exclude ex) vars) : Item σ μ).OK n m R root C xs (fun a => ∀ x ∈ vars, x.eval a ∈ ex) := by
  intro d hd hl
  have step : ∀ (vs : List VarId) (d : Doms), (∀ v ∈ vs, v ∈ vars) → DomsOK d → d.length = n →
      (Prog.forEach (exclude ex) vs : Prog σ μ Unit).Ver { n, m, R, C := fun a => Within root a ∧ C a, watch := False } (fun _ => False) (fun _ d' => (∀ a, Within d' a → Within d a) ∧ ∀ a, Within d' a → ∀ x ∈ vs, x.eval a ∈ ex) d := by
    intro vs
    induction vs with
    | nil => intro d _ _ _; exact ⟨fun _ h => h, by simp⟩
    | cons v vs ih =>
      intro d hvs hd hl
      have hvv := hv v (hvs v (by simp))
      refine ver_bind (S := fun _ => False) (f := fun _ => Prog.forEach (exclude ex) vs) (fun _ h => h.elim) (exclude ex v) d hd hl ?_
      refine ver_ask (f := (eachValue · v)) ho (listed_roo hd (hl.symm ▸ hvv)) fun g hg => ver_lift ho (collect_roo hg) fun L hL => ?_
      refine ver_mono (fun _ d1 h1 k1 k2 _ => ?_) _ _ (ver_tells hd hl (L.filter fun y => y ∉ ex) (fun y hy => .ne hvv (hL.1 y ((List.mem_filter.1 hy).1))) fun y hy a ha hc => ?_)
      · refine ver_mono (fun _ d2 h2 => ⟨fun a ha => ((h1 a).1 (h2.1 a ha)).1, fun a ha => List.forall_mem_cons.2 ⟨?_, h2.2 a ha⟩⟩) _ _ (ih d1 (fun w hw => hvs w (by simp [hw])) k1 k2)
        obtain ⟨h3, h4⟩ := (h1 a).1 (h2.1 a ha)
        refine Decidable.byContradiction fun hne => ?_
        have := h4 (v.eval a) (List.mem_filter.2 ⟨(hL.2 _).2 (h3.poss v), by simpa using hne⟩)
        rw [Lit.holds_ne] at this
        exact this rfl
      · rw [Lit.holds_ne]
        intro e
        have h1 := hC a hc.1 hc.2 v (hvs v (by simp))
        have h2 := (List.mem_filter.1 hy).2
        rw [e] at h1
        simp [h1] at h2
  exact ver_mono (fun _ d' h a ha _ => h.2 a ha) _ _ (step vars d (fun _ h => h) hd hl)

theorem install_right (ho : R .overflow) (hd : DomsOK root) (hv : ∀ v ∈ vars, v.Valid root.length) (he : ∀ y ∈ excluded, InI64 y) (hold : ∀ k, Gac.Injective (old k)) :
    (Posted.mk (install (σ := σ) (μ := μ) vars excluded old) (DifferExcept vars excluded) vars).Right root.length m R root (· = .overflow) := by
  have hperm : (sortBy VarId.le vars).Perm vars := sortBy_perm _ _
  have hvs : ∀ v ∈ sortBy VarId.le vars, v.Valid root.length := fun v h => hv v (hperm.mem_iff.1 h)
  have hesc : ∀ y ∈ once (sortBy (fun x y => decide (x ≤ y)) excluded), InI64 y := fun y hy => he y ((sortBy_perm _ _).mem_iff.1 ((mem_once _).1 hy))
  suffices h : RightOrOverflow (install (σ := σ) (μ := μ) vars excluded old root) (fun items => Posts root.length m R root (DifferExcept vars excluded) vars items) by
    refine ⟨fun items e => ?_, fun e h' => ?_⟩
    · replace e : install vars excluded old root = _ := e
      rcases h with h | ⟨is, h, hp⟩ <;> rw [h] at e <;> cases e
      exact hp
    · replace h' : install vars excluded old root = _ := h'
      rcases h with h | ⟨is, h, hp⟩ <;> rw [h] at h' <;> cases h'
      rfl
  refine (usable_roo hd hvs _ hesc).bind fun ex hex => (AllDifferent.compress_roo (ex := ex) hd _ [] .nil (by simp) hvs).bind fun vals hvals => ?_
  have hexc : ∀ y ∈ ex, InI64 y := fun y hy => hesc y ((hex y).1 hy).1
  have hmem : ∀ y, y ∈ ex ↔ y ∈ excluded ∧ ∃ v ∈ vars, Poss root v y := fun y => by
    rw [hex, mem_once, (sortBy_perm _ _).mem_iff]
    simp only [hperm.mem_iff]
  have hvals' : ∀ y, y ∈ vals ↔ y ∉ ex ∧ ∃ v ∈ sortBy VarId.le vars, Poss root v y := fun y => by rw [hvals.2.2]; simp
  have hiff : ∀ a, Within root a → (DifferExcept vars excluded a ↔ (sortBy VarId.le vars).Pairwise (Differ2 ex a)) := fun a ha => by
    rw [differExcept_usable ha hmem, ← differExcept_perm hperm, differExcept_iff]
  by_cases hr : repeats (sortBy VarId.le vars) = true
  · rw [if_pos hr]
    by_cases h0 : excluded = []
    · rw [if_pos h0]
      refine .pure (AllDifferent.refuse_ok fun a ha hc => ?_)
      have : ex = [] := List.eq_nil_iff_forall_not_mem.2 fun y hy => by have := ((hmem y).1 hy).1; rw [h0] at this; simp at this
      have h1 := (hiff a ha).1 hc
      rw [this] at h1
      exact repeats_differ _ hr h1
    · rw [if_neg h0]
      have honce : ∀ v ∈ once (sortBy VarId.le vars), v ∈ sortBy VarId.le vars := fun v h => (mem_once _).1 h
      have hval : AllDifferent.Values root (once (sortBy VarId.le vars)) vals ex := AllDifferent.values_of hexc hvals.1 hvals.2.1 fun y => by rw [hvals']; simp only [mem_once]
      refine .pure (Posts.append (is := [_]) (js := [_]) (D1 := fun a => ∀ x ∈ dups (sortBy VarId.le vars), x.eval a ∈ ex) (D2 := DifferExcept (once (sortBy VarId.le vars)) ex) ?_ ?_ fun a ha => ?_)
      · refine ⟨[(_, _)], rfl, by simpa using exclude_ok ho (fun v h => hvs v (mem_of_dups _ h)) fun a ha hc => ((differ_split _).1 ((hiff a ha).1 hc)).1, fun a _ => by simp⟩
      · refine ⟨[(_, _)], rfl, ?_, fun a _ => by rw [List.forall_mem_singleton]⟩
        intro p hp
        rw [List.mem_singleton.1 hp]
        exact ⟨_, fun y hy => hperm.mem_iff.1 (honce y hy), prop_ok ho hval (fun v h => hvs v (honce v h)) hold (wakes_mem fun x hx => .inl hx) rfl fun a ha hc => differExcept_iff.2 ((differ_split _).1 ((hiff a ha).1 hc)).2⟩
      · rw [hiff a ha, differ_split, differExcept_iff]
  · rw [if_neg hr]
    have hval : AllDifferent.Values root (sortBy VarId.le vars) vals ex := AllDifferent.values_of hexc hvals.1 hvals.2.1 hvals'
    exact .pure (Posts.one' (DifferExcept (sortBy VarId.le vars) ex) ⟨_, fun y hy => hperm.mem_iff.1 hy, prop_ok ho hval hvs hold (wakes_mem fun x hx => .inl hx) rfl fun a ha hc => differExcept_iff.2 ((hiff a ha).1 hc)⟩
      fun a ha => by rw [hiff a ha, differExcept_iff])

end
end AllDifferentExcept
end Gcs
