import Verif.Lemmas.Cons.AllDifferentPost
import Verif.Lemmas.Cons.LinearConsistent
import Verif.Lemmas.Cons.Quiet
import Verif.Model.Cons.ValueConsistent

/-!
# Pushing values through a clique of not-equals, with state
-/

namespace Gcs
open IntervalSet

/-- `sort` and `adjacent_find` find all repetitions. -/
theorem VarId.le_trans {x y z : VarId} (h1 : x.le y = true) (h2 : y.le z = true) : x.le z = true := by
  cases x <;> cases y <;> cases z <;> simp_all [VarId.le]
  · omega
  · grind
  · omega

theorem VarId.le_total (x y : VarId) : x.le y = true ∨ y.le x = true := by
  cases x <;> cases y <;> simp [VarId.le]
  · omega
  · grind
  · omega

theorem VarId.le_antisymm {x y : VarId} (h1 : x.le y = true) (h2 : y.le x = true) : x = y := by
  cases x <;> cases y <;> simp_all [VarId.le]
  · omega
  · grind
  · omega

theorem insertBy_sorted (x : VarId) : ∀ ys : List VarId, ys.Pairwise (fun a b => a.le b = true) → (insertBy VarId.le x ys).Pairwise (fun a b => a.le b = true)
  | [], _ => by simp [insertBy]
  | y :: ys, h => by
    rw [insertBy]
    have h' := List.pairwise_cons.1 h
    split
    · rename_i hxy
      refine List.pairwise_cons.2 ⟨fun z hz => ?_, h⟩
      rcases List.mem_cons.1 hz with rfl | hz
      · exact hxy
      · exact VarId.le_trans hxy (h'.1 z hz)
    · rename_i hxy
      refine List.pairwise_cons.2 ⟨fun z hz => ?_, insertBy_sorted x ys h'.2⟩
      rcases List.mem_cons.1 ((insertBy_perm VarId.le x ys).mem_iff.1 hz) with rfl | hz
      · exact (VarId.le_total z y).resolve_left hxy
      · exact h'.1 z hz

theorem sortBy_sorted : ∀ xs : List VarId, (sortBy VarId.le xs).Pairwise (fun a b => a.le b = true)
  | [] => .nil
  | x :: xs => insertBy_sorted x _ (sortBy_sorted xs)

theorem nodup_of_repeats : ∀ l : List VarId, l.Pairwise (fun a b => a.le b = true) → repeats l = false → l.Nodup
  | [], _, _ => .nil
  | [x], _, _ => by simp
  | x :: y :: rest, h, hr => by
    have h' := List.pairwise_cons.1 h
    simp only [repeats, Bool.or_eq_false_iff, decide_eq_false_iff_not] at hr
    refine List.nodup_cons.2 ⟨fun hx => ?_, nodup_of_repeats _ h'.2 hr.2⟩
    rcases List.mem_cons.1 hx with e | hx
    · exact hr.1 e
    · exact hr.1 (VarId.le_antisymm (h'.1 y (by simp)) ((List.pairwise_cons.1 h'.2).1 x hx))

theorem eval_congr {x : VarId} {a b : Asg} (h : ∀ i, x.underlyingIndex = some i → a i = b i) : x.eval a = x.eval b := by
  cases x with
  | simple i => exact h i rfl
  | const c => rfl
  | view i n k => simp only [VarId.eval, h i rfl]

/-- Variables that are not the same and share nothing. -/
theorem underlying_ne {vars : List VarId} (hn : (vars.filterMap VarId.underlyingIndex).Nodup) {x y : VarId} (hx : x ∈ vars) (hy : y ∈ vars) (hne : x ≠ y) {i : Nat} (h1 : x.underlyingIndex = some i) :
    y.underlyingIndex ≠ some i := by
  induction vars with
  | nil => cases hx
  | cons z zs ih =>
    intro h2
    have mem : ∀ w ∈ zs, w.underlyingIndex = some i → i ∈ zs.filterMap VarId.underlyingIndex := fun w hw e => List.mem_filterMap.2 ⟨w, hw, e⟩
    rcases List.mem_cons.1 hx with ex | mx <;> rcases List.mem_cons.1 hy with ey | my
    · exact hne (ex.trans ey.symm)
    · rw [List.filterMap_cons_some (ex ▸ h1)] at hn
      exact (List.nodup_cons.1 hn).1 (mem _ my h2)
    · rw [List.filterMap_cons_some (ey ▸ h2)] at hn
      exact (List.nodup_cons.1 hn).1 (mem _ mx h1)
    · refine ih ?_ mx my h2
      cases e : z.underlyingIndex with
      | none => rwa [List.filterMap_cons_none e] at hn
      | some j => rw [List.filterMap_cons_some e] at hn; exact (List.nodup_cons.1 hn).2

/-- Removing a value of one variable settles no other. -/
theorem open_of_ne {d d' : Doms} (hd' : DomsOK d') {x y : VarId} {v : Int} (hu : ∀ i, y.underlyingIndex = some i → x.underlyingIndex ≠ some i) (h : ∀ b, Within d' b ↔ Within d b ∧ (Lit.cond (Cond.ne x v)).holds b)
    (hk : ¬ Known d y) : ¬ Known d' y := by
  intro hk'
  apply hk
  intro a b ha hb
  obtain ⟨c, hc⟩ := exists_within hd'
  have hcd := (h c).1 hc
  cases hi : y.underlyingIndex with
  | none => exact eval_congr fun i e => by rw [hi] at e; cases e
  | some i =>
    have key : ∀ a, Within d a → Within d' (fun j => if j = i then a i else c j) := fun a ha => by
      rw [h]
      refine ⟨hcd.1.upd ha i, ?_⟩
      have := hcd.2
      rw [Lit.holds_ne] at this ⊢
      rwa [eval_congr (b := c)]
      intro j hj
      have : j ≠ i := fun e => hu i hi (e ▸ hj)
      simp [this]
    have e := hk' _ _ (key a ha) (key b hb)
    rw [eval_congr (x := y) (b := a), eval_congr (x := y) (b := b) (a := fun j => if j = i then b i else c j)] at e
    · exact e
    · intro j hj; rw [hi] at hj; cases hj; simp
    · intro j hj; rw [hi] at hj; cases hj; simp

namespace AllDifferent

theorem set_perm {α : Type} {x l : α} : ∀ {ys : List α} {k : Nat}, ys[k]? = some x → (x :: ys.set k l).Perm (l :: ys)
  | [], _, h => by simp at h
  | y :: ys, 0, h => by
    simp only [List.getElem?_cons_zero, Option.some.injEq] at h
    subst h
    exact .swap _ _ _
  | y :: ys, k + 1, h => by
    have ih := set_perm (l := l) (ys := ys) (k := k) (by simpa using h)
    rw [List.set_cons_succ]
    exact (List.Perm.swap _ _ _).trans ((ih.cons y).trans (.swap _ _ _))

theorem takeOut_snoc {α : Type} (ys : List α) (l : α) (k : Nat) : takeOut (ys ++ [l]) k = if k < ys.length then ys.set k l else ys := by
  unfold takeOut
  rw [show (ys ++ [l]).getLast? = some l by simp]
  dsimp only
  split
  · rename_i h
    rw [List.set_append_left _ _ h, List.dropLast_append_of_ne_nil (by simp)]
    simp
  · rename_i h
    rw [List.set_append_right _ _ (by omega), List.dropLast_append_of_ne_nil]
    · cases e : k - ys.length with
      | zero => simp
      | succ j => simp
    · cases e : k - ys.length <;> simp

theorem exists_snoc {α : Type} {u : List α} {k : Nat} {x : α} (h : u[k]? = some x) : ∃ ys l, u = ys ++ [l] := by
  have : u ≠ [] := by rintro rfl; simp at h
  exact ⟨u.dropLast, u.getLast this, (List.dropLast_concat_getLast this).symm⟩

theorem takeOut_perm {α : Type} {u : List α} {k : Nat} {x : α} (h : u[k]? = some x) : u.Perm (x :: takeOut u k) := by
  obtain ⟨ys, l, rfl⟩ := exists_snoc h
  rw [takeOut_snoc]
  split
  · rename_i hk
    rw [List.getElem?_append_left hk] at h
    exact (List.perm_append_comm (l₁ := ys) (l₂ := [l])).trans (set_perm h).symm
  · rename_i hk
    rw [List.getElem?_append_right (by omega)] at h
    have : k - ys.length = 0 := by
      have := (List.getElem?_eq_some_iff.1 h).1
      simp at this; omega
    rw [this] at h
    simp only [List.getElem?_cons_zero, Option.some.injEq] at h
    subst h
    exact List.perm_append_comm (l₁ := ys) (l₂ := [l])

theorem takeOut_before {u : List VarId} {k j : Nat} {x y : VarId} (h : u[k]? = some x) (hj : j < k) (hy : (takeOut u k)[j]? = some y) : u[j]? = some y := by
  obtain ⟨ys, l, rfl⟩ := exists_snoc h
  have hk : k < ys.length + 1 := by have := (List.getElem?_eq_some_iff.1 h).1; simpa using this
  rw [takeOut_snoc] at hy
  rw [List.getElem?_append_left (by omega)]
  split at hy
  · rwa [List.getElem?_set_ne (by omega)] at hy
  · exact hy

theorem takeOut_after {u : List VarId} {k j : Nat} {x y : VarId} (h : u[k]? = some x) (hj : k ≤ j) (hy : u[j]? = some y) (hne : y ≠ x) : ∃ i, k ≤ i ∧ (takeOut u k)[i]? = some y := by
  obtain ⟨ys, l, rfl⟩ := exists_snoc h
  have hk : k < ys.length + 1 := by have := (List.getElem?_eq_some_iff.1 h).1; simpa using this
  have hjl : j < ys.length + 1 := by have := (List.getElem?_eq_some_iff.1 hy).1; simpa using this
  rw [takeOut_snoc]
  have hjk : j ≠ k := by rintro rfl; rw [h] at hy; cases hy; exact hne rfl
  rw [if_pos (by omega)]
  by_cases hl : j = ys.length
  · subst hl
    rw [List.getElem?_append_right (Nat.le_refl _)] at hy
    simp only [Nat.sub_self, List.getElem?_cons_zero, Option.some.injEq] at hy
    subst hy
    exact ⟨k, Nat.le_refl _, by rw [List.getElem?_set_self (by omega)]⟩
  · rw [List.getElem?_append_left (by omega)] at hy
    exact ⟨j, hj, by rw [List.getElem?_set_ne (by omega)]; exact hy⟩

/-- `x` has a value, and nothing else can have it. -/
def Done (vars : List VarId) (d : Doms) (x : VarId) : Prop := ∃ v, Pinned d x v ∧ ∀ y ∈ vars, y ≠ x → ∀ a, Within d a → y.eval a ≠ v

theorem Done.sub {vars : List VarId} {d d' : Doms} {x : VarId} (h : Done vars d x) (hs : ∀ a, Within d' a → Within d a) : Done vars d' x := by
  obtain ⟨v, h1, h2⟩ := h
  exact ⟨v, fun a ha => h1 a (hs a ha), fun y hy hne a ha => h2 y hy hne a (hs a ha)⟩

/-- What holds while values are pushed; if `F`, the variables that are neither in `u` nor in `todo` are done. -/
structure Inv (vars : List VarId) (F : Prop) (d : Doms) (u : List VarId) (todo : List (VarId × Int)) : Prop where
  left : ∀ x ∈ u, x ∈ vars
  waiting : ∀ p ∈ todo, p.1 ∈ vars
  nodup : (todo.map (·.1) ++ u).Nodup
  pins : ∀ p ∈ todo, Pinned d p.1 p.2 ∧ InI64 p.2
  done : F → ∀ x ∈ vars, x ∈ u ∨ (∃ p ∈ todo, p.1 = x) ∨ Done vars d x

section
variable {vars u : List VarId} {F : Prop} {d d' : Doms} {todo : List (VarId × Int)}

theorem Inv.sub (h : Inv vars F d u todo) (hs : ∀ a, Within d' a → Within d a) : Inv vars F d' u todo :=
  ⟨h.left, h.waiting, h.nodup, fun p hp => ⟨fun a ha => (h.pins p hp).1 a (hs a ha), (h.pins p hp).2⟩, fun hF x hx => (h.done hF x hx).imp id (Or.imp id fun k => k.sub hs)⟩

theorem Inv.perm {u' : List VarId} {t' : List (VarId × Int)} (h : Inv vars F d u todo) (h1 : u.Perm u') (h2 : todo.Perm t') : Inv vars F d u' t' where
  left x hx := h.left x (h1.mem_iff.2 hx)
  waiting p hp := h.waiting p (h2.mem_iff.2 hp)
  nodup := ((h2.map _).append h1).nodup_iff.1 h.nodup
  pins p hp := h.pins p (h2.mem_iff.2 hp)
  done hF x hx := by
    rcases h.done hF x hx with k | ⟨p, hp, e⟩ | k
    · exact .inl (h1.mem_iff.1 k)
    · exact .inr (.inl ⟨p, h2.mem_iff.1 hp, e⟩)
    · exact .inr (.inr k)

theorem Inv.move {k : Nat} {x : VarId} {v : Int} (h : Inv vars F d u todo) (hk : u[k]? = some x) (hv : Pinned d x v) (hi : InI64 v) : Inv vars F d (takeOut u k) ((x, v) :: todo) := by
  have h' := h.perm (takeOut_perm hk) (.refl _)
  refine ⟨fun y hy => h'.left y (by simp [hy]), ?_, ?_, ?_, fun hF y hy => ?_⟩
  · rintro p hp
    rcases List.mem_cons.1 hp with rfl | hp
    · exact h'.left x (by simp)
    · exact h'.waiting p hp
  · have := h'.nodup
    rw [List.perm_middle.nodup_iff] at this
    simpa using this
  · intro p hp
    rcases List.mem_cons.1 hp with rfl | hp
    · exact ⟨hv, hi⟩
    · exact h'.pins p hp
  · rcases h'.done hF y hy with k | ⟨p, hp, e⟩ | k
    · rcases List.mem_cons.1 k with rfl | k
      · exact .inr (.inl ⟨_, List.mem_cons_self, rfl⟩)
      · exact .inl k
    · exact .inr (.inl ⟨p, by simp [hp], e⟩)
    · exact .inr (.inr k)

theorem gather_roo (hd : DomsOK d) (hv : ∀ v ∈ vars, v.Valid d.length) : ∀ (f k : Nat) (u : List VarId) (todo : List (VarId × Int)), Inv vars F d u todo → k ≤ u.length → u.length < f + k → (∀ j y, j < k → u[j]? = some y → ¬ Known d y) →
    RightOrOverflow (gather d f k u todo) (fun r => Inv vars F d r.1 r.2 ∧ ∀ x ∈ r.1, ¬ Known d x)
  | 0, k, u, todo, h, hku, hf, hb => by
    exact absurd hf (by omega)
  | f + 1, k, u, todo, h, hku, hf, hb => by
    rw [gather]
    cases hk : u[k]? with
    | none =>
      refine .pure ⟨h, fun x hx => ?_⟩
      obtain ⟨j, hj⟩ := List.mem_iff_getElem?.1 hx
      have := (List.getElem?_eq_some_iff.1 hj).1
      dsimp only at this
      rw [List.getElem?_eq_none_iff] at hk
      exact hb j x (by omega) hj
    | some x =>
      have hx := h.left x (List.mem_of_getElem? hk)
      have hkl := (List.getElem?_eq_some_iff.1 hk).1
      dsimp only
      rcases single_pin hd (hv x hx) with e | ⟨r, e, hr⟩
      · rw [e]; exact .inl rfl
      · rw [e]
        cases r with
        | some v =>
          have hp := (takeOut_perm hk).length_eq
          simp only [List.length_cons] at hp
          exact gather_roo hd hv f k _ _ (h.move hk ((hr v).1.1 rfl) ((hr v).2 rfl)) (by omega) (by omega) fun j y hj hy => hb j y hj (takeOut_before hk hj hy)
        | none =>
          refine gather_roo hd hv f (k + 1) u todo h hkl (by omega) fun j y hj hy => ?_
          by_cases hjk : j = k
          · subst hjk
            rw [hk] at hy; cases hy
            intro hK
            obtain ⟨a, ha⟩ := exists_within hd
            exact nomatch (hr _).1.2 (hK.pinned ha)
          · exact hb j y (by omega) hy

end

section
variable {σ μ : Type} {J : Job} {vars : List VarId} {F : Prop}

theorem clash_ver (hC : ∀ a, J.C a → ∀ x ∈ vars, ∀ y ∈ vars, x ≠ y → x.eval a ≠ y.eval a) {d : Doms} {var : VarId} {val : Int} (hvar : var ∈ vars) (hvv : var.Valid J.n) (hp : Pinned d var val) (hi : InI64 val) :
    ∀ ps : List (VarId × Int), (∀ p ∈ ps, p.1 ∈ vars ∧ p.1 ≠ var ∧ Pinned d p.1 p.2) → (clash (σ := σ) (μ := μ) var val ps).Ver J (· = false) (fun b d' => b = true ∧ d' = d ∧ ∀ p ∈ ps, p.2 ≠ val) d
  | [], _ => ⟨rfl, rfl, by simp⟩
  | p :: ps, h => by
    have ih := clash_ver hC hvar hvv hp hi ps fun q hq => h q (by simp [hq])
    have hh := h p (by simp)
    rw [clash]
    split
    · rename_i e
      refine ⟨.ne hvv hi, fun a ha hc => ?_, fun d' h1 h2 h3 => ?_, fun _ => rfl⟩
      · exact absurd ((hh.2.2 a ha).trans (e.trans (hp a ha).symm)) (hC a hc _ hh.1 _ hvar hh.2.1)
      · obtain ⟨b, hb⟩ := exists_within h1
        obtain ⟨h4, h5⟩ := (h3 b).1 hb
        rw [Lit.holds_ne] at h5
        exact absurd (hp b h4) h5
    · rename_i e
      exact ver_mono (fun b d' hq => ⟨hq.1, hq.2.1, List.forall_mem_cons.2 ⟨e, hq.2.2⟩⟩) _ _ ih

/-- What holds after a value has been pushed. -/
def Pushed (vars : List VarId) (F D : Prop) (var : VarId) (val : Int) (d : Doms) (u : List VarId) (todo : List (VarId × Int)) (d' : Doms) (r : List VarId × List (VarId × Int)) : Prop :=
  Inv vars F d' r.1 ((var, val) :: r.2) ∧ (F → ∀ x ∈ vars, x ≠ var → ∀ a, Within d' a → x.eval a ≠ val) ∧ (D → ∀ x ∈ r.1, ¬ Known d' x) ∧ (u = [] → d' = d ∧ r.1 = []) ∧ r.1.length + r.2.length = u.length + todo.length

theorem push_ver (ho : J.R .overflow) (hC : ∀ a, J.C a → ∀ x ∈ vars, ∀ y ∈ vars, x ≠ y → x.eval a ≠ y.eval a) (hv : ∀ v ∈ vars, v.Valid J.n) {D : Prop} (hD : D → (vars.filterMap VarId.underlyingIndex).Nodup)
    {var : VarId} {val : Int} : ∀ (f k : Nat) (u : List VarId) (todo : List (VarId × Int)) (d : Doms), DomsOK d → d.length = J.n → Inv vars F d u ((var, val) :: todo) → k ≤ u.length → u.length < f + k →
    (F → ∀ x ∈ vars, x ≠ var → (∃ j, k ≤ j ∧ u[j]? = some x) ∨ ∀ a, Within d a → x.eval a ≠ val) → (D → ∀ x ∈ u, ¬ Known d x) →
    (push (σ := σ) (μ := μ) var val f k u todo).Ver J (· = none) (fun r d' => ∃ q, r = some q ∧ Pushed vars F D var val d u todo d' q) d
  | 0, k, u, todo, d, _, _, _, hku, hf, hcl, hop => absurd hf (by omega)
  | f + 1, k, u, todo, d, hd, hl, h, hku, hf, hcl, hop => by
    rw [push]
    cases hk : u[k]? with
    | none =>
      rw [List.getElem?_eq_none_iff] at hk
      refine ⟨_, rfl, h, fun hF x hx hne => ?_, hop, fun e => ⟨rfl, e⟩, rfl⟩
      rcases hcl hF x hx hne with ⟨j, hj, e⟩ | h
      · have := (List.getElem?_eq_some_iff.1 e).1; omega
      · exact h
    | some x =>
      have hx := h.left x (List.mem_of_getElem? hk)
      have hkl := (List.getElem?_eq_some_iff.1 hk).1
      have hvar : var ∈ vars := h.waiting _ List.mem_cons_self
      have hu0 : u ≠ [] := by rintro rfl; simp at hk
      have hne : x ≠ var := by
        rintro rfl
        have := h.nodup
        simp only [List.map_cons, List.cons_append, List.nodup_cons] at this
        exact this.1 (List.mem_append_right _ (List.mem_of_getElem? hk))
      have hpin := h.pins _ List.mem_cons_self
      dsimp only
      rw [if_neg hne]
      refine ⟨.ne (hv x hx) hpin.2, fun a ha hc => ?_, fun d' h1 h2 h3 => ?_, fun _ => rfl⟩
      · rw [Lit.holds_ne]
        exact fun e => hC a hc x hx var hvar hne (e.trans (hpin.1 a ha).symm)
      · simp only [if_true]
        rintro s rfl
        dsimp only
        have hsub : ∀ a, Within s.doms a → Within d a := fun a ha => ((h3 a).1 ha).1
        have hxv : ∀ a, Within s.doms a → x.eval a ≠ val := fun a ha => by have := ((h3 a).1 ha).2; rwa [Lit.holds_ne] at this
        have hop' : D → ∀ y ∈ u, y ≠ x → ¬ Known s.doms y := fun hd y hy hyx => open_of_ne h1 (fun i hi => underlying_ne (hD hd) (h.left y hy) hx hyx hi) h3 (hop hd y hy)
        rcases single_pin h1 (h2.symm ▸ hv x hx) with e | ⟨r, e, hr⟩
        · rw [e]; exact ho
        · rw [e]
          cases r with
          | some v =>
            have hp := takeOut_perm hk
            have hpl := hp.length_eq
            simp only [List.length_cons] at hpl
            have hnd : (x :: takeOut u k).Nodup := hp.nodup_iff.1 ((List.nodup_append.1 h.nodup).2.1)
            refine ver_mono (fun r d'' ⟨q, hr, k1, k2, k3, _, k5⟩ => ⟨q, hr, k1, k2, k3, fun e => absurd e hu0, by simp only [List.length_cons] at k5; omega⟩) _ _
              (push_ver ho hC hv hD f k (takeOut u k) ((x, v) :: todo) s.doms h1 h2 (((h.sub hsub).move hk ((hr v).1.1 rfl) ((hr v).2 rfl)).perm (.refl _) (.swap _ _ _)) (by omega) (by omega) (fun hF y hy hyv => ?_) fun hd y hy => ?_)
            · by_cases hyx : y = x
              · subst hyx; exact .inr hxv
              · rcases hcl hF y hy hyv with ⟨j, hj, e⟩ | h
                · exact .inl (takeOut_after hk hj e hyx)
                · exact .inr fun a ha => h a (hsub a ha)
            · refine hop' hd y (hp.mem_iff.2 (by simp [hy])) ?_
              rintro rfl
              exact (List.nodup_cons.1 hnd).1 hy
          | none =>
            refine ver_mono (fun r d'' ⟨q, hr, k1, k2, k3, _, k5⟩ => ⟨q, hr, k1, k2, k3, fun e => absurd e hu0, k5⟩) _ _
              (push_ver ho hC hv hD f (k + 1) u todo s.doms h1 h2 (h.sub hsub) hkl (by omega) (fun hF y hy hyv => ?_) fun hd y hy => ?_)
            · by_cases hyx : y = x
              · subst hyx; exact .inr hxv
              · rcases hcl hF y hy hyv with ⟨j, hj, e⟩ | h
                · refine .inl ⟨j, ?_, e⟩
                  have : j ≠ k := by rintro rfl; rw [hk] at e; cases e; exact hyx rfl
                  omega
                · exact .inr fun a ha => h a (hsub a ha)
            · by_cases hyx : y = x
              · subst hyx
                intro hK
                obtain ⟨a, ha⟩ := exists_within h1
                exact nomatch (hr _).1.2 (hK.pinned ha)
              · exact hop' hd y hy hyx

theorem drain_ver (ho : J.R .overflow) (hC : ∀ a, J.C a → ∀ x ∈ vars, ∀ y ∈ vars, x ≠ y → x.eval a ≠ y.eval a) (hv : ∀ v ∈ vars, v.Valid J.n) {D : Prop} (hD : D → (vars.filterMap VarId.underlyingIndex).Nodup) :
    ∀ (f : Nat) (u : List VarId) (todo : List (VarId × Int)) (d : Doms), DomsOK d → d.length = J.n → Inv vars F d u todo → u.length + todo.length < f → (D → ∀ x ∈ u, ¬ Known d x) →
    (drain (σ := σ) (μ := μ) f u todo).Ver J (· = none) (fun r d' => ∃ q, r = some q ∧ Inv vars F d' q [] ∧ (D → ∀ x ∈ q, ¬ Known d' x) ∧ (u = [] → d' = d ∧ q = [])) d
  | 0, u, todo, d, _, _, _, hf, _ => absurd hf (by omega)
  | f + 1, u, [], d, _, _, h, _, hop => ⟨u, rfl, h, hop, fun e => ⟨rfl, e⟩⟩
  | f + 1, u, p :: todo, d, hd, hl, h, hf, hop => by
    have hvar := h.waiting p List.mem_cons_self
    have hpin := h.pins p List.mem_cons_self
    have hnd := h.nodup
    simp only [List.map_cons, List.cons_append, List.nodup_cons, List.mem_append, not_or] at hnd
    refine ver_bind (S := (· = false)) (fun v e => by subst e; exact rfl) _ d hd hl (ver_mono (fun b d1 hq _ _ _ => ?_) _ _ (clash_ver hC hvar (hv _ hvar) hpin.1 hpin.2 todo.reverse fun q hq => ?_))
    · obtain ⟨rfl, rfl, hq⟩ := hq
      rw [if_pos rfl]
      refine ver_bind (S := (· = none)) (fun v e => by subst e; exact rfl) _ d1 hd hl (ver_mono (fun r d2 hr k1 k2 _ => ?_) _ _ (push_ver ho hC hv hD (var := p.1) (val := p.2) (u.length + 1) 0 u todo d1 hd hl h (by omega) (by omega) (fun hF x hx hne => ?_) hop))
      · obtain ⟨⟨u', t'⟩, rfl, i1, i2, i3, i4, i5⟩ := hr
        dsimp only at i1 i3 i4 i5 ⊢
        simp only [List.length_cons] at hf
        have hnd' := i1.nodup
        simp only [List.map_cons, List.cons_append, List.nodup_cons] at hnd'
        refine ver_mono (fun r d3 ⟨q, e, j1, j2, j3⟩ => ⟨q, e, j1, j2, fun e => ?_⟩) _ _ (drain_ver ho hC hv hD f u' t' d2 k1 k2 ⟨i1.left, fun q hq => i1.waiting q (by simp [hq]), hnd'.2, fun q hq => i1.pins q (by simp [hq]), fun hF x hx => ?_⟩ (by omega) i3)
        · rcases i1.done hF x hx with k | ⟨q, hq, e⟩ | k
          · exact .inl k
          · rcases List.mem_cons.1 hq with rfl | hq
            · subst e
              exact .inr (.inr ⟨_, (i1.pins _ List.mem_cons_self).1, fun y hy hne => i2 hF y hy hne⟩)
            · exact .inr (.inl ⟨q, hq, e⟩)
          · exact .inr (.inr k)
        · obtain ⟨e1, e2⟩ := i4 e
          obtain ⟨e3, e4⟩ := j3 e2
          exact ⟨e3.trans e1, e4⟩
      · rcases h.done hF x hx with k | ⟨q, hq', e⟩ | ⟨v, k1, k2⟩
        · obtain ⟨j, hj⟩ := List.mem_iff_getElem?.1 k
          exact .inl ⟨j, by omega, hj⟩
        · rcases List.mem_cons.1 hq' with rfl | hq'
          · exact absurd e.symm hne
          · refine .inr fun a ha e' => hq q (by simpa using hq') ?_
            rw [← (h.pins q (by simp [hq'])).1 a ha, e, e']
        · refine .inr fun a ha e => k2 p.1 hvar (Ne.symm hne) a ha ?_
          rw [hpin.1 a ha, ← e, k1 a ha]
    · have hq' : q ∈ todo := by simpa using hq
      refine ⟨h.waiting q (by simp [hq']), fun e => hnd.1.1 ?_, (h.pins q (by simp [hq'])).1⟩
      rw [← e]; exact List.mem_map_of_mem hq'

/-- What the pass establishes. -/
def Passed (vars : List VarId) (F D : Prop) (d : Doms) (d' : Doms) (u : List VarId) : Prop :=
  Inv vars F d' u [] ∧ (D → ∀ x ∈ u, ¬ Known d' x) ∧ ((∀ x ∈ vars, Known d x) → d' = d ∧ u = [])

theorem pass_ver (ho : J.R .overflow) (hC : ∀ a, J.C a → ∀ x ∈ vars, ∀ y ∈ vars, x ≠ y → x.eval a ≠ y.eval a) (hv : ∀ v ∈ vars, v.Valid J.n) {D : Prop} (hD : D → (vars.filterMap VarId.underlyingIndex).Nodup)
    {u : List VarId} {d : Doms} (hd : DomsOK d) (hl : d.length = J.n) (h : Inv vars F d u []) :
    (pass (σ := σ) (μ := μ) u).Ver J (· = none) (fun r d' => ∃ q, r = some q ∧ Passed vars F D d d' q) d := by
  rintro s rfl
  dsimp only
  rcases gather_roo hd (fun v hh => hl.symm ▸ hv v hh) (u.length + 1) 0 u [] h (by omega) (by omega) (fun j y hj => absurd hj (by omega)) with e | ⟨r, e, h1, h2⟩
  · rw [e]; exact ho
  · rw [e]
    refine ver_mono (fun r' d' ⟨q, hr, k1, k2, k3⟩ => ⟨q, hr, k1, k2, fun hk => k3 ?_⟩) _ _ (drain_ver ho hC hv hD _ r.1 r.2 s.doms hd hl h1 (by omega) fun _ => h2)
    exact List.eq_nil_iff_forall_not_mem.2 fun x hx => h2 x hx (hk x (h1.left x hx))

theorem clash_noCheck {var : VarId} {val : Int} : ∀ ps, (clash (σ := σ) (μ := μ) var val ps).NoCheck
  | [] => trivial
  | p :: ps => by
    rw [clash]
    split
    · intro b
      cases b
      · exact trivial
      · exact clash_noCheck ps
    · exact clash_noCheck ps

theorem push_noCheck {var : VarId} {val : Int} : ∀ f k u todo, (push (σ := σ) (μ := μ) var val f k u todo).NoCheck
  | 0, _, _, _ => trivial
  | f + 1, k, u, todo => by
    rw [push]
    split
    · trivial
    · split
      · exact push_noCheck ..
      · intro b
        cases b
        · exact trivial
        · intro s
          dsimp only
          split
          · trivial
          · exact push_noCheck ..
          · exact push_noCheck ..

theorem drain_noCheck : ∀ f u todo, (drain (σ := σ) (μ := μ) f u todo).NoCheck
  | 0, _, _ => trivial
  | _ + 1, _, [] => trivial
  | f + 1, u, p :: todo => by
    refine bind_noCheck (fun b => ?_) _ (clash_noCheck _)
    split
    · refine bind_noCheck (fun r => ?_) _ (push_noCheck ..)
      cases r
      · trivial
      · exact drain_noCheck ..
    · trivial

/-- The pass does not ask whether there was progress, so afterwards the answer is whether it changed anything (`progress_iff_changed`). -/
theorem pass_noCheck {u : List VarId} : (pass (σ := σ) (μ := μ) u).NoCheck := by
  intro s
  dsimp only
  split
  · trivial
  · exact drain_noCheck ..

/-- The constraint state holds a list of variables as it should be. -/
def Stored (B : Kind σ (List VarId)) (h : Nat) (vars : List VarId) (F : Prop) (d : Doms) (z : List σ) : Prop := ∃ u, z[h]? = some (B.put u) ∧ Inv vars F d u []

theorem Stored.sub {B : Kind σ (List VarId)} {h : Nat} {d d' : Doms} {z : List σ} (hi : Stored B h vars F d z) (hs : ∀ a, Within d' a → Within d a) : Stored B h vars F d' z := by
  obtain ⟨u, h1, h2⟩ := hi
  exact ⟨u, h1, h2.sub hs⟩

theorem vcStage_ver {B : Kind σ (List VarId)} {h : Nat} {T : PState → Prop} {P : PState → Doms → List σ → Prop} {k : Bool → Prog σ μ PState} (ho : J.R .overflow)
    (hC : ∀ a, J.C a → ∀ x ∈ vars, ∀ y ∈ vars, x ≠ y → x.eval a ≠ y.eval a) (hv : ∀ v ∈ vars, v.Valid J.n) {D : Prop} (hD : D → (vars.filterMap VarId.underlyingIndex).Nodup) (hown : J.own h)
    {d : Doms} {z : List σ} (hz : z.length = J.m) (hd : DomsOK d) (hl : d.length = J.n) (hi : Stored B h vars F d z) (hf : (k false).Halts J.R T)
    (ht : ∀ d' z', DomsOK d' → d'.length = J.n → (∀ a, Within d' a → Within d a) → Stored B h vars F d' z' → (∃ u, Passed vars F D d d' u) → (k true).VerS J T P d' z') : (vcStage B h k).VerS J T P d z := by
  obtain ⟨u, hu, h1⟩ := hi
  have hlt := (List.getElem?_eq_some_iff.1 hu).1
  rintro s rfl rfl
  dsimp only
  rw [show (s.st.cstates.headD [])[h]? = some (B.put u) from hu]
  dsimp only
  rw [B.get_put]
  dsimp only
  refine verS_bind (S := (· = none)) (fun v e => by subst e; exact hf) _ _ _ hd hl (verS_mono (fun r d' z' hq k1 k2 k3 => ?_) _ _ _ (verS_own (J := { J with own := fun _ => False }) (own := J.own) (fun _ hh => hh.elim) _ _ _
    (Ver.toS (J := { J with own := fun _ => False }) (fun _ => id) _ _ _ (pass_ver (J := { J with own := fun _ => False }) ho hC hv hD hd hl h1))))
  obtain ⟨⟨q, rfl, hq⟩, rfl⟩ := hq
  refine ⟨⟨hz ▸ hlt, hown⟩, ht _ _ k1 k2 k3 ⟨q, ?_, hq.1⟩ ⟨q, hq⟩⟩
  rw [List.getElem?_set_self hlt]

theorem differ_all {vars : List VarId} (hn : vars.Nodup) {a : Asg} : DifferExcept vars [] a ↔ ∀ x ∈ vars, ∀ y ∈ vars, x ≠ y → x.eval a ≠ y.eval a := by
  constructor
  · intro h x hx y hy hne e
    obtain ⟨i, hi⟩ := List.mem_iff_getElem?.1 hx
    obtain ⟨j, hj⟩ := List.mem_iff_getElem?.1 hy
    exact nomatch h i j x y hi hj (by rintro rfl; rw [hi] at hj; cases hj; exact hne rfl) e
  · intro h i j x y hx hy hij e
    refine absurd e (h x (List.mem_of_getElem? hx) y (List.mem_of_getElem? hy) fun e' => hij ?_)
    exact (List.getElem?_inj (List.getElem?_eq_some_iff.1 hx).1 hn).1 (by rw [hx, hy, e'])

theorem Inv.finished {d : Doms} (h : Inv vars F d [] []) (hF : F) {a : Asg} (ha : Within d a) : ∀ x ∈ vars, ∀ y ∈ vars, x ≠ y → x.eval a ≠ y.eval a := by
  intro x hx y hy hne e
  rcases h.done hF x hx with k | ⟨p, hp, _⟩ | ⟨v, k1, k2⟩
  · cases k
  · cases hp
  · exact k2 y hy (Ne.symm hne) a ha (e ▸ k1 a ha)

variable {n m : Nat} {R : Err → Prop} {root : Doms} {vals : List Int} {old : Nat → List (Option Nat)} {C : Asg → Prop} {B : Kind σ (List VarId)} {h : Nat}

theorem distinct_vars {t : Triggers} (ht : t.onChange = vars) (hD : t.Distinct) : (vars.filterMap VarId.underlyingIndex).Nodup := by
  unfold Triggers.Distinct at hD
  rw [ht, List.append_assoc, List.append_assoc, List.filterMap_append] at hD
  exact (List.nodup_append.1 hD).1

theorem vcProp_serves (ho : R .overflow) (hn : vars.Nodup) (hv : ∀ v ∈ vars, v.Valid n) (hC : ∀ a, Within root a → C a → DifferExcept vars [] a) :
    Serves n m R root (Stored B h vars True) (· = h) (vcProp (μ := μ) B h) { onChange := vars } C (DifferExcept vars []) vars where
  wakes := wakes_mem fun x hx => .inl hx
  refined := by simp
  ver d z hd hl hz hi := by
    refine vcStage_ver (J := { n, m, R, C := fun a => Within root a ∧ C a, own := (· = h) }) (D := Triggers.Distinct { onChange := vars }) ho (fun a ha => (differ_all hn).1 (hC a ha.1 ha.2)) hv
      (fun hD => distinct_vars rfl hD) rfl hz hd hl hi trivial fun d' z' h1 h2 h3 hs ⟨u, hp1, hp2, hp3⟩ => ?_
    refine ⟨⟨fun hk a ha _ => ?_, fun hD _ hk a ha _ => ?_, fun e => nomatch e⟩, hs⟩
    · obtain ⟨_, rfl⟩ := hp3 (known_all hk)
      exact (differ_all hn).2 (hp1.finished trivial ha)
    · have : u = [] := List.eq_nil_iff_forall_not_mem.2 fun x hx => hp2 hD x hx (known_all hk x (hp1.left x hx))
      subst this
      exact (differ_all hn).2 (hp1.finished trivial ha)

theorem gacProp_ver (ho : R .overflow) (hf : Values root vars vals []) (hv : ∀ v ∈ vars, v.Valid n) (hold : ∀ k, Gac.Injective (old k)) (hC : ∀ a, Within root a → C a → DifferExcept vars [] a) {d : Doms}
    (hd : DomsOK d) (hl : d.length = n) : (gacProp (σ := σ) (μ := μ) vars vals old).Ver { n, m, R, C := fun a => Within root a ∧ C a } (fun _ => True)
      (EnforcedIf (Triggers.Distinct { onChange := vars }) (fun a => Within root a → DifferExcept vars [] a) (vars.filterMap VarId.underlyingIndex) d) d := by
  refine ver_bind (S := fun _ => False) (fun _ h => h.elim) _ d hd hl (ver_mono (fun _ d' hq _ _ _ => ?_) _ _ (gac_ver (J := { n, m, R, C := fun a => Within root a ∧ C a }) ho hf hv hold (fun a h => ⟨h.1, hC a h.1 h.2⟩) hd hl))
  exact ⟨fun hk a ha _ => hq.known (known_all hk) ha, fun hD _ hk a ha _ => hq.known' hd (distinct_vars rfl hD) (known_all hk) ha, fun e => nomatch e⟩

theorem stagedProp_serves (ho : R .overflow) (hn : vars.Nodup) (hf : Values root vars vals []) (hv : ∀ v ∈ vars, v.Valid n) (hold : ∀ k, Gac.Injective (old k)) (hC : ∀ a, Within root a → C a → DifferExcept vars [] a) :
    Serves n m R root (Stored B h vars False) (· = h) (stagedProp (μ := μ) B h vars vals old) { onChange := vars } C (DifferExcept vars []) vars where
  wakes := wakes_mem fun x hx => .inl hx
  refined := by simp
  ver d z hd hl hz hi := by
    rintro s rfl rfl
    refine vcStage_ver (J := { n, m, R, C := fun a => Within root a ∧ C a, own := (· = h) }) (D := Triggers.Distinct { onChange := vars }) ho (fun a ha => (differ_all hn).1 (hC a ha.1 ha.2)) hv
      (fun hD => distinct_vars rfl hD) rfl hz hd hl hi trivial fun d' z' h1 h2 h3 hs ⟨u, hp1, hp2, hp3⟩ => ?_
    rw [if_pos rfl]
    rintro s' rfl rfl
    dsimp only
    by_cases e : s'.doms = s.doms
    · rw [if_pos e]
      exact verS_mono (fun ps d'' z'' hq => ⟨hq.1.1, hq.1.2 ▸ hs.sub hq.2.2.2.1⟩) _ _ _ (verS_frame (J := { n, m, R, C := fun a => Within root a ∧ C a, own := (· = h) }) _ _ _ h1 h2 (verS_own (J := { n, m, R, C := fun a => Within root a ∧ C a }) (own := (· = h)) (fun _ hh => hh.elim) _ _ _
        (Ver.toS (J := { n, m, R, C := fun a => Within root a ∧ C a }) (fun _ => id) _ _ _ (e ▸ gacProp_ver (d := s'.doms) ho hf hv hold hC h1 h2))))
    · rw [if_neg e]
      exact ⟨⟨fun hk => absurd (hp3 (known_all hk)).1 e, fun _ e => absurd e (by decide), fun e => absurd e (by decide)⟩, hs⟩

end
end AllDifferent
end Gcs
