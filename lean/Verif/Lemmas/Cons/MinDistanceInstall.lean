import Verif.Lemmas.Cons.MinDistanceMatch

namespace Gcs
open IntervalSet

section
variable {σ μ : Type} {n m : Nat} {R : Err → Prop} {root : Doms} {C : Asg → Prop}

/-- `Inits.served` for several propagators. -/
theorem Inits.servedAll {z0 : List σ} {e : Asg → Prop} {I : Doms → Prop} {items : List (Item σ μ)} {ps : List (Item σ μ × (Asg → Prop))} {xs : List VarId} (h : Inits n m R root C e items)
    (hs : ∀ p ∈ ps, ∃ f t ys, p.1 = .prop f t ∧ (∀ y ∈ ys, y ∈ xs) ∧ Serves n m R root (fun d _ => I d) (fun _ => False) f t C p.2 ys) (hC : ∀ a, Within root a → (C a ↔ e a ∧ ∀ p ∈ ps, p.2 a))
    (h1 : ∀ d d', (∀ a, Within d' a → Within d a) → I d → I d') (h2 : ∀ d, DomsOK d → d.length = n → (∀ a, Within d a → Within root a ∧ e a) → I d) :
    ∃ I es, es.map (·.1) = items ++ ps.map (·.1) ∧ Served n m R root z0 I (fun _ => False) C xs es := by
  obtain ⟨es, e1, e2, e3⟩ := h.out
  refine ⟨fun d _ => I d, es ++ ps, by simp [e1], ⟨?_, fun a ha => ?_, fun d d' _ _ _ hs => h1 d d' hs, fun _ _ _ _ hi => hi, fun d hd hl hq => ?_⟩⟩
  · rw [List.forall_mem_append]
    refine ⟨fun p hp => (e2 p hp).2 _ _ _, fun p hp => ?_⟩
    obtain ⟨f, t, ys, h, k⟩ := hs p hp
    rw [h]
    exact ⟨ys, k⟩
  · rw [List.forall_mem_append, e3 a ha]; exact hC a ha
  · refine h2 d hd hl fun a ha => ⟨(hq a ha).1, (e3 a (hq a ha).1).1 fun p hp => (hq a ha).2 p (List.mem_append_left _ hp) (e2 p hp).1⟩

end

namespace MinDistance

section
variable {σ μ : Type} {n m : Nat} {R : Err → Prop} {root d : Doms} {D : Matrix} {Q : Option Matrix} {z : VarId} {xs : List VarId}

theorem badDistances_roo (D : Matrix) : RightOrOverflow (badDistances D) (fun b => b = true ↔ ¬ Distances D) := by
  unfold badDistances
  split
  · rename_i h
    exact .pure ⟨fun _ k => k.some h, fun _ => rfl⟩
  split
  · rename_i h
    obtain ⟨row, h1, h2⟩ := h
    exact .pure ⟨fun _ k => h2 (k.square row h1), fun _ => rfl⟩
  rename_i hne hsq
  have sq : ∀ row ∈ D, row.length = D.length := fun row h => Classical.byContradiction fun k => hsq ⟨row, h, k⟩
  refine (anyOf_roo (P := fun a => entry D a a ≠ 0) _ fun a ha => ?_).bind fun b hb => ?_
  · rw [dist_eq sq (mem_nums.1 ha) (mem_nums.1 ha)]
    exact .pure (by simp)
  cases b with
  | true =>
    obtain ⟨a, ha, h⟩ := hb.1 rfl
    exact .pure ⟨fun _ k => h (entry_self k (mem_nums.1 ha)), fun _ => rfl⟩
  | false =>
    have rng : ∀ p ∈ Disjunctive2D.pairs ((List.range D.length).map Int.ofNat), InRange D.length p.1 ∧ InRange D.length p.2 := fun p hp => by
      obtain ⟨i, j, _, h1, h2⟩ := mem_pairs_iff.1 hp
      exact ⟨mem_nums.1 (List.mem_of_getElem? h1), mem_nums.1 (List.mem_of_getElem? h2)⟩
    refine (anyOf_roo (P := fun p => entry D p.1 p.2 < 0 ∨ entry D p.1 p.2 ≠ entry D p.2 p.1) _ fun p hp => ?_).mono fun b hb' => ?_
    · obtain ⟨r1, r2⟩ := rng p hp
      rw [badEntry, dist_eq sq r1 r2]
      show RightOrOverflow (if entry D p.1 p.2 < 0 then _ else _) _
      split
      · rename_i h; exact .pure ⟨fun _ => .inl h, fun _ => rfl⟩
      · rename_i h
        rw [dist_eq sq r2 r1]
        exact .pure (by simp [h])
    · rw [hb']
      constructor
      · rintro ⟨p, hp, h⟩ k
        obtain ⟨r1, r2⟩ := rng p hp
        rcases h with h | h
        · have := k.nonneg p.1.toNat p.2.toNat (by have := r1.1; have := r1.2; omega) (by have := r2.1; have := r2.2; omega)
          rw [Int.toNat_of_nonneg r1.1, Int.toNat_of_nonneg r2.1] at this
          omega
        · exact h (entry_symm k r1 r2)
      · intro h
        refine Classical.byContradiction fun hn => h ?_
        have zero : ∀ a : Nat, a < D.length → entry D a a = 0 := fun a ha => Classical.byContradiction fun k => Bool.noConfusion (hb.2 ⟨a, mem_nums.2 ⟨Int.natCast_nonneg a, by omega⟩, k⟩)
        have up : ∀ a b : Nat, a < b → b < D.length → 0 ≤ entry D a b ∧ entry D a b = entry D b a := fun a b hab hbl => by
          have mem : ((a : Int), (b : Int)) ∈ Disjunctive2D.pairs ((List.range D.length).map Int.ofNat) := mem_pairs_iff.2 ⟨a, b, hab, by simp [Nat.lt_trans hab hbl], by simp [hbl]⟩
          exact ⟨Int.not_lt.1 fun k => hn ⟨_, mem, .inl k⟩, Classical.byContradiction fun k => hn ⟨_, mem, .inr k⟩⟩
        refine ⟨hne, sq, zero, fun a b ha hb => ?_, fun a b ha hb => ?_⟩
        · rcases Nat.lt_trichotomy a b with h | h | h
          · exact (up a b h hb).1
          · subst h; rw [zero a ha]; exact Int.le_refl _
          · rw [← (up b a h ha).2]; exact (up b a h ha).1
        · rcases Nat.lt_trichotomy a b with h | h | h
          · exact (up a b h hb).2
          · rw [h]
          · exact (up b a h ha).2.symm

theorem badRequirements_roo (p : Nat) (Q : Option Matrix) : RightOrOverflow (badRequirements p Q) (fun b => b = true ↔ ∃ q, Q = some q ∧ ¬ Requirements p q) := by
  cases Q with
  | none => exact .pure (by simp)
  | some q =>
    have alt : (∃ q', some q = some q' ∧ ¬ Requirements p q') ↔ ¬ Requirements p q := ⟨fun ⟨_, e, h⟩ => by cases e; exact h, fun h => ⟨q, rfl, h⟩⟩
    rw [alt]
    show RightOrOverflow (if q.length ≠ p then pure true else if ∃ row ∈ q, row.length ≠ p then pure true else anyOf (fun r => do return decide ((← vecAt (← vecAt q r.1) r.2) < 0)) (Disjunctive2D.pairs (List.range p))) _
    split
    · rename_i h; exact .pure ⟨fun _ k => h k.rows, fun _ => rfl⟩
    split
    · rename_i h
      obtain ⟨row, h1, h2⟩ := h
      exact .pure ⟨fun _ k => h2 (k.square row h1), fun _ => rfl⟩
    rename_i hr hsq
    have rows : q.length = p := Classical.byContradiction hr
    have sq : ∀ row ∈ q, row.length = p := fun row h => Classical.byContradiction fun k => hsq ⟨row, h, k⟩
    refine (anyOf_roo (P := fun r : Nat × Nat => entry q r.1 r.2 < 0) _ fun r hr => ?_).mono fun b hb => ?_
    · obtain ⟨i, j, _, h1, h2⟩ := mem_pairs_iff.1 hr
      have m1 := List.mem_range.1 (List.mem_of_getElem? h1)
      have m2 := List.mem_range.1 (List.mem_of_getElem? h2)
      have l1 : r.1 < q.length := by omega
      have l2 : r.2 < q[r.1].length := by rw [sq _ (List.getElem_mem l1)]; exact m2
      rw [vecAt_ok.2 (List.getElem?_eq_getElem l1), chk_ok_bind, vecAt_ok.2 (List.getElem?_eq_getElem l2), entry_at l1 l2]
      exact .pure (by simp)
    · rw [hb]
      constructor
      · rintro ⟨r, hr, h⟩ k
        obtain ⟨i, j, hij, h1, h2⟩ := mem_pairs_iff.1 hr
        have e1 : r.1 = i := by
          have := List.getElem?_eq_some_iff.1 h1; obtain ⟨_, e⟩ := this; simpa using e.symm
        have e2 : r.2 = j := by
          have := List.getElem?_eq_some_iff.1 h2; obtain ⟨_, e⟩ := this; simpa using e.symm
        have m2 := List.mem_range.1 (List.mem_of_getElem? h2)
        have := k.nonneg r.1 r.2 (by omega) m2
        omega
      · intro h
        refine Classical.byContradiction fun hn => h ⟨rows, sq, fun i j hij hj => Int.not_lt.1 fun k => hn ⟨(i, j), mem_pairs_iff.2 ⟨i, j, hij, ?_, ?_⟩, k⟩⟩
        · simp [Nat.lt_trans hij hj]
        · simp [hj]

theorem insertSorted_sorted {x : Int} : ∀ {l : List Int}, l.Pairwise (· < ·) → (insertSorted x l).Pairwise (· < ·) ∧ ∀ y, y ∈ insertSorted x l → y = x ∨ y ∈ l
  | [], _ => by simp [insertSorted]
  | y :: ys, h => by
    obtain ⟨h1, h2⟩ := List.pairwise_cons.1 h
    obtain ⟨i1, i2⟩ := insertSorted_sorted (x := x) h2
    rw [insertSorted]
    split
    · rename_i hlt
      exact ⟨List.pairwise_cons.2 ⟨fun w hw => by rcases List.mem_cons.1 hw with rfl | hw; exact hlt; have := h1 w hw; omega, h⟩, fun w hw => List.mem_cons.1 hw⟩
    · split
      · exact ⟨h, fun w hw => .inr hw⟩
      · refine ⟨List.pairwise_cons.2 ⟨fun w hw => ?_, i1⟩, fun w hw => ?_⟩
        · rcases i2 w hw with rfl | hw
          · omega
          · exact h1 w hw
        · rcases List.mem_cons.1 hw with rfl | hw
          · exact .inr List.mem_cons_self
          · exact (i2 w hw).imp id (List.mem_cons_of_mem _)

theorem levels_roo (hD : Fit D) : RightOrOverflow (levels D) (fun ls => ls.Pairwise (· < ·) ∧ ∀ t ∈ ls, InI64 t) := by
  refine (AllDifferent.mapAll_roo (P := fun _ t => InI64 t) _ fun p hp => ?_).bind fun ds hds => .pure ?_
  · obtain ⟨i, j, _, h1, h2⟩ := mem_pairs_iff.1 hp
    exact (dist_roo hD (mem_nums.1 (List.mem_of_getElem? h1)) (mem_nums.1 (List.mem_of_getElem? h2))).mono fun r hr => hr.2
  · have key : ∀ (ds s : List Int), (∀ t ∈ ds, InI64 t) → s.Pairwise (· < ·) → (∀ t ∈ s, InI64 t) → (ds.foldl (fun s x => insertSorted x s) s).Pairwise (· < ·) ∧ ∀ t ∈ ds.foldl (fun s x => insertSorted x s) s, InI64 t := by
      intro ds
      induction ds with
      | nil => exact fun s _ h1 h2 => ⟨h1, h2⟩
      | cons x ds ih =>
        intro s hd h1 h2
        obtain ⟨k1, k2⟩ := insertSorted_sorted (x := x) h1
        exact ih _ (fun t ht => hd t (List.mem_cons_of_mem _ ht)) k1 fun t ht => (k2 t ht).elim (fun e => e ▸ hd x List.mem_cons_self) (h2 t)
    refine key ds [] (fun t ht => ?_) .nil (by simp)
    obtain ⟨i, hi⟩ := List.getElem?_of_mem ht
    have hlt := (List.getElem?_eq_some_iff.1 hi).1
    exact hds.2 i _ _ (List.getElem?_eq_getElem (by omega)) hi

theorem sites_roo (hd : DomsOK root) {x : VarId} (hx : x.Valid root.length) (hn : InI64 (n : Int)) : RightOrOverflow (sites n root x) (fun l => ∀ a, a ∈ l ↔ InRange n a ∧ Poss root x a) := by
  classical
  refine (Disjunctive2D.keep_roo (P := Poss root x) _ fun a ha => inDomain_spec hd hx a ?_).mono fun l h a => ?_
  · have := mem_nums.1 ha
    simp only [InI64, i64Min, i64Max] at *
    omega
  · rw [h, List.mem_filter, mem_nums]; simp

/-- What is relied on when propagating. -/
abbrev Inv (root : Doms) (D : Matrix) (xs : List VarId) (d : Doms) : Prop := Sites D xs d ∧ ∀ a, Within d a → Within root a

theorem Inv.mono {d d' : Doms} (hs : ∀ a, Within d' a → Within d a) (h : Inv root D xs d) : Inv root D xs d' := ⟨fun a ha => h.1 a (hs a ha), fun a ha => h.2 a (hs a ha)⟩

theorem install_ok {z0 : List σ} {level : Level} (ho : R .overflow) (hd : DomsOK root) (hx : ∀ x ∈ xs, x.Valid root.length) (hz : z.Valid root.length) (hDx : ∀ row ∈ D, ∀ x ∈ row, InI64 x) (hQx : ∀ q, Q = some q → ∀ row ∈ q, ∀ x ∈ row, InI64 x) (h2 : 2 ≤ xs.length)
    (hD : Distances D) (hQ : ∀ q, Q = some q → Requirements xs.length q) :
    RightOrOverflow (install (σ := σ) (μ := μ) level xs z D Q root) (fun items => ∃ I es, es.map (·.1) = items ∧ Served root.length m R root z0 I (fun _ => False) (Means D Q xs z) (xs ++ [z]) es) := by
  have fD : Fit D := ⟨hD, hDx⟩
  have fQ : Fits xs.length Q := ⟨hQ, hQx⟩
  unfold install
  rw [if_neg (by omega)]
  refine (badDistances_roo D).bind fun b hb => ?_
  have eb : b = false := by cases b with | false => rfl | true => exact absurd hD (hb.1 rfl)
  subst eb
  rw [if_neg (by decide)]
  refine (badRequirements_roo xs.length Q).bind fun c hc => ?_
  have ec : c = false := by cases c with | false => rfl | true => obtain ⟨q, e, h⟩ := hc.1 rfl; exact absurd (hQ q e) h
  subst ec
  rw [if_neg (by decide)]
  by_cases hn : InI64 (D.length : Int)
  rotate_left
  · have e : ofSize D.length = .error .overflow := by rw [ofSize, if_neg hn]
    cases xs with
    | nil => exact absurd h2 (by decide)
    | cons v vs =>
      unfold defineRange
      rw [e]
      simp only [bind_assoc]
      refine (lower_inits (m := m) (C := fun _ => False) ho hd (hx v List.mem_cons_self) (by decide) fun _ _ h => h.elim).bind fun _ _ => .inl rfl
  refine (range_inits (m := m) (C := Means D Q xs z) ho hd (by decide) xs hx fun a _ hc v hv => ?_).bind fun is his => ?_
  · have := hc.sites _ (List.mem_map.2 ⟨v, hv, rfl⟩)
    exact ⟨this.1, by omega⟩
  refine (AllDifferent.mapAll_roo (P := fun x l => ∀ a, a ∈ l ↔ InRange D.length a ∧ Poss root x a) xs fun x h => sites_roo hd (hx x h) hn).bind fun ss hss => ?_
  refine (bounds_roo hd hz).bind fun _ _ => (levels_roo fD).bind fun ls hls => .pure ?_
  have start : ∀ d, DomsOK d → d.length = root.length → (∀ a, Within d a → Within root a ∧ ∀ v ∈ xs, 0 ≤ v.eval a ∧ v.eval a < 0 + (D.length : Int)) → Inv root D xs d := fun d _ _ hq =>
    ⟨fun a ha x hx => ⟨((hq a ha).2 x hx).1, by have := ((hq a ha).2 x hx).2; omega⟩, fun a ha => (hq a ha).1⟩
  have inc : ∀ x ∈ xs, x ∈ xs ++ [z] := fun x hx => List.mem_append_left _ hx
  have sites : ∀ a, Means D Q xs z a → ∀ v ∈ xs, 0 ≤ v.eval a ∧ v.eval a < 0 + (D.length : Int) := fun a hc v hv => by
    have := hc.sites _ (List.mem_map.2 ⟨v, hv, rfl⟩)
    exact ⟨this.1, by omega⟩
  have sCheck : Serves root.length m R root (fun d _ => Inv root D xs d) (fun _ => False) (check (σ := σ) (μ := μ) D Q z xs) { onInstantiated := xs } (Means D Q xs z) (Means D Q xs z) xs :=
    Inverse.serves_of_ver (wakes_mem fun x hx => .inr (.inr hx)) rfl (fun _ _ => Inv.mono) fun d h1 h3 h4 => ver_mono (fun _ _ h => h.when) _ _ (ver_check ho fD fQ hz hx h2 h1 h3 h4.1)
  have sFwd : ∀ support, Serves root.length m R root (fun d _ => Inv root D xs d) (fun _ => False) (forward (σ := σ) (μ := μ) D Q z support xs) { onChange := xs, onBounds := [z] } (Means D Q xs z) (Means D Q xs z) xs := fun support =>
    Inverse.serves_of_ver (wakes_mem fun x hx => .inl hx) rfl (fun _ _ => Inv.mono) fun d h1 h3 h4 => ver_mono (fun _ _ h => h.when) _ _ (ver_forward ho fD fQ hz hx h2 h1 h3 h4.1)
  have sMatch : Serves root.length m R root (fun d _ => Inv root D xs d) (fun _ => False) (bound (σ := σ) (μ := μ) D z xs ls (countAt ss)) { onChange := xs, onBounds := [z] } (Means D Q xs z) (fun _ => True) [] :=
    Inverse.serves_of_ver (wakes_mem fun x hx => (nomatch hx)) rfl (fun _ _ => Inv.mono) fun d h1 h3 h4 => ver_mono (fun _ _ h => ⟨fun _ _ _ _ => trivial, fun _ _ _ _ _ _ => trivial, fun _ _ _ _ => trivial⟩) _ _
      (ver_bound ho fD hz hx hls.1 hls.2 hss.1 (fun i x l h1 h2 => hss.2 i x l h1 h2) h1 h3 h4.1 h4.2)
  have one : ∀ f t, Serves root.length m R root (fun d _ => Inv root D xs d) (fun _ => False) f t (Means D Q xs z) (Means D Q xs z) xs →
      ∃ I es, es.map (·.1) = is ++ [Item.prop f t] ∧ Served (σ := σ) (μ := μ) root.length m R root z0 I (fun _ => False) (Means D Q xs z) (xs ++ [z]) es := fun f t h =>
    his.served h inc (fun a _ => ⟨fun h => ⟨sites a h, h⟩, fun h => h.2⟩) (fun _ _ => Inv.mono) start
  have two : ∀ f t, Serves root.length m R root (fun d _ => Inv root D xs d) (fun _ => False) f t (Means D Q xs z) (Means D Q xs z) xs →
      ∃ I es, es.map (·.1) = is ++ [Item.prop f t, .prop (bound D z xs ls (countAt ss)) { onChange := xs, onBounds := [z] }] ∧ Served (σ := σ) (μ := μ) root.length m R root z0 I (fun _ => False) (Means D Q xs z) (xs ++ [z]) es := fun f t h => by
    refine his.servedAll (ps := [(.prop f t, Means D Q xs z), (.prop (bound D z xs ls (countAt ss)) { onChange := xs, onBounds := [z] }, fun _ => True)]) (fun p hp => ?_) (fun a _ => ⟨fun h => ⟨sites a h, by simp [h]⟩, fun h => h.2 _ List.mem_cons_self⟩) (fun _ _ => Inv.mono) start
    rcases List.mem_cons.1 hp with rfl | hp
    · exact ⟨f, t, xs, rfl, inc, h⟩
    · rw [List.mem_singleton.1 hp]
      exact ⟨_, _, [], rfl, (by simp), sMatch⟩
  cases level with
  | checkOnly => exact one _ _ sCheck
  | forwardBound => exact one _ _ (sFwd false)
  | pairSupport => exact one _ _ (sFwd true)
  | forwardBoundMatch => exact two _ _ (sFwd false)
  | pairSupportMatch => exact two _ _ (sFwd true)

end
end MinDistance
end Gcs
