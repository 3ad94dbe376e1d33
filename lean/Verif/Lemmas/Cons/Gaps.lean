import Verif.Lemmas.Cons.Quiet
import Verif.Model.Cons.Arithmetic

/-!
# Differences of sets, and sets put together from intervals
-/

namespace Gcs
open IntervalSet

theorem inI64_max {x y : Int} (hx : InI64 x) (hy : InI64 y) : InI64 (max x y) := by unfold InI64 at *; omega
theorem inI64_min {x y : Int} (hx : InI64 x) (hy : InI64 y) : InI64 (min x y) := by unfold InI64 at *; omega

theorem minusInner_complete (iu : Int) : ∀ (js : IntervalSet) (cur : Int), InRange js → (minusInner iu cur js).err = none →
    ∀ x, cur ≤ x → x ≤ iu → ¬ Mem x js → x < (minusInner iu cur js).cur → ∃ p ∈ (minusInner iu cur js).out, p.1 ≤ x ∧ x ≤ p.2
  | [], cur, _, _, x, h1, _, _, h4 => by simp [minusInner] at h4; omega
  | (a, b) :: js, cur, hr, he, x, h1, h2, h3, h4 => by
    simp only [inRange_cons] at hr
    have hx : x < a ∨ b < x := by
      by_cases h : a ≤ x ∧ x ≤ b
      · exact absurd ((mem_cons ..).2 (.inl h)) h3
      · omega
    have hx' : ¬ Mem x js := fun h => h3 ((mem_cons ..).2 (.inr h))
    unfold minusInner at he h4 ⊢
    by_cases ha : a ≤ iu
    · rw [if_pos ha] at he h4 ⊢
      have hout : ∀ out, (if a > cur then do return [(cur, ← iSub a 1)] else Except.ok [] : Chk (List (Int × Int))) = .ok out → x < a → ∃ p ∈ out, p.1 ≤ x ∧ x ≤ p.2 := by
        intro out ho hxa
        rw [if_pos (show a > cur by omega)] at ho
        cases e : iSub a 1 with
        | error _ => rw [e] at ho; cases ho
        | ok y =>
          rw [e] at ho; cases ho
          have := ((sub_roo hr.1.1 (by decide)).value e).1
          exact ⟨_, List.mem_singleton_self _, h1, by show x ≤ y; omega⟩
      revert hout
      generalize (if a > cur then do return [(cur, ← iSub a 1)] else Except.ok [] : Chk (List (Int × Int))) = y at he h4 ⊢
      intro hout
      cases y with
      | error e => cases he
      | ok out =>
        dsimp only at he h4 ⊢
        cases e : iAdd b 1 with
        | error e' => rw [e] at he; cases he
        | ok c =>
          have hc := ((add_roo hr.1.2 (by decide)).value e).1
          rw [e] at he h4
          dsimp only at he h4 ⊢
          by_cases hcu : c > iu
          · rw [if_pos hcu] at he h4 ⊢
            rcases hx with hx | hx
            · exact hout out rfl hx
            · omega
          · rw [if_neg hcu] at he h4 ⊢
            rcases hx with hx | hx
            · obtain ⟨p, hp, h⟩ := hout out rfl hx
              exact ⟨p, List.mem_append_left _ hp, h⟩
            · obtain ⟨p, hp, h⟩ := minusInner_complete iu js c hr.2 he x (by omega) h2 hx' h4
              exact ⟨p, List.mem_append_right _ hp, h⟩
    · rw [if_neg ha] at h4
      dsimp only at h4; omega

theorem eachIntervalMinus_complete : ∀ (s t : IntervalSet), WF s → WF t → InRange s → InRange t → (eachIntervalMinus s t).2 = none →
    ∀ x, Mem x s → ¬ Mem x t → ∃ p ∈ (eachIntervalMinus s t).1, p.1 ≤ x ∧ x ≤ p.2
  | [], t, _, _, _, _, _, x, hx, _ => by simp at hx
  | (l, u) :: r, t, hs, ht, rs, rt, he, x, hx, hx' => by
    obtain ⟨hlu, hA, hwr⟩ := wf_cons.1 hs
    simp only [inRange_cons] at rs
    obtain ⟨d1, d2, d3, d4⟩ := dropWhile_spec l t ht
    have dr : InRange (t.dropWhile (fun q => q.2 < l)) := inRange_of_mem d1 fun x hx => mem_of_inRange rt (d3 x hx)
    obtain ⟨i1, i2, i3, i4, i5, i6, i7, i8⟩ := minusInner_sound u _ l d1 dr rs.1.1 d4
    have comp := minusInner_complete u _ l dr
    unfold eachIntervalMinus at he ⊢
    simp only at he ⊢
    generalize minusInner u l (t.dropWhile (fun q => q.2 < l)) = m at *
    cases hm : m.err with
    | some e => rw [hm] at he; cases he
    | none =>
      rw [hm] at he
      dsimp only at he ⊢
      have jr : InRange m.js := fun q hq => dr q (i4 q hq)
      have nx : ¬ Mem x (t.dropWhile (fun q => q.2 < l)) := fun h => hx' (d3 x h)
      rcases (mem_cons ..).1 hx with hx | hx
      · by_cases hc : m.cur ≤ x
        · exact ⟨(m.cur, u), by rw [if_pos (by omega)]; simp, hc, hx.2⟩
        · obtain ⟨p, hp, h⟩ := comp hm x hx.1 hx.2 nx (by omega)
          exact ⟨p, by simp [hp], h⟩
      · have sub : ¬ Mem x m.js := fun ⟨q, hq, h⟩ => nx ⟨q, i4 q hq, h⟩
        obtain ⟨p, hp, h⟩ := eachIntervalMinus_complete r m.js hwr i5 rs.2 jr he x hx sub
        exact ⟨p, by simp [hp], h⟩

namespace Abs

theorem mem_insertPiece (p q : Int × Int) : ∀ ps, q ∈ insertPiece p ps ↔ q = p ∨ q ∈ ps
  | [] => by simp [insertPiece]
  | r :: ps => by
    unfold insertPiece
    split
    · simp
    · rw [List.mem_cons, mem_insertPiece p q ps, List.mem_cons]
      constructor
      · rintro (h | h | h) <;> simp [h]
      · rintro (h | h | h) <;> simp [h]

theorem mem_sortPieces (q : Int × Int) : ∀ ps, q ∈ sortPieces ps ↔ q ∈ ps
  | [] => by simp [sortPieces]
  | p :: ps => by rw [sortPieces, mem_insertPiece, mem_sortPieces q ps, List.mem_cons]

theorem insertPiece_sorted (p : Int × Int) : ∀ ps, ps.Pairwise (fun a b => a.1 ≤ b.1) → (insertPiece p ps).Pairwise (fun a b => a.1 ≤ b.1)
  | [], _ => by simp [insertPiece]
  | q :: ps, h => by
    rw [List.pairwise_cons] at h
    unfold insertPiece
    split
    · rename_i hp
      rw [List.pairwise_cons, List.pairwise_cons]
      refine ⟨fun x hx => ?_, h⟩
      rcases List.mem_cons.1 hx with rfl | hx
      · omega
      · have := h.1 x hx; omega
    · rename_i hp
      rw [List.pairwise_cons]
      refine ⟨fun x hx => ?_, insertPiece_sorted p ps h.2⟩
      rcases (mem_insertPiece p x ps).1 hx with rfl | hx
      · omega
      · exact h.1 x hx

theorem sortPieces_sorted : ∀ ps, (sortPieces ps).Pairwise (fun a b => a.1 ≤ b.1)
  | [] => .nil
  | p :: ps => insertPiece_sorted p _ (sortPieces_sorted ps)

/-- What a set made from pieces is. -/
def MadeFrom (ps : List (Int × Int)) (s : IntervalSet) : Prop := WF s ∧ InRange s ∧ ∀ x, Mem x s ↔ ∃ p ∈ ps, p.1 ≤ x ∧ x ≤ p.2

theorem mergePieces_roo : ∀ (qs : List (Int × Int)) (cur : Int × Int) (s : IntervalSet), WF s → InRange s → cur.1 ≤ cur.2 → InI64 cur.1 → InI64 cur.2 → (∀ x, Mem x s → x < cur.1) →
    (∀ q ∈ qs, q.1 ≤ q.2 ∧ InI64 q.1 ∧ InI64 q.2) → (cur :: qs).Pairwise (fun a b => a.1 ≤ b.1) →
    RightOrOverflow (mergePieces cur s qs) (fun t => WF t ∧ InRange t ∧ ∀ x, Mem x t ↔ Mem x s ∨ ∃ p ∈ cur :: qs, p.1 ≤ x ∧ x ≤ p.2)
  | [], cur, s, hw, hr, hc, h1, h2, hs, _, _ => by
    obtain ⟨t, e, ht, hm⟩ := insertAtEnd_spec cur.1 cur.2 s hw h1 hc hr hs
    refine .inr ⟨t, e, ht, inRange_of_mem ht fun x hx => ?_, fun x => by rw [hm]; simp⟩
    rcases (hm x).1 hx with h | h
    · exact mem_of_inRange hr h
    · unfold InI64 at *; omega
  | q :: qs, cur, s, hw, hr, hc, h1, h2, hs, hq, hp => by
    have hq0 := hq q (by simp)
    rw [List.pairwise_cons] at hp
    have hcq := hp.1 q (by simp)
    unfold mergePieces
    refine (add_roo h2 (by decide)).bind fun y hy => ?_
    split
    · rename_i hle
      refine (mergePieces_roo qs (cur.1, max cur.2 q.2) s hw hr (by simp only; omega) h1 (inI64_max h2 hq0.2.2) hs
        (fun r hr => hq r (List.mem_cons_of_mem _ hr)) (List.pairwise_cons.2 ⟨fun r hr => hp.1 r (List.mem_cons_of_mem _ hr), (List.pairwise_cons.1 hp.2).2⟩)).mono fun t ht => ⟨ht.1, ht.2.1, fun x => ?_⟩
      rw [ht.2.2 x]
      simp only [List.mem_cons, exists_eq_or_imp]
      constructor
      · rintro (h | h | h)
        · exact .inl h
        · right
          by_cases hx : x ≤ cur.2
          · exact .inl ⟨h.1, hx⟩
          · exact .inr (.inl ⟨by omega, by omega⟩)
        · exact .inr (.inr (.inr h))
      · rintro (h | h | h | h)
        · exact .inl h
        · exact .inr (.inl ⟨h.1, by omega⟩)
        · exact .inr (.inl ⟨by omega, by omega⟩)
        · exact .inr (.inr h)
    · rename_i hle
      obtain ⟨t, e, ht, hm⟩ := insertAtEnd_spec cur.1 cur.2 s hw h1 hc hr hs
      rw [e]
      refine (mergePieces_roo qs q t ht (inRange_of_mem ht fun x hx => ?_) hq0.1 hq0.2.1 hq0.2.2 (fun x hx => ?_) (fun r hr => hq r (List.mem_cons_of_mem _ hr)) hp.2).mono fun t' ht' =>
        ⟨ht'.1, ht'.2.1, fun x => ?_⟩
      · rcases (hm x).1 hx with h | h
        · exact mem_of_inRange hr h
        · unfold InI64 at *; omega
      · rcases (hm x).1 hx with h | h
        · have := hs x h; omega
        · omega
      · rw [ht'.2.2 x, hm x]
        simp only [List.mem_cons, exists_eq_or_imp, or_assoc]

theorem piecesToSet_roo {ps : List (Int × Int)} (h : ∀ p ∈ ps, p.1 ≤ p.2 ∧ InI64 p.1 ∧ InI64 p.2) : RightOrOverflow (piecesToSet ps) (MadeFrom ps) := by
  unfold piecesToSet
  have hm : ∀ q, q ∈ sortPieces ps ↔ q ∈ ps := fun q => mem_sortPieces q ps
  have hs := sortPieces_sorted ps
  cases e : sortPieces ps with
  | nil =>
    rw [e] at hm
    refine .inr ⟨[], rfl, by simp, by simp [InRange], fun x => ?_⟩
    simp only [← hm]; simp
  | cons q qs =>
    rw [e] at hm hs
    have hq := h q ((hm q).1 (by simp))
    refine (mergePieces_roo qs q [] (by simp) (by simp [InRange]) hq.1 hq.2.1 hq.2.2 (by simp) (fun r hr => h r ((hm r).1 (List.mem_cons_of_mem _ hr))) hs).mono fun t ht => ⟨ht.1, ht.2.1, fun x => ?_⟩
    rw [ht.2.2 x]
    simp only [hm]
    simp

section
variable {σ μ : Type} {J : Job} {d : Doms} {v : VarId} {had allowed : IntervalSet}

theorem removeGaps_ver (ho : J.R .overflow) (hd : DomsOK d) (hl : d.length = J.n) (hv : v.Valid J.n) (h1 : WF had ∧ InRange had) (h2 : WF allowed ∧ InRange allowed)
    (hs : ∀ a, Within d a → J.C a → Mem (v.eval a) had → Mem (v.eval a) allowed) :
    (removeGaps v had allowed : Prog σ μ Unit).Ver J (fun _ => False) (fun _ d' => ∀ a, Within d' a → Mem (v.eval a) had → Mem (v.eval a) allowed) d := by
  obtain ⟨k1, k2⟩ := eachIntervalMinus_sound had allowed h1.1 h2.1 h1.2 h2.2
  have k3 := eachIntervalMinus_complete had allowed h1.1 h2.1 h1.2 h2.2
  refine ver_ask (f := (bounds · v)) ho (bounds_roo hd (hl ▸ hv)) fun b hb => ?_
  generalize eachIntervalMinus had allowed = g at k1 k2 k3
  refine ver_mono (fun _ d' hq a ha hm => ?_) _ _ (ver_gen (J := J) (fun ps d' => (∀ p ∈ ps, p ∈ g.1) ∧ (∀ a, Within d' a → Within d a) ∧
    (g.2 = none → ∀ a, Within d' a → Mem (v.eval a) had → ¬ Mem (v.eval a) allowed → ∃ p ∈ ps, p.1 ≤ v.eval a ∧ v.eval a ≤ p.2)) hd hl (fun e he => k1 e he ▸ ho) ?_ ⟨fun _ h => h, fun _ h => h,
      fun hn a _ h3 h4 => k3 hn _ h3 h4⟩)
  · apply Classical.byContradiction
    intro hn
    obtain ⟨p, hp, _⟩ := hq.1.2.2 hq.2 a ha hm hn
    simp at hp
  · rintro p ps d1 hd1 hl1 ⟨i1, i2, i3⟩
    obtain ⟨p1, p2, p3⟩ := k2 p (i1 p (by simp))
    have hlo : InI64 (max p.1 b.1) := inI64_max p1 hb.1.1
    have hhi : InI64 (min p.2 b.2) := inI64_min p2 hb.2.1
    have hL := loopUp_lists hlo hhi
    generalize loopUp (max p.1 b.1) (min p.2 b.2) = w at hL
    refine ver_mono (fun _ d' hq => ⟨fun q hq => i1 q (List.mem_cons_of_mem _ hq), hq.1.2.1, fun hn a ha hm hm' => ?_⟩) _ _ (ver_gen (J := J) (fun vs d' => (∀ x ∈ vs, x ∈ w.1) ∧ (∀ a, Within d' a → Within d a) ∧
      (w.2 = none → g.2 = none → ∀ a, Within d' a → Mem (v.eval a) had → ¬ Mem (v.eval a) allowed → (∃ p ∈ ps, p.1 ≤ v.eval a ∧ v.eval a ≤ p.2) ∨ v.eval a ∈ vs)) hd1 hl1 (fun e he => hL.2.2 e he ▸ ho) ?_
      ⟨fun _ h => h, i2, fun hw hn a ha hm hm' => ?_⟩)
    · rcases hq.1.2.2 hq.2 hn a ha hm hm' with h | h
      · exact h
      · simp at h
    · rintro x xs d2 hd2 hl2 ⟨j1, j2, j3⟩
      have hx := hL.1 x (j1 x (by simp))
      refine ver_ask (f := (inDomain · v x)) ho (inDomain_spec hd2 (hl2 ▸ hv) x hx.1) fun t ht => ?_
      have gone : ∀ d3, (∀ a, Within d3 a → Within d2 a ∧ v.eval a ≠ x) → (∀ y ∈ xs, y ∈ w.1) ∧ (∀ a, Within d3 a → Within d a) ∧
          (w.2 = none → g.2 = none → ∀ a, Within d3 a → Mem (v.eval a) had → ¬ Mem (v.eval a) allowed → (∃ p ∈ ps, p.1 ≤ v.eval a ∧ v.eval a ≤ p.2) ∨ v.eval a ∈ xs) :=
        fun d3 h3 => ⟨fun y hy => j1 y (List.mem_cons_of_mem _ hy), fun a ha => j2 a (h3 a ha).1, fun e1 e2 a ha hm hm' => by
          rcases j3 e1 e2 a (h3 a ha).1 hm hm' with h | h
          · exact .inl h
          · rcases List.mem_cons.1 h with h | h
            · exact absurd h (h3 a ha).2
            · exact .inr h⟩
      cases t with
      | true =>
        refine ver_tell_last (.ne hv hx.1) (fun a ha hC => ?_) fun d3 _ _ w3 => gone d3 fun a ha => (w3 a).1 ha
        intro e
        replace e : v.eval a = x := e
        have := p3 x (by omega) (by omega)
        exact this.2 (e ▸ hs a (j2 a ha) hC (e ▸ this.1))
      | false => exact gone d2 fun a ha => ⟨ha, fun e => by simpa using ht.2 ⟨a, ha, e⟩⟩
    · obtain ⟨q, hq, h⟩ := i3 hn a ha hm hm'
      rcases List.mem_cons.1 hq with rfl | hq
      · have hw' := i2 a ha
        have := hb.1.2.le hw'
        have := hb.2.2.ge hw'
        exact .inr (hL.2.1 hw _ ⟨by omega, by omega⟩)
      · exact .inl ⟨q, hq, h⟩

end
end Abs
end Gcs
