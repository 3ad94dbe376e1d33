import Verif.Lemmas.Cons.BinPacking

namespace Gcs.BinPacking
open IntervalSet

/-- Every layer has what can be got to from the one before it. -/
def Closed : List Int → List (List Int) → List ((Bool × Bool) × Int) → Prop
  | _, [], [] => True
  | ws, next :: ls, (f, s) :: ps => (∀ w ∈ ws, (f.2 = true → w ∈ next) ∧ (f.1 = true → w + s ∈ next)) ∧ Closed next ls ps
  | _, _, _ => False

/-- Whatever the flags of the first allow, those of the second do. -/
def Fewer (f g : Bool × Bool) : Prop := (f.1 = true → g.1 = true) ∧ (f.2 = true → g.2 = true)

theorem rawAdd_ok {a b : Int} (h : InI64 (a + b)) : rawAdd i64Max a b = .ok (a + b) := by
  unfold rawAdd rawOut
  have : i64Min = -i64Max - 1 := by decide
  exact if_pos ⟨by have := h.1; omega, h.2⟩

theorem rawAdd_ub {a b : Int} (h : i64Max < a + b) : rawAdd i64Max a b = .error .ub := by
  unfold rawAdd rawOut
  exact if_neg fun hh => by omega

theorem mem_insertSorted {x y : Int} : ∀ {l : List Int}, y ∈ MinDistance.insertSorted x l ↔ y = x ∨ y ∈ l
  | [] => by simp [MinDistance.insertSorted]
  | z :: l => by
    rw [MinDistance.insertSorted]
    split
    · simp
    · split
      · rename_i e; subst e; simp
      · rw [List.mem_cons, mem_insertSorted, List.mem_cons]
        constructor
        · rintro (h | h | h)
          · exact .inr (.inl h)
          · exact .inl h
          · exact .inr (.inr h)
        · rintro (h | h | h)
          · exact .inr (.inl h)
          · exact .inl h
          · exact .inr (.inr h)

theorem layer_ok {cap : Int} {f : Bool × Bool} {s : Int} (hcap : InI64 cap) (hs : 0 ≤ s) : ∀ (ws acc : List Int), (∀ w ∈ ws, 0 ≤ w ∧ w + s ≤ cap) → ∃ r, layer cap f s ws acc = .ok r ∧
    ∀ v, v ∈ r ↔ v ∈ acc ∨ ∃ w ∈ ws, (f.2 = true ∧ v = w) ∨ (f.1 = true ∧ v = w + s)
  | [], acc, _ => ⟨acc, rfl, fun v => by simp⟩
  | w :: ws, acc, h => by
    have h' : ∀ w ∈ ws, 0 ≤ w ∧ w + s ≤ cap := fun w' hw => h w' (List.mem_cons_of_mem _ hw)
    have hw := h w List.mem_cons_self
    have hi : InI64 (w + s) := ⟨by have := hcap.1; have : i64Min ≤ 0 := by decide
                                   omega, Int.le_trans hw.2 hcap.2⟩
    have hm : ∀ v, (v ∈ if f.2 = true then MinDistance.insertSorted w acc else acc) ↔ v ∈ acc ∨ (f.2 = true ∧ v = w) := fun v => by
      split
      · rename_i e; rw [mem_insertSorted]; simp [e, or_comm]
      · rename_i e; simp [e]
    unfold layer
    by_cases e : f.1 = true
    · simp only [e, if_true]
      obtain ⟨r, hr, hr'⟩ := layer_ok (f := f) hcap hs ws (MinDistance.insertSorted (w + s) (if f.2 = true then MinDistance.insertSorted w acc else acc)) h'
      refine ⟨r, ?_, fun v => ?_⟩
      · rw [rawAdd_ok hi, Knapsack.chk_ok_bind, if_pos hw.2]
        exact hr
      · rw [hr', mem_insertSorted, hm]
        simp only [List.mem_cons, exists_eq_or_imp, e, true_and]
        constructor
        · rintro ((h | h | h) | h)
          · exact .inr (.inl (.inr h))
          · exact .inl h
          · exact .inr (.inl (.inl h))
          · exact .inr (.inr h)
        · rintro (h | (h | h) | h)
          · exact .inl (.inr (.inl h))
          · exact .inl (.inr (.inr h))
          · exact .inl (.inl h)
          · exact .inr h
    · simp only [if_neg e]
      obtain ⟨r, hr, hr'⟩ := layer_ok (f := f) hcap hs ws (if f.2 = true then MinDistance.insertSorted w acc else acc) h'
      refine ⟨r, hr, fun v => ?_⟩
      rw [hr', hm]
      simp only [List.mem_cons, exists_eq_or_imp, e, false_and, or_false]
      simp [or_assoc]

/-- The sum of sizes. -/
def sizesOf (ps : List ((Bool × Bool) × Int)) : Int := (ps.map (·.2)).sum

theorem sizesOf_nonneg {ps : List ((Bool × Bool) × Int)} (h : ∀ p ∈ ps, 0 ≤ p.2) : 0 ≤ sizesOf ps := by
  induction ps with
  | nil => exact Int.le_refl _
  | cons p ps ih =>
    have := ih fun q hq => h q (List.mem_cons_of_mem _ hq)
    have := h p List.mem_cons_self
    unfold sizesOf at *
    rw [List.map_cons, List.sum_cons]; omega

theorem mapAll_raw {s cap : Int} (hcap : InI64 cap) (hs : 0 ≤ s) : ∀ (ws : List Int), (∀ w ∈ ws, 0 ≤ w ∧ w + s ≤ cap) → ∃ r, AllDifferent.mapAll (rawAdd i64Max · s) ws = .ok r
  | [], _ => ⟨_, rfl⟩
  | w :: ws, h => by
    obtain ⟨r, hr⟩ := mapAll_raw hcap hs ws fun w' hw => h w' (List.mem_cons_of_mem _ hw)
    have hw := h w List.mem_cons_self
    have hi : InI64 (w + s) := ⟨by have : i64Min ≤ 0 := by decide
                                   omega, Int.le_trans hw.2 hcap.2⟩
    refine ⟨(w + s) :: r, ?_⟩
    unfold AllDifferent.mapAll
    rw [rawAdd_ok hi, Knapsack.chk_ok_bind, hr]; rfl

/-- Nothing goes wrong when a graph is made of nodes that are not more than what is left of the sum of sizes, and it has all that can be got to. -/
theorem dag_ok {cap : Int} (hcap : InI64 cap) : ∀ (ps : List ((Bool × Bool) × Int)) (ws : List Int), (∀ p ∈ ps, 0 ≤ p.2) → (∀ w ∈ ws, 0 ≤ w ∧ w + sizesOf ps ≤ cap) →
    ∃ ls, dag cap ps ws = .ok (ws :: ls) ∧ Closed ws ls ps ∧ ∀ l ∈ ls, ∀ w ∈ l, InI64 w
  | [], ws, _, _ => ⟨[], rfl, trivial, fun _ h => (nomatch h)⟩
  | (f, s) :: ps, ws, hp, hw => by
    have hs : 0 ≤ s := hp (f, s) List.mem_cons_self
    have hp' : ∀ p ∈ ps, 0 ≤ p.2 := fun q hq => hp q (List.mem_cons_of_mem _ hq)
    have h0 := sizesOf_nonneg hp'
    have e : sizesOf ((f, s) :: ps) = s + sizesOf ps := by simp [sizesOf]
    rw [e] at hw
    have hw1 : ∀ w ∈ ws, 0 ≤ w ∧ w + s ≤ cap := fun w h => by have := hw w h; omega
    obtain ⟨next, hn, hn'⟩ := layer_ok (f := f) hcap hs ws [] hw1
    obtain ⟨r, hr⟩ := mapAll_raw hcap hs ws hw1
    have hnext : ∀ w ∈ next, 0 ≤ w ∧ w + sizesOf ps ≤ cap := fun v hv => by
      rcases (hn' v).1 hv with h | ⟨w, h, h2⟩
      · cases h
      · have := hw w h
        rcases h2 with ⟨_, h2⟩ | ⟨_, h2⟩ <;> omega
    obtain ⟨ls, h1, h2, h3⟩ := dag_ok hcap ps next hp' hnext
    refine ⟨next :: ls, ?_, ⟨fun w h => ⟨fun e => (hn' w).2 (.inr ⟨w, h, .inl ⟨e, rfl⟩⟩), fun e => (hn' _).2 (.inr ⟨w, h, .inr ⟨e, rfl⟩⟩)⟩, h2⟩, fun l hl w hw => ?_⟩
    · unfold dag
      rw [hn, Knapsack.chk_ok_bind, hr, Knapsack.chk_ok_bind, h1]; rfl
    · rcases List.mem_cons.1 hl with rfl | hl
      · have := hnext w hw
        have : i64Min ≤ 0 := by decide
        exact ⟨by omega, by have := hcap.2; omega⟩
      · exact h3 l hl w hw

/-- The sum is what it should be, or there is undefined behaviour. -/
theorem total_spec : ∀ (ss : List Int) (t : Int), (∀ s ∈ ss, 0 ≤ s) → 0 ≤ t → t ≤ i64Max → (t + ss.sum ≤ i64Max ∧ total ss t = .ok (t + ss.sum)) ∨ (i64Max < t + ss.sum ∧ total ss t = .error .ub)
  | [], t, _, _, h => .inl (by simp [h, total])
  | s :: ss, t, hs, h0, h => by
    have h1 := hs s List.mem_cons_self
    have hss : ∀ s ∈ ss, 0 ≤ s := fun s' h' => hs s' (List.mem_cons_of_mem _ h')
    unfold total
    rw [List.sum_cons]
    by_cases hle : t + s ≤ i64Max
    · have : i64Min ≤ 0 := by decide
      rw [rawAdd_ok ⟨by omega, hle⟩, Knapsack.chk_ok_bind, ← Int.add_assoc]
      exact total_spec ss (t + s) hss (by omega) hle
    · right
      have : 0 ≤ ss.sum := by
        clear hs
        induction ss with
        | nil => exact Int.le_refl _
        | cons a as ih =>
          have := ih fun s' h' => hss s' (List.mem_cons_of_mem _ h')
          have := hss a List.mem_cons_self
          rw [List.sum_cons]; omega
      rw [rawAdd_ub (by omega)]
      exact ⟨by omega, rfl⟩

section
variable {d root : Doms} {b : Int} {x : VarId}

/-- What the flags of an item are. -/
structure Flagged (d : Doms) (b : Int) (x : VarId) (f : Bool × Bool) : Prop where
  inside : f.1 = true ↔ Poss d x b
  outside : f.2 = true ↔ ¬ Pinned d x b

theorem flags_roo (hd : DomsOK d) (hx : x.Valid d.length) (hb : InI64 b) : RightOrOverflow (flags d b x) (Flagged d b x) := by
  unfold flags
  refine (inDomain_spec hd hx b hb).bind fun c hc => (single_pin hd hx).bind fun v hv => .pure ⟨hc, ?_⟩
  show decide (v ≠ some b) = true ↔ _
  rw [decide_eq_true_eq, ne_eq, (hv b).1]

theorem Flagged.allows {f : Bool × Bool} (h : Flagged d b x f) {a : Asg} (ha : Within d a) : (x.eval a = b → f.1 = true) ∧ (x.eval a ≠ b → f.2 = true) :=
  ⟨fun e => h.inside.2 ⟨a, ha, e⟩, fun e => h.outside.2 fun hp => e (hp a ha)⟩

theorem Flagged.some {f : Bool × Bool} (h : Flagged d b x f) (hd : DomsOK d) : f.1 = true ∨ f.2 = true := by
  obtain ⟨a, ha⟩ := exists_within hd
  by_cases e : x.eval a = b
  · exact .inl ((h.allows ha).1 e)
  · exact .inr ((h.allows ha).2 e)

theorem Flagged.fewer {f g : Bool × Bool} (h : Flagged d b x f) (hg : Flagged root b x g) (hs : ∀ a, Within d a → Within root a) : Fewer f g :=
  ⟨fun e => let ⟨a, ha, e'⟩ := h.inside.1 e; hg.inside.2 ⟨a, hs a ha, e'⟩, fun e => hg.outside.2 fun hp => h.outside.1 e fun a ha => hp a (hs a ha)⟩

end
end Gcs.BinPacking
