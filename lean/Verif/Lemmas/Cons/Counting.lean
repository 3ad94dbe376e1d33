import Verif.Lemmas.Cons.Loops

namespace Gcs
open IntervalSet

namespace AtMostOne

section
variable {σ μ : Type} {n m : Nat} {R : Err → Prop} {root d : Doms} {vars : List VarId} {val : VarId}

/-- How many have the value of `val`. -/
abbrev AtMost (vars : List VarId) (val : VarId) (a : Asg) : Prop := vars.countP (fun x => x.eval a = val.eval a) ≤ 1

theorem fixedTo_roo (hd : DomsOK d) (v : Int) : ∀ (xs : List VarId) (k : Nat), k < 2 → (∀ x ∈ xs, x.Valid d.length) → RightOrOverflow (fixedTo d v k xs) (fun r => 2 ≤ r ↔ 2 ≤ k + cnt (Pinned d · v) xs)
  | [], k, hk, _ => .pure (by simp [cnt_nil])
  | x :: xs, k, hk, hv => by
    refine (single_pin hd (hv x (by simp))).bind fun r hr => ?_
    have hv' : ∀ y ∈ xs, y.Valid d.length := fun y hy => hv y (List.mem_cons_of_mem _ hy)
    by_cases h : r = some v
    · rw [if_pos h, cnt_pos (P := (Pinned d · v)) ((hr v).1.1 h)]
      split
      · exact .pure ⟨fun _ => by omega, fun _ => by omega⟩
      · exact (fixedTo_roo hd v xs (k + 1) (by omega) hv').mono fun r hr => by omega
    · rw [if_neg h, cnt_neg (P := (Pinned d · v)) fun hp => h ((hr v).1.2 hp)]
      exact fixedTo_roo hd v xs k hk hv'

theorem whereFixed_roo (hd : DomsOK d) (v : Int) (all : List VarId) : ∀ (xs : List VarId) (i count idx : Nat), (∀ j, xs[j]? = all[i + j]?) → count ≤ 1 → (count = 1 → ∃ x, all[idx]? = some x ∧ Pinned d x v) →
    (∀ x ∈ xs, x.Valid d.length) → RightOrOverflow (whereFixed d v i count idx xs) (fun r => r.1 = 1 → ∃ x, all[r.2]? = some x ∧ Pinned d x v)
  | [], i, count, idx, _, _, h, _ => .pure h
  | x :: xs, i, count, idx, hx, hc, h, hv => by
    refine (single_pin hd (hv x (by simp))).bind fun r hr => ?_
    have hv' : ∀ y ∈ xs, y.Valid d.length := fun y hy => hv y (List.mem_cons_of_mem _ hy)
    have hx' : ∀ j, xs[j]? = all[i + 1 + j]? := fun j => by have := hx (j + 1); rw [List.getElem?_cons_succ] at this; rw [this]; congr 1; omega
    by_cases e : r = some v
    · rw [if_pos e]
      split
      · exact .pure fun e => by dsimp only at e; omega
      · exact whereFixed_roo hd v all xs _ _ _ hx' (by omega) (fun _ => ⟨x, by have := hx 0; simpa using this.symm, (hr v).1.1 e⟩) hv'
    · rw [if_neg e]
      exact whereFixed_roo hd v all xs _ _ _ hx' hc h hv'

theorem countP_eraseIdx {α : Type} (p : α → Bool) : ∀ (xs : List α) (i : Nat) (x : α), xs[i]? = some x → p x = true → xs.countP p = (xs.eraseIdx i).countP p + 1
  | [], _, _, h, _ => by simp at h
  | y :: ys, 0, x, h, hp => by
    simp only [List.getElem?_cons_zero, Option.some.injEq] at h; subst h
    simp [hp]
  | y :: ys, i + 1, x, h, hp => by
    have := countP_eraseIdx p ys i x (by simpa using h) hp
    simp only [List.eraseIdx_cons_succ, List.countP_cons, this]
    omega

theorem prop_enforces (ho : R .overflow) (hv : ∀ v ∈ vars, v.Valid n) (hval : val.Valid n) : Enforces n m R root (AtMost vars val) (vars ++ [val]) (prop (σ := σ) (μ := μ) vars val) := by
  intro d hd hl
  subst hl
  refine ver_ask (f := (eachValue · val)) ho (listed_roo hd hval) fun g hg => ?_
  refine ver_seq (S := fun _ => False) hd rfl (fun _ h => h)
    (ver_gen (J := { n := d.length, m, R, C := fun a => Within root a ∧ AtMost vars val a })
      (fun xs d' => (∀ x ∈ xs, InI64 x) ∧ (∀ a, Within d' a → Within d a) ∧ ∀ a, Within d' a → (∀ x ∈ vars, Known d x) → val.eval a ∈ xs ∨ AtMost vars val a ∨ g.2 ≠ none)
      hd rfl (fun e h => hg.2.2 e h ▸ ho) ?_ ⟨fun x hx => (hg.1 x hx).1, fun _ h => h, fun a ha _ => ?_⟩) ?_
  · rintro v xs d1 hd1 hl1 ⟨hI, hsub, hinv⟩
    refine ver_ask (f := (fixedTo · v 0 vars)) ho (fixedTo_roo hd1 v vars 0 (by omega) fun x hx => hl1 ▸ hv x hx) fun k hk => ?_
    rw [Nat.zero_add] at hk
    have count : ∀ a, Within d1 a → val.eval a = v → cnt (Pinned d1 · v) vars ≤ vars.countP (fun x => x.eval a = val.eval a) := by
      intro a ha e
      rw [countP_cnt (P := fun x => x.eval a = v) _ _ fun x _ => by simp [e]]
      exact cnt_le vars fun x _ hp => hp a ha
    have hI' : ∀ x ∈ xs, InI64 x := fun x hx => hI x (List.mem_cons_of_mem _ hx)
    split
    · rename_i h2
      refine ver_tell_last (.ne hval (hI v (by simp))) (fun a ha hC => ?_) fun d2 _ _ h3 => ⟨hI', fun a ha => hsub a ((h3 a).1 ha).1, fun a ha hk => ?_⟩
      · rw [Lit.holds_ne]; intro e
        have := count a ha e; have := hC.2; have := hk.1 h2; omega
      · obtain ⟨k1, k2⟩ := (h3 a).1 ha
        rcases hinv a k1 hk with h | h
        · exact .inl ((List.mem_cons.1 h).resolve_left k2)
        · exact .inr h
    · rename_i h2
      refine ⟨hI', hsub, fun a ha hkn => ?_⟩
      rcases hinv a ha hkn with h | h
      · rcases List.mem_cons.1 h with h | h
        · refine .inr (.inl ?_)
          rw [AtMost, countP_cnt (P := (Pinned d1 · v)) _ _ fun x hx => ?_]
          · omega
          · simp only [decide_eq_true_eq, h]
            exact ⟨fun e => e ▸ ((hkn x hx).sub hsub).pinned ha, fun e => e a ha⟩
        · exact .inl h
      · exact .inr h
  · cases e : g.2 with
    | none => exact .inl (hg.2.1 e _ (ha.poss val))
    | some _ => exact .inr (.inr (by simp))
  · rintro _ d1 hd1 hl1 _ ⟨⟨_, hsub, hinv⟩, hnone⟩
    have fin : ∀ d2, (∀ a, Within d2 a → Within d1 a) →
        Enforced (fun a => Within root a → AtMost vars val a) ((vars ++ [val]).filterMap VarId.underlyingIndex) d .enable d2 := by
      refine fun d2 h2 => .intro (fun hk a ha _ => ?_) (fun h => nomatch h) fun h => nomatch h
      rcases hinv a (h2 a ha) fun x hx => hk x (by simp [hx]) with h | h | h
      · simp at h
      · exact h
      · exact absurd hnone h
    refine ver_ask (f := (optionalSingleValue · val)) ho (single_pin hd1 (hl1 ▸ hval)) fun r hr => ?_
    cases r with
    | none => exact fin d1 fun _ h => h
    | some v =>
      have hp := (hr v).1.1 rfl
      refine ver_ask (f := (whereFixed · v 0 0 0 vars)) ho (whereFixed_roo hd1 v vars vars 0 0 0 (by simp) (by omega) (by simp) fun x hx => hl1 ▸ hv x hx) fun r hw => ?_
      split
      · rename_i e
        obtain ⟨x, h1, h2⟩ := hw e
        refine ver_seq (S := fun _ => False) hd1 hl1 (fun _ h => h) (ver_tells hd1 hl1 (vars.eraseIdx r.2) (fun y hy => .ne (hv y (List.mem_of_mem_eraseIdx hy)) ((hr v).2 rfl)) fun y hy a ha hC => ?_)
          fun _ d2 _ _ k3 _ => fin d2 k3
        rw [Lit.holds_ne]; intro e
        have h3 := countP_eraseIdx (fun x => decide (x.eval a = val.eval a)) vars r.2 x h1 (by simp [h2 a ha, hp a ha])
        have h4 : 0 < (vars.eraseIdx r.2).countP (fun x => decide (x.eval a = val.eval a)) := List.countP_pos_iff.2 ⟨y, hy, by simp [e, hp a ha]⟩
        have := hC.2
        rw [AtMost, h3] at this
        omega
      · exact fin d1 fun _ h => h

theorem install_right (ho : R .overflow) (hv : ∀ v ∈ vars, v.Valid n) (hval : val.Valid n) :
    (Posted.mk (install (σ := σ) (μ := μ) vars val) (AtMost vars val) (vars ++ [val])).Right n m R root (fun _ => False) := by
  by_cases h : vars.length ≥ 2
  · exact right_one (by rw [install, if_pos h]) (prop_enforces ho hv hval) (wakes_mem fun x hx => .inl hx) rfl
  · refine ⟨fun items e => ?_, fun e he => ?_⟩
    · replace e : install vars val root = _ := e
      rw [install, if_neg h] at e; cases e
      exact Posts.nil fun a _ => Nat.le_trans List.countP_le_length (by omega)
    · replace he : install vars val root = _ := he
      rw [install, if_neg h] at he; cases he

end
end AtMostOne

namespace Count

section
variable {σ μ : Type} {n m : Nat} {R : Err → Prop} {root d : Doms} {vars : List VarId} {val many : VarId}

/-- The count is right. -/
abbrev Counted (vars : List VarId) (val many : VarId) (a : Asg) : Prop := many.eval a = vars.countP (fun x => x.eval a = val.eval a)

theorem mustMight_roo (hd : DomsOK d) {v : Int} (hI : InI64 v) : ∀ (xs : List VarId) (p q : Int), InI64 p → InI64 q → (∀ x ∈ xs, x.Valid d.length) →
    RightOrOverflow (mustMight d v p q xs) (fun r => (r.1 = p + cnt (Pinned d · v) xs ∧ InI64 r.1) ∧ r.2 = q + cnt (Poss d · v) xs ∧ InI64 r.2)
  | [], p, q, hp, hq, _ => .pure ⟨⟨by simp [cnt_nil], hp⟩, by simp [cnt_nil], hq⟩
  | x :: xs, p, q, hp, hq, hv => by
    have hv' : ∀ y ∈ xs, y.Valid d.length := fun y hy => hv y (List.mem_cons_of_mem _ hy)
    refine (single_pin hd (hv x (by simp))).bind fun r hr => ?_
    cases r with
    | some y =>
      have hy := (hr y).1.1 rfl
      dsimp only
      split
      · rename_i e; subst e
        refine (inc_roo hp).bind fun p' hp' => (inc_roo hq).bind fun q' hq' => (mustMight_roo hd hI xs p' q' hp'.2 hq'.2 hv').mono fun r hr => ?_
        obtain ⟨b, hb⟩ := exists_within hd
        rw [cnt_pos (P := (Pinned d · y)) hy, cnt_pos (P := (Poss d · y)) ⟨b, hb, hy b hb⟩]
        have := hr.1.1; have := hr.2.1
        exact ⟨⟨by omega, hr.1.2⟩, by omega, hr.2.2⟩
      · rename_i e
        have n1 : ¬ Poss d x v := fun ⟨b, hb, k⟩ => e (by rw [← k, hy b hb])
        have n2 : ¬ Pinned d x v := fun h => by
          obtain ⟨b, hb⟩ := exists_within hd
          exact n1 ⟨b, hb, h b hb⟩
        rw [cnt_neg (P := (Pinned d · v)) n2, cnt_neg (P := (Poss d · v)) n1]
        exact mustMight_roo hd hI xs p q hp hq hv'
    | none =>
      have n2 : ¬ Pinned d x v := fun h => by have := (hr v).1.2 h; cases this
      refine (inDomain_spec hd (hv x (by simp)) v hI).bind fun b hb => ?_
      cases b with
      | true =>
        refine (inc_roo hq).bind fun q' hq' => (mustMight_roo hd hI xs p q' hp hq'.2 hv').mono fun r hr => ?_
        rw [cnt_neg (P := (Pinned d · v)) n2, cnt_pos (P := (Poss d · v)) (hb.1 rfl)]
        have := hr.2.1
        exact ⟨hr.1, by omega, hr.2.2⟩
      | false =>
        rw [cnt_neg (P := (Pinned d · v)) n2, cnt_neg (P := (Poss d · v)) fun h => by have := hb.2 h; cases this]
        exact mustMight_roo hd hI xs p q hp hq hv'

theorem count_cnt (a : Asg) {v : Int} (e : val.eval a = v) : vars.countP (fun x => x.eval a = val.eval a) = cnt (fun x => x.eval a = v) vars :=
  countP_cnt _ _ fun x _ => by simp [e]

/-- The counts that are still possible. -/
def Seen (st : Option (Int × Int)) (y : Int) : Prop := ∃ s, st = some s ∧ s.1 ≤ y ∧ y ≤ s.2

/-- What holds before each round. If the loop does not get to the end of the values (not `full`), less is known. -/
def Inv (full : Prop) (vars : List VarId) (val many : VarId) (d0 : Doms) (st : Option (Int × Int)) (xs : List Int) (d : Doms) : Prop :=
  (∀ x ∈ xs, InI64 x) ∧ (∀ s, st = some s → InI64 s.1 ∧ InI64 s.2) ∧ (∀ a, Within d a → Within d0 a) ∧ (full → ∀ a, Within d a → Counted vars val many a → val.eval a ∈ xs ∨ Seen st (many.eval a))

theorem ver_round {full : Prop} {d0 : Doms} (ho : R .overflow) (hv : ∀ v ∈ vars, v.Valid n) (hval : val.Valid n) (hm : many.Valid n) {st : Option (Int × Int)} {v : Int} {xs : List Int} (hd : DomsOK d) (hl : d.length = n)
    (h : Inv full vars val many d0 st (v :: xs) d) :
    (round (σ := σ) (μ := μ) vars val many st v).Ver { n, m, R, C := fun a => Within root a ∧ Counted vars val many a } (fun _ => False) (fun st' d' => Inv full vars val many d0 st' xs d') d := by
  subst hl
  obtain ⟨hI, hS, hsub, hinv⟩ := h
  have hIv := hI v (by simp)
  have hI' : ∀ x ∈ xs, InI64 x := fun x hx => hI x (List.mem_cons_of_mem _ hx)
  refine ver_ask (f := (mustMight · v 0 0 vars)) ho (mustMight_roo hd hIv vars 0 0 (by decide) (by decide) hv) fun r hr => ?_
  obtain ⟨⟨r1, i1⟩, r2, i2⟩ := hr
  -- the number of times `v` is taken is between the two
  have between : ∀ a, Within d a → Counted vars val many a → val.eval a = v → r.1 ≤ many.eval a ∧ many.eval a ≤ r.2 := by
    intro a ha hc e
    rw [Counted, count_cnt a e] at hc
    have h1 := cnt_le (P := (Pinned d · v)) (Q := fun x => x.eval a = v) vars fun x _ hp => hp a ha
    have h2 := cnt_le (P := fun x => x.eval a = v) (Q := (Poss d · v)) vars fun x _ hp => ⟨a, ha, hp⟩
    omega
  have drop : (∀ a, Within d a → Counted vars val many a → val.eval a ≠ v) →
      (do Prog.tell (.cond (Cond.ne val v)); return st : Prog σ μ (Option (Int × Int))).Ver { n := d.length, m, R, C := fun a => Within root a ∧ Counted vars val many a } (fun _ => False)
        (fun st' d' => Inv full vars val many d0 st' xs d') d := by
    refine fun hne => ver_tell (.ne hval hIv) (fun a ha hc => hne a ha hc.2) fun d2 _ _ h3 => ⟨hI', hS, fun a ha => hsub a ((h3 a).1 ha).1, fun hf a ha hc => ?_⟩
    obtain ⟨k1, k2⟩ := (h3 a).1 ha
    exact (hinv hf a k1 hc).imp (fun h => (List.mem_cons.1 h).resolve_left k2) id
  refine ver_ask (f := (lowerBound · many)) ho (lower_roo hd hm) fun l hll => ?_
  split
  · exact drop fun a ha hc e => by have := between a ha hc e; have := hll.2.le ha; omega
  refine ver_ask (f := (upperBound · many)) ho (upper_roo hd hm) fun u hu => ?_
  split
  · exact drop fun a ha hc e => by have := between a ha hc e; have := hu.2.ge ha; omega
  refine ver_ask (f := fun d => anyOfGen (inDomain d many ·) (loopUp r.1 r.2)) ho (anyOfGen_roo (loopUp_lists i1 i2) fun x hx _ => inDomain_spec hd hm x hx) fun b hb => ?_
  cases b with
  | false => exact drop fun a ha hc e => by have := hb.2 ⟨_, between a ha hc e, ha.poss many⟩; cases this
  | true =>
    have keep : full → ∀ a, Within d a → Counted vars val many a → val.eval a ∈ xs ∨ Seen st (many.eval a) ∨ r.1 ≤ many.eval a ∧ many.eval a ≤ r.2 := by
      intro hf a ha hc
      rcases hinv hf a ha hc with h | h
      · rcases List.mem_cons.1 h with h | h
        · exact .inr (.inr (between a ha hc h))
        · exact .inl h
      · exact .inr (.inl h)
    cases st with
    | none =>
      refine ⟨hI', fun s e => by cases e; exact ⟨i1, i2⟩, hsub, fun hf a ha hc => ?_⟩
      rcases keep hf a ha hc with h | ⟨s, h, _⟩ | h
      · exact .inl h
      · cases h
      · exact .inr ⟨r, rfl, h⟩
    | some s =>
      have hs := hS s rfl
      refine ⟨hI', fun t e => ?_, hsub, fun hf a ha hc => ?_⟩
      · cases e; dsimp only
        constructor
        · split
          · exact i1
          · exact hs.1
        · split
          · exact i2
          · exact hs.2
      · rcases keep hf a ha hc with h | ⟨s', h, h1, h2⟩ | ⟨h1, h2⟩
        · exact .inl h
        · cases h
          refine .inr ⟨_, rfl, ?_, ?_⟩ <;> dsimp only <;> split <;> omega
        · refine .inr ⟨_, rfl, ?_, ?_⟩ <;> dsimp only <;> split <;> omega

theorem prop_enforces (ho : R .overflow) (hv : ∀ v ∈ vars, v.Valid n) (hval : val.Valid n) (hm : many.Valid n) :
    Enforces n m R root (Counted vars val many) (vars ++ [val, many]) (prop (σ := σ) (μ := μ) vars val many) := by
  intro d hd hl
  subst hl
  refine ver_ask (f := fun d => howMany (domainsIntersect d val ·) vars) ho (howMany_roo vars fun x hx => domainsIntersect_spec hd hval (hv x hx)) fun k hk => ?_
  refine ver_lift (P := fun r => r = (k : Int) + 1 ∧ InI64 r) ho ((ofSize_roo k).bind fun r hr => (add_roo hr.2 (by decide)).mono fun s hs => ⟨by rw [hs.1, hr.1], hs.2⟩) fun bound hb => ?_
  refine ver_tell (.lt hm hb.2) (fun a ha hC => ?_) fun d1 hd1 hl1 h1 => ?_
  · have hc := hC.2
    rw [Counted, count_cnt a rfl] at hc
    have := cnt_le (P := fun x => x.eval a = val.eval a) (Q := fun x => ∃ y, Poss d val y ∧ Poss d x y) vars fun x _ hx => ⟨_, ha.poss val, a, ha, hx⟩
    rw [Lit.holds_lt, hb.1]; omega
  have hsub1 : ∀ a, Within d1 a → Within d a := fun a ha => ((h1 a).1 ha).1
  refine ver_ask (f := (optionalSingleValue · val)) ho (single_pin hd1 (hl1.symm ▸ hval)) fun voi hvoi => ?_
  -- the second bound
  have rest : ∀ must : Nat, (∀ a, Within d1 a → must ≤ cnt (fun x => x.eval a = val.eval a) vars) → ((∀ x ∈ vars ++ [val, many], Known d x) → ∀ a, Within d1 a → must = cnt (fun x => x.eval a = val.eval a) vars) →
      (do let must' ← Prog.lift (ofSize must)
          Prog.tell (.cond (Cond.ge many must'))
          let g ← Prog.ask (eachValue · val)
          let vs ← Prog.forEachWith (round vars val many) none g.1
          match g.2 with
          | some e => Prog.raise e
          | none =>
            match vs with
            | none => return .enable
            | some r =>
              Prog.tell (.cond (Cond.ge many r.1))
              let u ← Prog.lift (iAdd r.2 1)
              Prog.tell (.cond (Cond.lt many u))
              return .enable : Prog σ μ PState).Ver { n := d.length, m, R, C := fun a => Within root a ∧ Counted vars val many a } (fun _ => True)
        (fun ps d' => Enforced (fun a => Within root a → Counted vars val many a) ((vars ++ [val, many]).filterMap VarId.underlyingIndex) d ps d') d1 := by
    intro must hle heq
    refine ver_lift ho (ofSize_roo must) fun must' hmust => ?_
    refine ver_tell (.ge hm hmust.2) (fun a ha hC => ?_) fun d2 hd2 hl2 h2 => ?_
    · have hc := hC.2
      rw [Counted, count_cnt a rfl] at hc
      have := hle a ha
      rw [Lit.holds_ge, hmust.1]; omega
    have fin : ∀ d3, (∀ a, Within d3 a → Within d2 a) → Enforced (fun a => Within root a → Counted vars val many a) ((vars ++ [val, many]).filterMap VarId.underlyingIndex) d .enable d3 := by
      refine fun d3 h3 => .intro (fun hkn a ha _ => ?_) (fun h => nomatch h) fun h => nomatch h
      obtain ⟨k1, k2⟩ := (h2 a).1 (h3 a ha)
      obtain ⟨k3, k4⟩ := (h1 a).1 k1
      rw [Lit.holds_ge, hmust.1, heq hkn a k1] at k2
      rw [Lit.holds_lt, hb.1, hk, cnt_congr (Q := fun x => x.eval a = val.eval a) vars fun x hx => ?_] at k4
      · rw [Counted, count_cnt a rfl]; omega
      · refine ⟨fun ⟨y, hy1, hy2⟩ => ?_, fun e => ⟨_, k3.poss val, a, k3, e⟩⟩
        rw [(hkn x (by simp [hx])).poss k3 hy2, (hkn val (by simp)).poss k3 hy1]
    refine ver_ask (f := (eachValue · val)) ho (listed_roo hd2 (hl2.symm ▸ hval)) fun g hg => ?_
    refine ver_seq (S := fun _ => False) hd2 hl2 (fun _ h => h) (ver_forEachWith (J := { n := d.length, m, R, C := fun a => Within root a ∧ Counted vars val many a })
      (fun st xs d' => Inv (g.2 = none) vars val many d2 st xs d') (fun st x xs d' k1 k2 hi => ver_round ho hv hval hm k1 k2 hi) g.1 none d2 hd2 hl2
      ⟨fun x hx => (hg.1 x hx).1, fun s h => (nomatch h), fun _ h => h, fun e a ha _ => .inl (hg.2.1 e _ (ha.poss val))⟩) fun st d3 hd3 hl3 _ hi => ?_
    cases e : g.2 with
    | some e' => exact hg.2.2 e' e ▸ ho
    | none =>
      obtain ⟨-, hS, hsub3, hinv⟩ := hi
      cases st with
      | none => exact fin d3 hsub3
      | some s =>
        have seen : ∀ a, Within d3 a → Counted vars val many a → s.1 ≤ many.eval a ∧ many.eval a ≤ s.2 := by
          intro a ha hc
          rcases hinv e a ha hc with h | ⟨s', h, h'⟩
          · simp at h
          · cases h; exact h'
        refine ver_tell (.ge hm (hS s rfl).1) (fun a ha hC => (seen a ha hC.2).1) fun d4 hd4 hl4 h4 => ?_
        refine ver_lift ho (add_roo (hS s rfl).2 (by decide)) fun u hu => ?_
        refine ver_tell (.lt hm hu.2) (fun a ha hC => ?_) fun d5 hd5 hl5 h5 => fin d5 fun a ha => hsub3 a ((h4 a).1 ((h5 a).1 ha).1).1
        have := (seen a ((h4 a).1 ha).1 hC.2).2
        rw [Lit.holds_lt, hu.1]; omega
  cases voi with
  | none =>
    refine rest 0 (fun _ _ => Nat.zero_le _) fun hkn a ha => ?_
    have := (hvoi _).1.2 (((hkn val (by simp)).sub hsub1).pinned ha)
    cases this
  | some v =>
    have hp := (hvoi v).1.1 rfl
    refine ver_ask (f := fun d => howMany (fun x => do return (← optionalSingleValue d x) = some v) vars) ho (howMany_roo (P := (Pinned d1 · v)) vars fun x hx => ?_) fun must hmust => rest must (fun a ha => ?_) fun hkn a ha => ?_
    · exact (single_pin hd1 (hl1.symm ▸ hv x hx)).bind fun r hr => .pure (by simpa using (hr v).1)
    · rw [hmust]; exact cnt_le vars fun x _ h => by rw [h a ha, hp a ha]
    · rw [hmust]; exact cnt_congr vars fun x hx => ⟨fun h => by rw [h a ha, hp a ha], fun h => by rw [← hp a ha, ← h]; exact ((hkn x (by simp [hx])).sub hsub1).pinned ha⟩

theorem install_right (ho : R .overflow) (hv : ∀ v ∈ vars, v.Valid n) (hval : val.Valid n) (hm : many.Valid n) :
    (Posted.mk (install (σ := σ) (μ := μ) vars val many) (Counted vars val many) (vars ++ [val, many])).Right n m R root (fun _ => False) :=
  right_one rfl (prop_enforces ho hv hval hm) (wakes_mem fun x hx => by
    simp only [List.mem_append, List.mem_cons, List.not_mem_nil, or_false] at hx
    rcases hx with h | rfl | rfl <;> simp [*]) rfl

end
end Count
end Gcs
