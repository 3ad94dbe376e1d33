import Verif.Lemmas.Cons.MinDistance

namespace Gcs.MinDistance
open IntervalSet

section
variable {σ μ : Type} {n m : Nat} {R : Err → Prop} {root d : Doms} {D : Matrix} {Q : Option Matrix} {z x y : VarId} {xs : List VarId}

/-- Numbers `i` and `j` are as far apart as they have to be. -/
def FarAt (D : Matrix) (Q : Option Matrix) (i j : Nat) (x y : Int) : Prop := ∀ r, need Q i j = some r → r ≤ entry D x y

theorem Means.far {a : Asg} (h : Means D Q xs z a) {i j : Nat} (hij : i < j) (hi : xs[i]? = some x) (hj : xs[j]? = some y) : FarAt D Q i j (x.eval a) (y.eval a) := by
  intro r hr
  cases Q with
  | none => cases hr
  | some q => cases hr; exact h.apart q rfl i j _ _ hij (at_get.2 ⟨x, hi, rfl⟩) (at_get.2 ⟨y, hj, rfl⟩)

theorem Means.le {a : Asg} (h : Means D Q xs z a) {i j : Nat} (hij : i < j) (hi : xs[i]? = some x) (hj : xs[j]? = some y) : z.eval a ≤ entry D (x.eval a) (y.eval a) :=
  h.least i j _ _ hij (at_get.2 ⟨x, hi, rfl⟩) (at_get.2 ⟨y, hj, rfl⟩)

theorem means_of {a : Asg} (hs : ∀ x ∈ xs, InRange D.length (x.eval a)) (ht : Tight D (at_ xs a) (z.eval a)) (hf : ∀ (i j : Nat) x y, i < j → xs[i]? = some x → xs[j]? = some y → FarAt D Q i j (x.eval a) (y.eval a)) : Means D Q xs z a where
  sites v hv := by obtain ⟨x, hx, rfl⟩ := List.mem_map.1 hv; exact hs x hx
  least := ht.1
  attained := ht.2
  apart q hq i j u v hij hi hj := by
    subst hq
    obtain ⟨x, hx, rfl⟩ := at_get.1 hi
    obtain ⟨y, hy, rfl⟩ := at_get.1 hj
    exact hf i j x y hij hx hy _ rfl

theorem ver_checkPair (ho : R .overflow) (hD : Fit D) (hQ : Fits xs.length Q) (hz : z.Valid n) {d0 : Doms} {vals : List (Option Int)} (hr : Read d0 xs vals) (hs0 : Sites D xs d0) (hd : DomsOK d) (hl : d.length = n) (hs : ∀ a, Within d a → Within d0 a)
    {p : (Option Int × Nat) × (Option Int × Nat)} (hp : p ∈ Disjunctive2D.pairs vals.zipIdx) :
    (checkPair (σ := σ) (μ := μ) D Q z p).Ver (job n m R root D Q xs z) (fun _ => False)
      (fun _ d' => (∀ a, Within d' a → Within d a) ∧ ∀ a, Within d' a → ∀ u v, p.1.1 = some u → p.2.1 = some v → FarAt D Q p.1.2 p.2.2 u v) d := by
  obtain ⟨⟨u, i⟩, v, j⟩ := p
  obtain ⟨hij, hi, hj⟩ := mem_pairs_zipIdx.1 hp
  replace hij : i < j := hij
  replace hi : vals[i]? = some u := hi
  replace hj : vals[j]? = some v := hj
  have li := (List.getElem?_eq_some_iff.1 hi).1
  have lj := (List.getElem?_eq_some_iff.1 hj).1
  have hlen := hr.1
  have hi' : xs[i]? = some xs[i] := List.getElem?_eq_getElem (by omega)
  have hj' : xs[j]? = some xs[j] := List.getElem?_eq_getElem (by omega)
  obtain ⟨a0, ha0⟩ := exists_within hd
  cases u with
  | none => exact ⟨fun _ h => h, fun _ _ _ _ h => (nomatch h)⟩
  | some u =>
    cases v with
    | none => exact ⟨fun _ h => h, fun _ _ _ _ _ h => (nomatch h)⟩
    | some v =>
      have pi := (hr.2 i _ _ hi' hi u).1.1 rfl
      have pj := (hr.2 j _ _ hj' hj v).1.1 rfl
      have ru : InRange D.length u := by rw [← pi a0 (hs a0 ha0)]; exact hs0 a0 (hs a0 ha0) _ (List.getElem_mem _)
      have rv : InRange D.length v := by rw [← pj a0 (hs a0 ha0)]; exact hs0 a0 (hs a0 ha0) _ (List.getElem_mem _)
      refine ver_onlyIf (fun _ => ?_) fun hn => absurd ⟨ru, rv⟩ hn
      refine ver_lift (x := dist D u v) ho (dist_roo hD ru rv) fun x hx => ?_
      obtain ⟨rfl, hx⟩ := hx
      refine ver_lift (x := required Q i j) ho (required_roo hQ (by omega) (by omega)) fun r hr' => ?_
      obtain ⟨rfl, hr'⟩ := hr'
      split
      · rename_i hlt
        intro a ha hC
        have := hC.2.far hij hi' hj'
        rw [pi a (hs a ha), pj a (hs a ha)] at this
        cases e : need Q i j with
        | none => rw [e] at hlt; exact Int.lt_irrefl _ hlt
        | some r => rw [e] at hlt; have := this r e; replace hlt : entry D u v < r := hlt; omega
      · rename_i hlt
        refine ver_lift (x := iAdd (entry D u v) 1) ho (add_roo hx (by decide)) fun k hk => ?_
        obtain ⟨rfl, hk⟩ := hk
        refine ver_tell_last (.lt hz hk) (fun a ha hC => ?_) fun d' _ _ h => ⟨fun a ha => ((h a).1 ha).1, fun a ha u' v' e1 e2 => ?_⟩
        · have := hC.2.le hij hi' hj'
          rw [pi a (hs a ha), pj a (hs a ha)] at this
          exact Int.lt_add_one_of_le this
        · cases e1; cases e2
          intro r e
          rw [e] at hlt
          exact Int.not_lt.1 hlt

/-- The propagation function that only checks. -/
theorem ver_check (ho : R .overflow) (hD : Fit D) (hQ : Fits xs.length Q) (hz : z.Valid n) (hx : ∀ x ∈ xs, x.Valid n) (h2 : 2 ≤ xs.length) (hd : DomsOK d) (hl : d.length = n) (hs : Sites D xs d) :
    (check (σ := σ) (μ := μ) D Q z xs).Ver (job n m R root D Q xs z) (fun _ => True) (Enforced (fun a => Within root a → Means D Q xs z a) (xs.filterMap VarId.underlyingIndex) d) d := by
  refine ver_ask (f := (values · xs)) ho (values_roo hd (hl ▸ hx)) fun vals hr => ?_
  refine ver_seq (S := fun _ => False) hd hl (fun _ h => h) (ver_forEach (J := job n m R root D Q xs z) (fun ps d' => (∀ p ∈ ps, p ∈ Disjunctive2D.pairs vals.zipIdx) ∧ (∀ a, Within d' a → Within d a) ∧
    ∀ p ∈ Disjunctive2D.pairs vals.zipIdx, p ∈ ps ∨ ∀ a, Within d' a → ∀ u v, p.1.1 = some u → p.2.1 = some v → FarAt D Q p.1.2 p.2.2 u v) ?_ _ d hd hl ⟨fun _ h => h, fun _ h => h, fun _ h => .inl h⟩) fun _ d1 hd1 hl1 hs1 h1 => ?_
  · rintro p ps d' hd' hl' ⟨h1, h2, h3⟩
    refine ver_mono (fun _ d'' h => ⟨fun q hq => h1 q (List.mem_cons_of_mem _ hq), fun a ha => h2 a (h.1 a ha), fun q hq => ?_⟩) _ _ (ver_checkPair ho hD hQ hz hr hs hd' hl' h2 (h1 p List.mem_cons_self))
    rcases h3 q hq with h' | h'
    · rcases List.mem_cons.1 h' with rfl | h'
      · exact .inr h.2
      · exact .inl h'
    · exact .inr fun a ha => h' a (h.1 a ha)
  · refine ver_seq (S := fun _ => False) hd1 hl1 (fun _ h => h) (ver_pin ho hD hz h2 hr hs hd1 hl1 hs1) fun _ d2 hd2 hl2 hs2 h2' => ?_
    refine Enforced.intro (fun hk a ha _ => ?_) (fun h => (nomatch h)) (fun h => (nomatch h))
    refine means_of (hs a (hs1 a (hs2 a ha))) (h2'.2 hk a ha) fun i j x y hij hi hj => ?_
    have key := hr.all (hs1 a (hs2 a ha)) hk
    have := (h1.2.2 ((some (x.eval a), i), (some (y.eval a), j)) (mem_pairs_zipIdx.2 ⟨hij, ?_, ?_⟩)).resolve_left (by simp) a (hs2 a ha) _ _ rfl rfl
    · exact this
    · rw [key]; simp [hi]
    · rw [key]; simp [hj]

theorem poss_sites (hs : Sites D xs d) (hx : x ∈ xs) {v : Int} (h : Poss d x v) : InRange D.length v := by
  obtain ⟨a, ha, rfl⟩ := h; exact hs a ha x hx

theorem ver_prune (ho : R .overflow) (hD : Fit D) {t : Int} (hx : x.Valid n) (hy : y.Valid n) (hd : DomsOK d) (hl : d.length = n)
    (hC : ∀ a, Within d a → Means D Q xs z a → t ≤ entry D (x.eval a) (y.eval a)) :
    (prune (σ := σ) (μ := μ) D t x y).Ver (job n m R root D Q xs z) (fun _ => False) (fun _ d' => ∀ a, Within d' a → Within d a) d := by
  refine ver_ask (f := (optionalSingleValue · x)) ho (single_pin hd (hl ▸ hx)) fun r hr => ?_
  cases r with
  | none => exact fun _ h => h
  | some u =>
    refine ver_onlyIf (fun hu => ?_) fun _ _ h => h
    refine ver_ask (f := fun d => do collect (← eachValue d y)) ho ((listed_roo hd (hl ▸ hy)).bind fun g hg => collect_roo hg) fun bs hbs => ?_
    refine ver_mono (fun _ d' h => h.2) _ _ (ver_forEach (J := job n m R root D Q xs z) (fun vs d' => (∀ v ∈ vs, InI64 v) ∧ ∀ a, Within d' a → Within d a) ?_ bs d hd hl ⟨fun b hb => hbs.1 b hb, fun _ h => h⟩)
    rintro v vs d' hd' hl' ⟨hv, hs⟩
    have rest : ∀ w ∈ vs, InI64 w := fun w hw => hv w (List.mem_cons_of_mem _ hw)
    refine ver_onlyIf (fun hb => ?_) fun _ => ⟨rest, hs⟩
    refine ver_lift (x := dist D u v) ho (dist_roo hD hu hb) fun w hw => ?_
    obtain ⟨rfl, _⟩ := hw
    refine ver_onlyIf (fun hlt => ver_tell_last (.ne hy (hv v List.mem_cons_self)) (fun a ha hC' => ?_) fun d'' _ _ h => ⟨rest, fun a ha => hs a ((h a).1 ha).1⟩) fun _ => ⟨rest, hs⟩
    rw [Lit.holds_ne]
    intro e
    have := hC a (hs a ha) hC'.2
    rw [(hr u).1.1 rfl a (hs a ha), e] at this
    omega

theorem ver_scan (ho : R .overflow) (hD : Fit D) {t : Int} (hx : x.Valid n) (hy : y.Valid n) (hd : DomsOK d) (hl : d.length = n)
    (hC : ∀ a, Within d a → Means D Q xs z a → InRange D.length (y.eval a) ∧ t ≤ entry D (x.eval a) (y.eval a)) :
    (scan (σ := σ) (μ := μ) D t x y).Ver (job n m R root D Q xs z) (fun _ => False) (fun _ d' => ∀ a, Within d' a → Within d a) d := by
  refine ver_ask (f := fun d => do collect (← eachValue d x)) ho ((listed_roo hd (hl ▸ hx)).bind fun g hg => collect_roo hg) fun as has => ?_
  refine ver_mono (fun _ d' h => h.2) _ _ (ver_forEach (J := job n m R root D Q xs z) (fun vs d' => (∀ v ∈ vs, InI64 v) ∧ ∀ a, Within d' a → Within d a) ?_ as d hd hl ⟨fun b hb => has.1 b hb, fun _ h => h⟩)
  rintro u vs d' hd' hl' ⟨hv, hs⟩
  have rest : ∀ w ∈ vs, InI64 w := fun w hw => hv w (List.mem_cons_of_mem _ hw)
  refine ver_onlyIf (fun hu => ?_) fun _ => ⟨rest, hs⟩
  refine ver_ask (f := fun d => do
      if ← inDomain d x u then return ! (← anyOfGen (fun b => if InRange D.length b then do return decide ((← dist D u b) ≥ t) else .ok false) (← eachValue d y))
      else return false) (P := fun b => b = true → ¬ ∃ v, Poss d' y v ∧ InRange D.length v ∧ t ≤ entry D u v) ho ?_ fun b hb => ?_
  · refine (inDomain_spec hd' (hl' ▸ hx) u (hv u List.mem_cons_self)).bind fun c _ => ?_
    cases c with
    | false => exact .pure (by simp)
    | true =>
      refine (listed_roo hd' (hl' ▸ hy)).bind fun g hg => ?_
      refine (anyOfGen_roo (P := fun v => InRange D.length v ∧ t ≤ entry D u v) hg fun v _ _ => ?_).bind fun b hb => .pure fun h => ?_
      · split
        · rename_i hr
          refine (dist_roo hD hu hr).bind fun w hw => .pure ?_
          rw [hw.1]; exact ⟨fun h => ⟨hr, of_decide_eq_true h⟩, fun h => decide_eq_true h.2⟩
        · rename_i hr
          exact .pure ⟨fun h => (nomatch h), fun h => absurd h.1 hr⟩
      · have : b = false := by simpa using h
        subst this
        exact fun h => Bool.noConfusion (hb.2 h)
  · refine ver_onlyIf (fun hlt => ver_tell_last (.ne hx (hv u List.mem_cons_self)) (fun a ha hC' => ?_) fun d'' _ _ h => ⟨rest, fun a ha => hs a ((h a).1 ha).1⟩) fun _ => ⟨rest, hs⟩
    rw [Lit.holds_ne]
    intro e
    have := hC a (hs a ha) hC'.2
    rw [e] at this
    exact hb hlt ⟨_, ha.poss y, this⟩

theorem better_roo (hD : Fit D) {r u : Int} (hu : InRange D.length u) : ∀ (bs : List Int) (w : Option Int), (∀ x, w = some x → InI64 x) →
    RightOrOverflow (better D r u w bs) (fun o => (∀ x, o = some x → InI64 x ∧ (w = some x ∨ ∃ b ∈ bs, InRange D.length b ∧ r ≤ entry D u b ∧ entry D u b = x)) ∧
      (∀ x, w = some x → ∃ v, o = some v ∧ x ≤ v) ∧ ∀ b ∈ bs, InRange D.length b → r ≤ entry D u b → ∃ v, o = some v ∧ entry D u b ≤ v)
  | [], w, hw => .pure ⟨fun x h => ⟨hw x h, .inl h⟩, fun x h => ⟨x, h, Int.le_refl _⟩, by simp⟩
  | b :: bs, w, hw => by
    rw [better]
    split
    · rename_i hb
      refine (dist_roo hD hu hb).bind fun e he => ?_
      obtain ⟨rfl, he⟩ := he
      by_cases hge : entry D u b ≥ r
      · rw [if_pos hge]
        cases w with
        | none =>
          refine (better_roo hD hu bs (some (entry D u b)) (fun x hx => by cases hx; exact he)).mono fun o ho => ⟨fun x hx => ?_, fun _ h => (nomatch h), fun c hc h1 h2 => ?_⟩
          · obtain ⟨k1, k2⟩ := ho.1 x hx
            refine ⟨k1, .inr ?_⟩
            rcases k2 with k2 | ⟨c, hc, k⟩
            · cases k2; exact ⟨b, by simp, hb, hge, rfl⟩
            · exact ⟨c, by simp [hc], k⟩
          · rcases List.mem_cons.1 hc with rfl | hc
            · exact ho.2.1 _ rfl
            · exact ho.2.2 c hc h1 h2
        | some w =>
          refine (better_roo hD hu bs (some (max w (entry D u b))) (fun x hx => by cases hx; exact Disjunctive2D.InI64.max (hw w rfl) he)).mono fun o ho => ⟨fun x hx => ?_, fun x h => ?_, fun c hc h1 h2 => ?_⟩
          · obtain ⟨k1, k2⟩ := ho.1 x hx
            refine ⟨k1, ?_⟩
            rcases k2 with k2 | ⟨c, hc, k⟩
            · have k2 : max w (entry D u b) = x := by cases k2; rfl
              by_cases hlt : entry D u b ≤ w
              · exact .inl (by congr 1; omega)
              · exact .inr ⟨b, by simp, hb, hge, by omega⟩
            · exact .inr ⟨c, by simp [hc], k⟩
          · cases h
            obtain ⟨v, hv, k⟩ := ho.2.1 _ rfl
            exact ⟨v, hv, by omega⟩
          · rcases List.mem_cons.1 hc with rfl | hc
            · obtain ⟨v, hv, k⟩ := ho.2.1 _ rfl
              exact ⟨v, hv, by omega⟩
            · exact ho.2.2 c hc h1 h2
      · rw [if_neg hge]
        refine (better_roo hD hu bs w hw).mono fun o ho => ⟨fun x hx => ⟨(ho.1 x hx).1, (ho.1 x hx).2.imp id fun ⟨c, hc, k⟩ => ⟨c, by simp [hc], k⟩⟩, ho.2.1, fun c hc h1 h2 => ?_⟩
        rcases List.mem_cons.1 hc with rfl | hc
        · exact absurd h2 hge
        · exact ho.2.2 c hc h1 h2
    · rename_i hb
      refine (better_roo hD hu bs w hw).mono fun o ho => ⟨fun x hx => ⟨(ho.1 x hx).1, (ho.1 x hx).2.imp id fun ⟨c, hc, k⟩ => ⟨c, by simp [hc], k⟩⟩, ho.2.1, fun c hc h1 h2 => ?_⟩
      rcases List.mem_cons.1 hc with rfl | hc
      · exact absurd h1 hb
      · exact ho.2.2 c hc h1 h2

theorem best_roo (hD : Fit D) {r : Int} {bs : List Int} : ∀ (as : List Int) (w : Option Int), (∀ x, w = some x → InI64 x) →
    RightOrOverflow (best D r bs w as) (fun o => (∀ x, o = some x → InI64 x ∧ (w = some x ∨ ∃ u ∈ as, ∃ b ∈ bs, r ≤ entry D u b ∧ entry D u b = x)) ∧
      (∀ x, w = some x → ∃ v, o = some v ∧ x ≤ v) ∧ ∀ u ∈ as, ∀ b ∈ bs, InRange D.length u → InRange D.length b → r ≤ entry D u b → ∃ v, o = some v ∧ entry D u b ≤ v)
  | [], w, hw => .pure ⟨fun x h => ⟨hw x h, .inl h⟩, fun x h => ⟨x, h, Int.le_refl _⟩, by simp⟩
  | u :: as, w, hw => by
    rw [best]
    split
    · rename_i hu
      refine (better_roo hD hu bs w hw).bind fun o ho => (best_roo hD as o fun x hx => (ho.1 x hx).1).mono fun o' ho' => ⟨fun x hx => ?_, fun x hx => ?_, fun c hc b hb h1 h2 h3 => ?_⟩
      · obtain ⟨k1, k2⟩ := ho'.1 x hx
        refine ⟨k1, ?_⟩
        rcases k2 with k2 | ⟨c, hc, b, hb, k⟩
        · rcases (ho.1 x k2).2 with k | ⟨b, hb, _, k⟩
          · exact .inl k
          · exact .inr ⟨u, by simp, b, hb, k⟩
        · exact .inr ⟨c, by simp [hc], b, hb, k⟩
      · obtain ⟨v, hv, k⟩ := ho.2.1 x hx
        obtain ⟨v', hv', k'⟩ := ho'.2.1 v hv
        exact ⟨v', hv', by omega⟩
      · rcases List.mem_cons.1 hc with rfl | hc
        · obtain ⟨v, hv, k⟩ := ho.2.2 b hb h2 h3
          obtain ⟨v', hv', k'⟩ := ho'.2.1 v hv
          exact ⟨v', hv', by omega⟩
        · exact ho'.2.2 c hc b hb h1 h2 h3
    · rename_i hu
      refine (best_roo hD as w hw).mono fun o ho => ⟨fun x hx => ⟨(ho.1 x hx).1, (ho.1 x hx).2.imp id fun ⟨c, hc, k⟩ => ⟨c, by simp [hc], k⟩⟩, ho.2.1, fun c hc b hb h1 h2 h3 => ?_⟩
      rcases List.mem_cons.1 hc with rfl | hc
      · exact absurd h1 hu
      · exact ho.2.2 c hc b hb h1 h2 h3

theorem pairBound_roo (hD : Fit D) {r : Int} (hx : x.Valid d.length) (hy : y.Valid d.length) (hd : DomsOK d) :
    RightOrOverflow (pairBound D r x y d) (fun o => (∀ w, o = some w → InI64 w ∧ ∃ u v, Poss d x u ∧ Poss d y v ∧ r ≤ entry D u v) ∧
      ∀ u v, Poss d x u → Poss d y v → InRange D.length u → InRange D.length v → r ≤ entry D u v → ∃ w, o = some w ∧ entry D u v ≤ w) := by
  refine (listed_roo hd hx).bind fun g hg => (collect_roo hg).bind fun as has => (listed_roo hd hy).bind fun g' hg' => (collect_roo hg').bind fun bs hbs => ?_
  refine (best_roo hD as none (by simp)).mono fun o ho => ⟨fun w hw => ?_, fun u v hu hv h1 h2 h3 => ho.2.2 u ((has.2 u).2 hu) v ((hbs.2 v).2 hv) h1 h2 h3⟩
  obtain ⟨k1, k2⟩ := ho.1 w hw
  rcases k2 with k2 | ⟨u, hu, v, hv, k, _⟩
  · cases k2
  · exact ⟨k1, u, v, (has.2 u).1 hu, (hbs.2 v).1 hv, k⟩

theorem need_nonneg (hQ : Fits xs.length Q) {i j : Nat} (hij : i < j) (hj : j < xs.length) : 0 ≤ (need Q i j).getD 0 := by
  cases Q with
  | none => exact Int.le_refl _
  | some q => exact (hQ.ok q rfl).nonneg i j hij hj

theorem ver_forwardPair (ho : R .overflow) (hD : Fit D) (hQ : Fits xs.length Q) (hz : z.Valid n) (hx : ∀ x ∈ xs, x.Valid n) {support : Bool} {zMin : Int} {d0 : Doms} (hd0 : ∀ a, Within d0 a → zMin ≤ z.eval a) (hs0 : Sites D xs d0)
    (hd : DomsOK d) (hl : d.length = n) (hs : ∀ a, Within d a → Within d0 a) {p : (VarId × Nat) × (VarId × Nat)} (hp : p ∈ Disjunctive2D.pairs xs.zipIdx) :
    (forwardPair (σ := σ) (μ := μ) D Q z support zMin p).Ver (job n m R root D Q xs z) (fun _ => False)
      (fun _ d' => (∀ a, Within d' a → Within d a) ∧ (Known d0 p.1.1 → Known d0 p.2.1 → ∀ a, Within d' a → FarAt D Q p.1.2 p.2.2 (p.1.1.eval a) (p.2.1.eval a))) d := by
  obtain ⟨⟨x, i⟩, y, j⟩ := p
  obtain ⟨hij, hi, hj⟩ := mem_pairs_zipIdx.1 hp
  replace hij : i < j := hij
  replace hi : xs[i]? = some x := hi
  replace hj : xs[j]? = some y := hj
  have li := (List.getElem?_eq_some_iff.1 hi).1
  have lj := (List.getElem?_eq_some_iff.1 hj).1
  have mx := List.mem_of_getElem? hi
  have my := List.mem_of_getElem? hj
  have vx := hx x mx
  have vy := hx y my
  refine ver_lift (x := required Q i j) ho (required_roo hQ li lj) fun r hr => ?_
  obtain ⟨rfl, _⟩ := hr
  have nn := need_nonneg hQ hij lj
  have far : ∀ a, Within d0 a → Means D Q xs z a → (need Q i j).getD 0 ≤ entry D (x.eval a) (y.eval a) := fun a ha hC => by
    cases e : need Q i j with
    | none =>
      have h1 := hs0 a ha x mx
      have h2 := hs0 a ha y my
      have := hD.ok.nonneg (x.eval a).toNat (y.eval a).toNat (by have := h1.1; have := h1.2; omega) (by have := h2.1; have := h2.2; omega)
      rwa [Int.toNat_of_nonneg h1.1, Int.toNat_of_nonneg h2.1] at this
    | some r => exact hC.far hij hi hj r e
  have thr : ∀ a, Within d0 a → Means D Q xs z a → max ((need Q i j).getD 0) zMin ≤ entry D (x.eval a) (y.eval a) := fun a ha hC => by
    have := hC.le hij hi hj
    have := hd0 a ha
    have := far a ha hC
    omega
  have sym : ∀ a, Within d0 a → entry D (x.eval a) (y.eval a) = entry D (y.eval a) (x.eval a) := fun a ha => entry_symm hD.ok (hs0 a ha x mx) (hs0 a ha y my)
  refine ver_seq (S := fun _ => False) hd hl (fun _ h => h) (ver_prune ho hD vx vy hd hl fun a ha hC => thr a (hs a ha) hC) fun _ d1 hd1 hl1 hs1 _ => ?_
  refine ver_seq (S := fun _ => False) hd1 hl1 (fun _ h => h) (ver_prune ho hD vy vx hd1 hl1 fun a ha hC => by rw [← sym a (hs a (hs1 a ha))]; exact thr a (hs a (hs1 a ha)) hC) fun _ d2 hd2 hl2 hs2 _ => ?_
  have s2 : ∀ a, Within d2 a → Within d0 a := fun a ha => hs a (hs1 a (hs2 a ha))
  refine ver_ask (f := pairBound D ((need Q i j).getD 0) x y) ho (pairBound_roo hD (hl2 ▸ vx) (hl2 ▸ vy) hd2) fun o h => ?_
  have sound : ∀ a, Within d2 a → Means D Q xs z a → ∃ w, o = some w ∧ entry D (x.eval a) (y.eval a) ≤ w := fun a ha hC =>
    h.2 _ _ (ha.poss x) (ha.poss y) (hs0 a (s2 a ha) x mx) (hs0 a (s2 a ha) y my) (far a (s2 a ha) hC)
  cases o with
  | none => intro a ha hC; obtain ⟨w, e, _⟩ := sound a ha hC.2; cases e
  | some w =>
    show Prog.Ver _ _ _ (if w < zMin then _ else _) _
    split
    · intro a ha hC
      obtain ⟨w', e, k⟩ := sound a ha hC.2
      cases e
      have := hC.2.le hij hi hj
      have := hd0 a (s2 a ha)
      omega
    · obtain ⟨hw, u, v, pu, pv, hr⟩ := h.1 w rfl
      have done : Known d0 x → Known d0 y → ∀ a, Within d2 a → FarAt D Q i j (x.eval a) (y.eval a) := fun k1 k2 a ha r e => by
        have e1 := (k1.sub s2).poss ha pu
        have e2 := (k2.sub s2).poss ha pv
        rw [e] at hr
        rw [e1, e2]; exact hr
      refine ver_ask (f := (upperBound · z)) ho (upper_roo hd2 (hl2 ▸ hz)) fun hi' _ => ?_
      refine ver_seq (S := fun _ => False) (Q' := fun _ _ => True) hd2 hl2 (fun _ h => h) (ver_onlyIf (fun _ => ?_) fun _ => trivial) fun _ d3 hd3 hl3 hs3 _ => ?_
      · refine ver_lift (x := iAdd w 1) ho (add_roo hw (by decide)) fun k hk => ?_
        obtain ⟨rfl, hk⟩ := hk
        refine ver_tell_last (.lt hz hk) (fun a ha hC => ?_) fun _ _ _ _ => trivial
        obtain ⟨w', e, k⟩ := sound a ha hC.2
        cases e
        have := hC.2.le hij hi hj
        show z.eval a < w + 1
        omega
      · have s3 : ∀ a, Within d3 a → Within d a := fun a ha => hs1 a (hs2 a (hs3 a ha))
        refine ver_onlyIf (fun _ => ?_) fun _ => ⟨s3, fun k1 k2 a ha => done k1 k2 a (hs3 a ha)⟩
        refine ver_seq (S := fun _ => False) hd3 hl3 (fun _ h => h) (ver_scan ho hD vx vy hd3 hl3 fun a ha hC => ⟨hs0 a (hs a (s3 a ha)) y my, thr a (hs a (s3 a ha)) hC⟩) fun _ d4 hd4 hl4 hs4 _ => ?_
        refine ver_mono (fun _ d5 h5 => ⟨fun a ha => s3 a (hs4 a (h5 a ha)), fun k1 k2 a ha => done k1 k2 a (hs3 a (hs4 a (h5 a ha)))⟩) _ _
          (ver_scan ho hD vy vx hd4 hl4 fun a ha hC => ⟨hs0 a (hs a (s3 a (hs4 a ha))) x mx, by rw [← sym a (hs a (s3 a (hs4 a ha)))]; exact thr a (hs a (s3 a (hs4 a ha))) hC⟩)

/-- The propagation function that prunes. -/
theorem ver_forward (ho : R .overflow) (hD : Fit D) (hQ : Fits xs.length Q) (hz : z.Valid n) (hx : ∀ x ∈ xs, x.Valid n) (h2 : 2 ≤ xs.length) {support : Bool} (hd : DomsOK d) (hl : d.length = n) (hs : Sites D xs d) :
    (forward (σ := σ) (μ := μ) D Q z support xs).Ver (job n m R root D Q xs z) (fun _ => True) (Enforced (fun a => Within root a → Means D Q xs z a) (xs.filterMap VarId.underlyingIndex) d) d := by
  refine ver_ask (f := (lowerBound · z)) ho (lower_roo hd (hl ▸ hz)) fun zMin hm => ?_
  refine ver_seq (S := fun _ => False) hd hl (fun _ h => h) (ver_forEach (J := job n m R root D Q xs z) (fun ps d' => (∀ p ∈ ps, p ∈ Disjunctive2D.pairs xs.zipIdx) ∧ (∀ a, Within d' a → Within d a) ∧
    ∀ p ∈ Disjunctive2D.pairs xs.zipIdx, p ∈ ps ∨ (Known d p.1.1 → Known d p.2.1 → ∀ a, Within d' a → FarAt D Q p.1.2 p.2.2 (p.1.1.eval a) (p.2.1.eval a))) ?_ _ d hd hl ⟨fun _ h => h, fun _ h => h, fun _ h => .inl h⟩) fun _ d1 hd1 hl1 hs1 h1 => ?_
  · rintro p ps d' hd' hl' ⟨h1, h2, h3⟩
    refine ver_mono (fun _ d'' h => ⟨fun q hq => h1 q (List.mem_cons_of_mem _ hq), fun a ha => h2 a (h.1 a ha), fun q hq => ?_⟩) _ _ (ver_forwardPair ho hD hQ hz hx (fun a ha => hm.2.le ha) hs hd' hl' h2 (h1 p List.mem_cons_self))
    rcases h3 q hq with h' | h'
    · rcases List.mem_cons.1 h' with rfl | h'
      · exact .inr h.2
      · exact .inl h'
    · exact .inr fun k1 k2 a ha => h' k1 k2 a (h.1 a ha)
  · refine ver_ask (f := (values · xs)) ho (values_roo hd1 (hl1 ▸ hx)) fun vals hr => ?_
    refine ver_seq (S := fun _ => False) hd1 hl1 (fun _ h => h) (ver_pin ho hD hz h2 hr (fun a ha => hs a (hs1 a ha)) hd1 hl1 fun _ h => h) fun _ d2 hd2 hl2 hs2 h2' => ?_
    refine Enforced.intro (fun hk a ha _ => ?_) (fun h => (nomatch h)) (fun h => (nomatch h))
    refine means_of (hs a (hs1 a (hs2 a ha))) (h2'.2 (fun x hx => (hk x hx).sub hs1) a ha) fun i j x y hij hi hj => ?_
    exact (h1.2.2 ((x, i), (y, j)) (mem_pairs_zipIdx.2 ⟨hij, hi, hj⟩)).resolve_left (by simp) (hk x (List.mem_of_getElem? hi)) (hk y (List.mem_of_getElem? hj)) a (hs2 a ha)

end
end Gcs.MinDistance
