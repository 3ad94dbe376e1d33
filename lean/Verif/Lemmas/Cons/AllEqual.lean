import Verif.Model.Cons.AllEqual
import Verif.Lemmas.Cons.Logical
import Verif.Lemmas.Cons.Equals

namespace Gcs.AllEqual
open IntervalSet

section
variable {σ μ : Type} {n m : Nat} {R : Err → Prop} {root d : Doms}

theorem span_spec (hd : DomsOK d) : ∀ (vs : List VarId) (lo hi : Int), InI64 lo → InI64 hi → (∀ v ∈ vs, v.Valid d.length) →
    RightOrOverflow (span d lo hi vs) (fun r => InI64 r.1 ∧ InI64 r.2 ∧ lo ≤ r.1 ∧ r.2 ≤ hi ∧
      (∀ v ∈ vs, ∃ l u, IsMin (Poss d v) l ∧ IsMax (Poss d v) u ∧ l ≤ r.1 ∧ r.2 ≤ u) ∧
      (r.1 = lo ∨ ∃ v ∈ vs, IsMin (Poss d v) r.1) ∧ (r.2 = hi ∨ ∃ v ∈ vs, IsMax (Poss d v) r.2))
  | [], lo, hi, h1, h2, _ => .pure ⟨h1, h2, Int.le_refl _, Int.le_refl _, by simp, .inl rfl, .inl rfl⟩
  | v :: vs, lo, hi, h1, h2, hv => by
    refine (bounds_roo hd (hv v (by simp))).bind fun b hb => ?_
    refine (span_spec hd vs _ _ ?_ ?_ fun w hw => hv w (List.mem_cons_of_mem _ hw)).mono fun r hr => ?_
    · split
      · exact hb.1.1
      · exact h1
    · split
      · exact hb.2.1
      · exact h2
    obtain ⟨k1, k2, k3, k4, k5, k6, k7⟩ := hr
    refine ⟨k1, k2, by split at k3 <;> omega, by split at k4 <;> omega, ?_, ?_, ?_⟩
    · intro w hw
      rcases List.mem_cons.1 hw with rfl | hw
      · exact ⟨b.1, b.2, hb.1.2, hb.2.2, by split at k3 <;> omega, by split at k4 <;> omega⟩
      · exact k5 w hw
    · rcases k6 with h | ⟨w, hw, h⟩
      · split at h
        · exact .inr ⟨v, by simp, h ▸ hb.1.2⟩
        · exact .inl h
      · exact .inr ⟨w, List.mem_cons_of_mem _ hw, h⟩
    · rcases k7 with h | ⟨w, hw, h⟩
      · split at h
        · exact .inr ⟨v, by simp, h ▸ hb.2.2⟩
        · exact .inl h
      · exact .inr ⟨w, List.mem_cons_of_mem _ hw, h⟩

theorem ver_tighten {J : Job} {lo hi : Int} {v : VarId} (ho : J.R .overflow) (hd : DomsOK d) (hl : d.length = J.n) (hv : v.Valid J.n) (h1 : InI64 lo) (h2 : InI64 hi)
    (hs : ∀ a, Within d a → J.C a → lo ≤ v.eval a ∧ v.eval a ≤ hi) :
    (tighten (σ := σ) (μ := μ) lo hi v).Ver J (fun _ => False) (fun _ d' => ∀ a, Within d' a ↔ Within d a ∧ lo ≤ v.eval a ∧ v.eval a ≤ hi) d := by
  refine ver_ask (f := (lowerBound · v)) ho (lower_roo hd (hl ▸ hv)) fun l hll => ?_
  have second : ∀ d1, DomsOK d1 → d1.length = J.n → (∀ a, Within d1 a ↔ Within d a ∧ lo ≤ v.eval a) →
      (do let u ← Prog.ask (upperBound · v)
          if u > hi then
            let x ← Prog.lift (iAdd hi 1)
            Prog.tell (.cond (Cond.lt v x)) : Prog σ μ Unit).Ver J (fun _ => False) (fun _ d' => ∀ a, Within d' a ↔ Within d a ∧ lo ≤ v.eval a ∧ v.eval a ≤ hi) d1 := by
    intro d1 hd1 hl1 hw
    refine ver_ask (f := (upperBound · v)) ho (upper_roo hd1 (hl1 ▸ hv)) fun u hu => ?_
    split
    · refine ver_lift ho (add_roo h2 (by decide)) fun x hx => ?_
      refine ver_tell_last (.lt hv hx.2) (fun a ha hc => ?_) fun d2 _ _ k3 a => ?_
      · have := (hs a ((hw a).1 ha).1 hc).2
        rw [Lit.holds_lt, hx.1]; omega
      · rw [k3, hw, Lit.holds_lt, hx.1, and_assoc, Int.lt_add_one_iff]
    · intro a
      rw [hw]
      refine ⟨fun h => ⟨h.1, h.2, ?_⟩, fun h => ⟨h.1, h.2.1⟩⟩
      have := hu.2.ge ((hw a).2 h); omega
  split
  · exact ver_tell (.ge hv h1) (fun a ha hc => (hs a ha hc).1) fun d1 k1 k2 k3 => second d1 k1 k2 k3
  · exact second d hd hl fun a => ⟨fun h => ⟨h, by have := hll.2.le h; omega⟩, fun h => h.1⟩

theorem ver_tightens {J : Job} {lo hi : Int} (ho : J.R .overflow) (h1 : InI64 lo) (h2 : InI64 hi) : ∀ (vs : List VarId) {d : Doms}, DomsOK d → d.length = J.n → (∀ v ∈ vs, v.Valid J.n) →
    (∀ a, Within d a → J.C a → ∀ v ∈ vs, lo ≤ v.eval a ∧ v.eval a ≤ hi) →
    (Prog.forEach (tighten (σ := σ) (μ := μ) lo hi) vs).Ver J (fun _ => False) (fun _ d' => ∀ a, Within d' a ↔ Within d a ∧ ∀ v ∈ vs, lo ≤ v.eval a ∧ v.eval a ≤ hi) d
  | [], d, _, _, _, _ => fun a => by simp
  | v :: vs, d, hd, hl, hv, hs => by
    refine ver_seq (S := fun _ => False) hd hl (fun _ h => h) (ver_tighten ho hd hl (hv v (by simp)) h1 h2 fun a ha hc => hs a ha hc v (by simp)) fun _ d1 k1 k2 k3 k4 => ?_
    refine ver_mono (fun _ d2 hq a => ?_) _ _ (ver_tightens ho h1 h2 vs k1 k2 (fun w hw => hv w (List.mem_cons_of_mem _ hw)) fun a ha hc w hw => hs a (k3 a ha) hc w (List.mem_cons_of_mem _ hw))
    rw [hq, k4, and_assoc, List.forall_mem_cons]

theorem anyHoles_spec (hd : DomsOK d) : ∀ vs : List VarId, (∀ v ∈ vs, v.Valid d.length) →
    ∃ b, anyHoles d vs = .ok b ∧ (b = true ↔ ∃ v ∈ vs, ∃ x y z, Poss d v x ∧ Poss d v z ∧ x < y ∧ y < z ∧ ¬ Poss d v y)
  | [], _ => ⟨false, rfl, by simp⟩
  | v :: vs, hv => by
    obtain ⟨b, h1, h2⟩ := domainHasHoles_spec hd (hv v (by simp))
    obtain ⟨c, h3, h4⟩ := anyHoles_spec hd vs fun w hw => hv w (List.mem_cons_of_mem _ hw)
    rw [exists_cons]
    cases b with
    | true => exact ⟨true, by simp [anyHoles, h1, Bind.bind, Except.bind, Pure.pure, Except.pure], fun _ => .inl (h2.1 rfl), fun _ => rfl⟩
    | false =>
      refine ⟨c, by simpa [anyHoles, h1, Bind.bind, Except.bind] using h3, ?_⟩
      rw [h4]
      exact ⟨.inr, fun h => h.resolve_left fun h => by have := h2.2 h; cases this⟩

theorem common_spec (hd : DomsOK d) : ∀ (vs : List VarId) (s : IntervalSet), WF s → InRange s → (∀ v ∈ vs, v.Valid d.length) →
    RightOrOverflow (common d s vs) (fun t => WF t ∧ InRange t ∧ ∀ y, Mem y t ↔ Mem y s ∧ ∀ v ∈ vs, Poss d v y)
  | [], s, h1, h2, _ => .pure ⟨h1, h2, by simp⟩
  | v :: vs, s, h1, h2, hv => by
    refine (copyOfValues_spec hd (hv v (by simp))).drop.bind fun t ht => ?_
    obtain ⟨k1, k2⟩ := intersectWith_spec s t h1 ht.1
    refine (common_spec hd vs _ k1 (inRange_of_mem k1 fun x hx => mem_of_inRange h2 ((k2 x).1 hx).1) fun w hw => hv w (List.mem_cons_of_mem _ hw)).mono fun r hr => ⟨hr.1, hr.2.1, fun y => ?_⟩
    rw [hr.2.2, k2, ht.2.2, and_assoc, List.forall_mem_cons]

theorem witness_spec (hd : DomsOK d) {x : Int} (hx : InI64 x) : ∀ vs : List VarId, (∀ v ∈ vs, v.Valid d.length) → RightOrOverflow (witness d x vs) (fun _ => True)
  | [], _ => .pure trivial
  | v :: vs, hv => by
    refine (inDomain_spec hd (hv v (by simp)) x hx).bind fun b _ => ?_
    split
    · exact witness_spec hd hx vs fun w hw => hv w (List.mem_cons_of_mem _ hw)
    · exact .pure trivial

theorem ver_prune {J : Job} {vars : List VarId} {c : IntervalSet} {v : VarId} (ho : J.R .overflow) (hd : DomsOK d) (hl : d.length = J.n) (hv : v.Valid J.n) (hvs : ∀ w ∈ vars, w.Valid J.n) (hc : WF c ∧ InRange c)
    (hs : ∀ a, Within d a → J.C a → Mem (v.eval a) c) : (prune (σ := σ) (μ := μ) vars c v).Ver J (fun _ => False) (fun _ _ => True) d := by
  refine ver_ask (f := (copyOfValues · v)) ho (copyOfValues_spec hd (hl ▸ hv)).drop fun s hss => ?_
  obtain ⟨k1, k2⟩ := eachIntervalMinus_sound s c hss.1 hc.1 hss.2.1 hc.2
  refine ver_forGen hd hl (fun e h => k1 e h ▸ ho) ?_
  generalize (eachIntervalMinus s c).1 = L at k2
  refine ver_mono (fun _ _ _ => trivial) _ _ (ver_forEach (fun xs d' => (∀ p ∈ xs, p ∈ L) ∧ ∀ a, Within d' a → Within d a) ?_ L d hd hl ⟨fun _ h => h, fun _ h => h⟩)
  rintro p xs d' hd' hl' ⟨hm, hsub⟩
  obtain ⟨g1, g2, g3⟩ := k2 p (hm p List.mem_cons_self)
  obtain ⟨e1, e2⟩ := loopUp_spec p.1 p.2 g1 g2
  refine ver_forGen hd' hl' (fun e h => ?_) ?_
  · rw [e2] at h; split at h
    · cases h; exact ho
    · cases h
  refine ver_mono (fun _ d'' hq => ⟨fun q hq => hm q (List.mem_cons_of_mem _ hq), hq.2⟩) _ _
    (ver_forEach (fun ys d'' => (∀ y ∈ ys, p.1 ≤ y ∧ y ≤ p.2) ∧ ∀ a, Within d'' a → Within d a) ?_ (loopUp p.1 p.2).1 d' hd' hl' ⟨fun y hy => (e1.2 y).1 hy, hsub⟩)
  rintro y ys d2 hd2 hl2 ⟨hy, hsub2⟩
  have hy1 := hy y (by simp)
  have hyI : InI64 y := by unfold InI64 at *; omega
  refine ver_ask (f := (witness · y vars)) ho (witness_spec hd2 hyI vars fun w hw => hl2 ▸ hvs w hw) fun _ _ => ?_
  refine ver_tell_last (.ne hv hyI) (fun a ha hC => ?_) fun d3 _ _ h3 => ⟨fun z hz => hy z (List.mem_cons_of_mem _ hz), fun a ha => hsub2 a ((h3 a).1 ha).1⟩
  rw [Lit.holds_ne]; rintro rfl
  exact (g3 _ hy1.1 hy1.2).2 (hs a (hsub2 a ha) hC)

theorem ver_prunes {J : Job} {vars : List VarId} {c : IntervalSet} (ho : J.R .overflow) (hvs : ∀ w ∈ vars, w.Valid J.n) (hc : WF c ∧ InRange c) (hd : DomsOK d) (hl : d.length = J.n) (vs : List VarId)
    (hv : ∀ v ∈ vs, v.Valid J.n) (hs : ∀ a, Within d a → J.C a → ∀ v ∈ vs, Mem (v.eval a) c) :
    (Prog.forEach (prune (σ := σ) (μ := μ) vars c) vs).Ver J (fun _ => False) (fun _ _ => True) d := by
  induction vs generalizing d with
  | nil => trivial
  | cons v vs ih =>
    refine ver_seq (S := fun _ => False) hd hl (fun _ h => h) (ver_prune ho hd hl (hv v (by simp)) hvs hc fun a ha hC => hs a ha hC v (by simp)) fun _ d1 k1 k2 k3 _ => ?_
    exact ih k1 k2 (fun w hw => hv w (List.mem_cons_of_mem _ hw)) fun a ha hC w hw => hs a (k3 a ha) hC w (List.mem_cons_of_mem _ hw)

/-- All values are the same. -/
abbrev Same (vars : List VarId) (a : Asg) : Prop := ∀ v ∈ vars, ∀ w ∈ vars, v.eval a = w.eval a

/-- Different members are about different variables. -/
def Apart (vars : List VarId) : Prop := ∀ v ∈ vars, ∀ w ∈ vars, ∀ i, v.underlyingIndex = some i → w.underlyingIndex = some i → v = w

/-- No possible value is missing between two others. -/
def NoHoles (d : Doms) (v : VarId) : Prop := ∀ x y z, Poss d v x → Poss d v z → x < y → y < z → Poss d v y

/-- The value of `v` may be changed without leaving the domains. -/
theorem move {vars : List VarId} (hap : Apart vars) {v : VarId} (hv : v ∈ vars) {a b : Asg} (ha : Within d a) (hb : Within d b) :
    ∃ c, Within d c ∧ v.eval c = v.eval b ∧ ∀ w ∈ vars, w = v ∨ w.eval c = w.eval a := by
  cases e : v.underlyingIndex with
  | none =>
    refine ⟨a, ha, ?_, fun w _ => .inr rfl⟩
    cases v <;> simp [VarId.underlyingIndex] at e
    rfl
  | some i =>
    refine ⟨fun j => if j = i then b j else a j, fun j s hs => ?_, ?_, fun w hw => ?_⟩
    · dsimp only; split
      · exact hb j s hs
      · exact ha j s hs
    · cases v <;> simp only [VarId.underlyingIndex, Option.some.injEq, reduceCtorEq] at e <;> subst e <;> simp [VarId.eval]
    · by_cases h : w.underlyingIndex = some i
      · exact .inl (hap w hw v hv i h e)
      · right
        cases w <;> simp only [VarId.underlyingIndex, Option.some.injEq, reduceCtorEq, not_false_eq_true] at h <;> simp [VarId.eval, h]

theorem prop_partial (ho : R .overflow) {vs : List VarId} (hv : ∀ v ∈ vs, v.Valid n) (hne : vs ≠ []) (hd : DomsOK d) (hl : d.length = n) :
    (prop (σ := σ) (μ := μ) vs).Ver { n, m, R, C := fun a => Within root a ∧ Same vs a } (fun _ => True)
      (fun ps d' => ((∀ x ∈ vs, Known d x) → ∀ a, Within d' a → Same vs a) ∧ ps ≠ .enableButIdempotent ∧
        (ps = .disableUntilBacktrack → Apart vs → (∀ x ∈ vs, NoHoles d x) → ∀ a, Within d' a → Same vs a)) d := by
  subst hl
  cases vs with
  | nil => exact absurd rfl hne
  | cons v vs =>
    refine ver_ask (f := (bounds · v)) ho (bounds_roo hd (hv v (by simp))) fun b hb => ?_
    refine ver_ask (f := fun d => span d b.1 b.2 vs) ho (span_spec hd vs b.1 b.2 hb.1.1 hb.2.1 fun w hw => hv w (List.mem_cons_of_mem _ hw)) fun r hr => ?_
    obtain ⟨r1, r2, r3, r4, r5, r6, r7⟩ := hr
    have hi : ∀ w ∈ v :: vs, ∃ l u, IsMin (Poss d w) l ∧ IsMax (Poss d w) u ∧ l ≤ r.1 ∧ r.2 ≤ u := by
      intro w hw
      rcases List.mem_cons.1 hw with rfl | hw
      · exact ⟨_, _, hb.1.2, hb.2.2, r3, r4⟩
      · exact r5 w hw
    have hlo : ∃ w ∈ v :: vs, IsMin (Poss d w) r.1 := by
      rcases r6 with h | ⟨w, hw, h⟩
      · exact ⟨v, by simp, h ▸ hb.1.2⟩
      · exact ⟨w, List.mem_cons_of_mem _ hw, h⟩
    have hhi : ∃ w ∈ v :: vs, IsMax (Poss d w) r.2 := by
      rcases r7 with h | ⟨w, hw, h⟩
      · exact ⟨v, by simp, h ▸ hb.2.2⟩
      · exact ⟨w, List.mem_cons_of_mem _ hw, h⟩
    refine ver_seq (S := fun _ => False) hd rfl (fun _ h => h) (ver_tightens ho r1 r2 (v :: vs) hd rfl hv fun a ha hc w hw => ?_) fun _ d1 hd1 hl1 hsub1 hw1 => ?_
    · obtain ⟨x, hx, hx'⟩ := hlo
      obtain ⟨y, hy, hy'⟩ := hhi
      exact ⟨hc.2 x hx w hw ▸ hx'.le ha, hc.2 y hy w hw ▸ hy'.ge ha⟩
    have known : (∀ x ∈ v :: vs, Known d x) → ∀ a, Within d1 a → Same (v :: vs) a := by
      intro hk a ha x hx y hy
      obtain ⟨k1, k2⟩ := (hw1 a).1 ha
      obtain ⟨l, u, m1, m2, m3, m4⟩ := hi x hx
      have e1 := m1.eq (hk x hx) k1
      have e2 := m2.eq (hk x hx) k1
      have := k2 y hy
      omega
    -- every value in the middle of a domain without holes is still possible
    have reach : Apart (v :: vs) → (∀ x ∈ v :: vs, NoHoles d x) → ∀ x ∈ v :: vs, ∀ y, r.1 ≤ y → y ≤ r.2 → Poss d1 x y := by
      intro hap hnh x hx y h1 h2
      obtain ⟨a, ha⟩ := exists_within hd1
      obtain ⟨ha1, ha2⟩ := (hw1 a).1 ha
      obtain ⟨l, u, m1, m2, m3, m4⟩ := hi x hx
      have hp : Poss d x y := by
        by_cases e1 : y = l
        · exact e1 ▸ m1.1
        · by_cases e2 : y = u
          · exact e2 ▸ m2.1
          · exact hnh x hx l y u m1.1 m2.1 (by omega) (by omega)
      obtain ⟨b, hb, rfl⟩ := hp
      obtain ⟨c, c1, c2, c3⟩ := move hap hx ha1 hb
      refine ⟨c, (hw1 c).2 ⟨c1, fun w hw => ?_⟩, c2⟩
      rcases c3 w hw with rfl | e
      · rw [c2]; exact ⟨h1, h2⟩
      · rw [e]; exact ha2 w hw
    have hv1 : ∀ w ∈ v :: vs, w.Valid d1.length := fun w hw => hl1 ▸ hv w hw
    -- the end
    have last : ∀ d2, DomsOK d2 → d2.length = d.length → (∀ a, Within d2 a → Within d1 a) → (Apart (v :: vs) → (∀ x ∈ v :: vs, NoHoles d x) → d2 = d1) →
        (do if ← Prog.ask (hasSingleValue · v) then return PState.disableUntilBacktrack else return PState.enable : Prog σ μ PState).Ver
          { n := d.length, m, R, C := fun a => Within root a ∧ Same (v :: vs) a } (fun _ => True)
          (fun ps d' => ((∀ x ∈ v :: vs, Known d x) → ∀ a, Within d' a → Same (v :: vs) a) ∧ ps ≠ .enableButIdempotent ∧
            (ps = .disableUntilBacktrack → Apart (v :: vs) → (∀ x ∈ v :: vs, NoHoles d x) → ∀ a, Within d' a → Same (v :: vs) a)) d2 := by
      intro d2 hd2 hl2 hsub2 heq
      obtain ⟨b, h1, h2⟩ := hasSingleValue_spec hd2 (v := v) (hl2 ▸ hv v (by simp))
      refine ver_ask' (f := (hasSingleValue · v)) (fun e he => by rw [h1] at he; cases he) fun b' hb' => ?_
      rw [h1] at hb'
      cases hb'
      cases b with
      | false => exact ⟨fun hk a ha => known hk a (hsub2 a ha), by simp, by simp⟩
      | true =>
        refine ⟨fun hk a ha => known hk a (hsub2 a ha), by simp, fun _ hap hnh a ha x hx y hy => ?_⟩
        obtain ⟨k, hk⟩ := h2.1 rfl
        rw [heq hap hnh] at hk ha
        have ha2 := ((hw1 a).1 ha).2
        have hle : r.1 ≤ r.2 := by have := ha2 x hx; omega
        have e1 := (hk r.1).1 (reach hap hnh v (by simp) r.1 (Int.le_refl _) hle)
        have e2 := (hk r.2).1 (reach hap hnh v (by simp) r.2 hle (Int.le_refl _))
        have := ha2 x hx; have := ha2 y hy
        omega
    obtain ⟨hb, hb1, hb2⟩ := anyHoles_spec hd1 (v :: vs) hv1
    refine ver_ask' (f := (anyHoles · (v :: vs))) (fun e he => by rw [hb1] at he; cases he) fun b' hb' => ?_
    rw [hb1] at hb'
    cases hb'
    cases hb with
    | false => exact last d1 hd1 hl1 (fun _ h => h) fun _ _ => rfl
    | true =>
      refine ver_ask (f := (copyOfValues · v)) ho (copyOfValues_spec hd1 (hv1 v (by simp))).drop fun s hs => ?_
      refine ver_ask (f := (common · s vs)) ho (common_spec hd1 vs s hs.1 hs.2.1 fun w hw => hv1 w (List.mem_cons_of_mem _ hw)) fun c hc => ?_
      refine ver_seq (S := fun _ => False) hd1 hl1 (fun _ h => h) (ver_prunes ho hv ⟨hc.1, hc.2.1⟩ hd1 hl1 (v :: vs) hv fun a ha hC w hw => ?_) fun _ d2 hd2 hl2 hsub2 _ => last d2 hd2 hl2 hsub2 fun hap hnh => ?_
      · rw [hc.2.2, hs.2.2]
        exact ⟨hC.2 v (by simp) w hw ▸ ha.poss v, fun x hx => hC.2 x (List.mem_cons_of_mem _ hx) w hw ▸ ha.poss x⟩
      · obtain ⟨w, hw, x, y, z, h1, h2, h3, h4, h5⟩ := hb2.1 rfl
        obtain ⟨a, ha, rfl⟩ := h1
        obtain ⟨a', ha', rfl⟩ := h2
        have i1 := ((hw1 a).1 ha).2 w hw
        have i2 := ((hw1 a').1 ha').2 w hw
        exact absurd (reach hap hnh w hw y (by omega) (by omega)) h5

end
end Gcs.AllEqual
