import Verif.Lemmas.Cons.Counting
import Verif.Lemmas.Cons.AllEqual

namespace Gcs.Among
open IntervalSet AllEqual

section
variable {σ μ : Type} {n m : Nat} {R : Err → Prop} {root d : Doms} {vars : List VarId} {vals : List Int} {many : VarId}

/-- The count is right. -/
abbrev Counted (vars : List VarId) (vals : List Int) (many : VarId) (a : Asg) : Prop := many.eval a = vars.countP (fun x => x.eval a ∈ vals)

/-- `x` has none of the values. -/
def Cannot (d : Doms) (vals : List Int) (x : VarId) : Prop := ∀ a, Within d a → x.eval a ∉ vals
/-- `x` has one of the values. -/
def Must (d : Doms) (vals : List Int) (x : VarId) : Prop := ∀ a, Within d a → x.eval a ∈ vals

theorem cannot_roo (hd : DomsOK d) {x : VarId} (hv : x.Valid d.length) (hvals : ∀ y ∈ vals, InI64 y) : RightOrOverflow (cannot d vals x) (fun b => b = true ↔ Cannot d vals x) := by
  refine (anyOf_roo vals fun y hy => inDomain_spec hd hv y (hvals y hy)).bind fun b hb => .pure ?_
  have key : b = true ↔ ¬ Cannot d vals x := by
    rw [hb]
    constructor
    · rintro ⟨y, hy, a, ha, rfl⟩ h; exact h a ha hy
    · intro h
      refine Classical.byContradiction fun hn => h fun a ha hm => hn ⟨_, hm, ha.poss x⟩
  cases b with
  | true => exact ⟨fun h => (nomatch h), fun h => absurd h (key.1 rfl)⟩
  | false => exact ⟨fun _ => Classical.byContradiction fun h => (nomatch key.2 h), fun _ => rfl⟩

theorem must_roo (hd : DomsOK d) {x : VarId} (hv : x.Valid d.length) : RightOrOverflow (must d vals x) (fun b => b = true ↔ Must d vals x) := by
  refine (listed_roo hd hv).bind fun g hg => (anyOfGen_roo (P := (· ∉ vals)) hg fun y _ _ => .pure (by simp)).bind fun b hb => .pure ?_
  have key : b = true ↔ ¬ Must d vals x := by
    rw [hb]
    constructor
    · rintro ⟨y, ⟨a, ha, rfl⟩, hy⟩ h; exact hy (h a ha)
    · intro h
      refine Classical.byContradiction fun hn => h fun a ha => Classical.byContradiction fun hm => hn ⟨_, ha.poss x, hm⟩
  cases b with
  | true => exact ⟨fun h => (nomatch h), fun h => absurd h (key.1 rfl)⟩
  | false => exact ⟨fun _ => Classical.byContradiction fun h => (nomatch key.2 h), fun _ => rfl⟩

theorem not_both (hd : DomsOK d) {x : VarId} (h1 : Cannot d vals x) (h2 : Must d vals x) : False := by
  obtain ⟨a, ha⟩ := exists_within hd
  exact h1 a ha (h2 a ha)

theorem parts_roo (hd : DomsOK d) (hvals : ∀ y ∈ vals, InI64 y) : ∀ xs : List VarId, (∀ x ∈ xs, x.Valid d.length) →
    RightOrOverflow (parts d vals xs) (fun r => r.2.1 = cnt (Must d vals) xs ∧ r.2.1 + r.2.2 = cnt (fun x => ¬ Cannot d vals x) xs ∧ r.1 + r.2.1 + r.2.2 = xs.length)
  | [], _ => .pure (by simp [cnt_nil])
  | x :: xs, hv => by
    refine (parts_roo hd hvals xs fun y hy => hv y (List.mem_cons_of_mem _ hy)).bind fun r hr => ?_
    obtain ⟨h1, h2, h3⟩ := hr
    refine (cannot_roo hd (hv x (by simp)) hvals).bind fun b hb => ?_
    cases b with
    | true =>
      have hc := hb.1 rfl
      refine .pure ?_
      rw [cnt_neg fun h => not_both hd hc h, cnt_neg fun h => h hc, List.length_cons]
      exact ⟨h1, h2, by dsimp only; omega⟩
    | false =>
      have hc : ¬ Cannot d vals x := fun h => by have := hb.2 h; cases this
      refine (must_roo hd (hv x (by simp))).bind fun c hm => ?_
      cases c with
      | true =>
        refine .pure ?_
        rw [cnt_pos (hm.1 rfl), cnt_pos (P := fun x => ¬ Cannot d vals x) hc, List.length_cons]
        exact ⟨by dsimp only; omega, by dsimp only; omega, by dsimp only; omega⟩
      | false =>
        refine .pure ?_
        have hm' : ¬ Must d vals x := fun h => by have := hm.2 h; cases this
        rw [cnt_neg hm', cnt_pos (P := fun x => ¬ Cannot d vals x) hc, List.length_cons]
        exact ⟨h1, by dsimp only; omega, by dsimp only; omega⟩

theorem count_cnt (a : Asg) : vars.countP (fun x => x.eval a ∈ vals) = cnt (fun x => x.eval a ∈ vals) vars := countP_cnt _ _ fun x _ => by simp

/-- Pruning `x` leaves the values of a member about another variable possible. -/
theorem other {d' : Doms} (hap : Apart vars) {x w : VarId} (hx : x ∈ vars) (hw : w ∈ vars) (hne : w ≠ x) {P : Int → Prop} (hd' : DomsOK d') (h : ∀ a, Within d' a ↔ Within d a ∧ P (x.eval a)) {y : Int} (hy : Poss d w y) : Poss d' w y := by
  obtain ⟨a, ha⟩ := exists_within hd'
  obtain ⟨ha1, ha2⟩ := (h a).1 ha
  obtain ⟨b, hb, rfl⟩ := hy
  obtain ⟨c, c1, c2, c3⟩ := move hap hw ha1 hb
  refine ⟨c, (h c).2 ⟨c1, ?_⟩, c2⟩
  rcases c3 x hx with e | e
  · exact absurd e.symm hne
  · rw [e]; exact ha2

section
variable {J : Job}

/-- What holds before each round of the loop that removes the values; the second half if `K`. -/
def Forbidding (K : Prop) (vars : List VarId) (vals : List Int) (d0 : Doms) (xs : List VarId) (d : Doms) : Prop :=
  (∀ x ∈ xs, x ∈ vars) ∧ (∀ a, Within d a → Within d0 a) ∧ (K → ∀ x ∈ vars, Cannot d vals x ∨ Must d0 vals x ∨ x ∈ xs ∧ ∀ y, Poss d0 x y → Poss d x y)

theorem ver_forbid {K : Prop} {d0 : Doms} (ho : J.R .overflow) (hv : ∀ x ∈ vars, x.Valid J.n) (hvals : ∀ y ∈ vals, InI64 y) (hs : ∀ a, Within d a → J.C a → ∀ x ∈ vars, ¬ Must d0 vals x → x.eval a ∉ vals)
    (hK : K → Apart vars) {x : VarId} {xs : List VarId} (hd : DomsOK d) (hl : d.length = J.n) (h : Forbidding K vars vals d0 (x :: xs) d) :
    (forbid (σ := σ) (μ := μ) vals x).Ver J (fun _ => False) (fun _ d' => Forbidding K vars vals d0 xs d') d := by
  obtain ⟨hm, hsub, hinv⟩ := h
  have hx := hm x (by simp)
  have hm' : ∀ y ∈ xs, y ∈ vars := fun y hy => hm y (List.mem_cons_of_mem _ hy)
  refine ver_ask (f := fun d => do collect (← eachValue d x)) ho ((listed_roo hd (hl ▸ hv x hx)).bind fun g hg => collect_roo hg) fun vs hvs => ?_
  split
  · rename_i hany
    obtain ⟨y, hy, hn⟩ := List.any_eq_true.1 hany
    have hy' := (hvs.2 y).1 hy
    have hn' : y ∉ vals := by simpa using hn
    have hmust : ¬ Must d0 vals x := fun h => by
      obtain ⟨a, ha, rfl⟩ := hy'
      exact hn' (h a (hsub a ha))
    refine ver_mono (fun _ d2 hq => ?_) _ _ (ver_strong hd hl (ver_tells hd hl vals (fun v hv' => .ne (hv x hx) (hvals v hv')) fun v hv' a ha hC => ?_))
    · obtain ⟨hd2, hq⟩ := hq
      refine ⟨hm', fun a ha => hsub a ((hq a).1 ha).1, fun k w hw => ?_⟩
      by_cases e : w = x
      · exact .inl (e ▸ fun a ha h => ((hq a).1 ha).2 _ h rfl)
      · rcases hinv k w hw with h | h | ⟨h1, h2⟩
        · exact .inl fun a ha => h a ((hq a).1 ha).1
        · exact .inr (.inl h)
        · exact .inr (.inr ⟨(List.mem_cons.1 h1).resolve_left e, fun y hy => other (hK k) hx hw e (P := fun z => ∀ v ∈ vals, z ≠ v) hd2 hq (h2 y hy)⟩)
    · rw [Lit.holds_ne]; exact fun e => hs a ha hC x hx hmust (e ▸ hv')
  · rename_i hany
    have hmust : Must d vals x := fun a ha => Classical.byContradiction fun hn => hany (List.any_eq_true.2 ⟨x.eval a, (hvs.2 _).2 (ha.poss x), by simpa using hn⟩)
    refine ⟨hm', hsub, fun k w hw => ?_⟩
    rcases hinv k w hw with h | h | ⟨h1, h2⟩
    · exact .inl h
    · exact .inr (.inl h)
    · rcases List.mem_cons.1 h1 with rfl | h1
      · refine .inr (.inl fun a ha => ?_)
        obtain ⟨b, hb, e⟩ := h2 _ (ha.poss w)
        exact e ▸ hmust b hb
      · exact .inr (.inr ⟨h1, h2⟩)

/-- What holds before each round of the loop that removes the other values. -/
def Demanding (K : Prop) (vars : List VarId) (vals : List Int) (d0 : Doms) (xs : List VarId) (d : Doms) : Prop :=
  (∀ x ∈ xs, x ∈ vars) ∧ (∀ a, Within d a → Within d0 a) ∧ (K → ∀ x ∈ vars, Must d vals x ∨ Cannot d0 vals x ∨ x ∈ xs ∧ ∀ y, Poss d0 x y → Poss d x y)

theorem ver_demand {K : Prop} {d0 : Doms} (ho : J.R .overflow) (hv : ∀ x ∈ vars, x.Valid J.n) (hvals : ∀ y ∈ vals, InI64 y) (hs : ∀ a, Within d a → J.C a → ∀ x ∈ vars, ¬ Cannot d0 vals x → x.eval a ∈ vals)
    (hK : K → Apart vars) {x : VarId} {xs : List VarId} (hd : DomsOK d) (hl : d.length = J.n) (h : Demanding K vars vals d0 (x :: xs) d) :
    (demand (σ := σ) (μ := μ) vals x).Ver J (fun _ => False) (fun _ d' => Demanding K vars vals d0 xs d') d := by
  obtain ⟨hm, hsub, hinv⟩ := h
  have hx := hm x (by simp)
  have hm' : ∀ y ∈ xs, y ∈ vars := fun y hy => hm y (List.mem_cons_of_mem _ hy)
  refine ver_ask (f := fun d => anyOf (inDomain d x ·) vals) ho (anyOf_roo vals fun y hy => inDomain_spec hd (hl ▸ hv x hx) y (hvals y hy)) fun b hb => ?_
  cases b with
  | false =>
    have hcannot : Cannot d vals x := fun a ha hin => by have := hb.2 ⟨_, hin, ha.poss x⟩; cases this
    refine ⟨hm', hsub, fun k w hw => ?_⟩
    rcases hinv k w hw with h | h | ⟨h1, h2⟩
    · exact .inl h
    · exact .inr (.inl h)
    · rcases List.mem_cons.1 h1 with rfl | h1
      · refine .inr (.inl fun a ha hin => ?_)
        obtain ⟨b, hb, e⟩ := h2 _ (ha.poss w)
        exact hcannot b hb (e ▸ hin)
      · exact .inr (.inr ⟨h1, h2⟩)
  | true =>
    have hcan : ¬ Cannot d0 vals x := fun h => by
      obtain ⟨_, h1, a, ha, rfl⟩ := hb.1 rfl
      exact h a (hsub a ha) h1
    refine ver_ask (f := (eachValue · x)) ho (listed_roo hd (hl ▸ hv x hx)) fun g hg => ?_
    refine ver_mono (fun _ d2 hq => ?_) _ _ (ver_strong hd hl (ver_gen (fun ys d' => (∀ y ∈ ys, InI64 y) ∧ (∃ P : Int → Prop, ∀ a, Within d' a ↔ Within d a ∧ P (x.eval a)) ∧
      (g.2 = none → ∀ a, Within d' a → x.eval a ∈ vals ∨ x.eval a ∈ ys)) hd hl (fun e h => hg.2.2 e h ▸ ho) ?_
      ⟨fun y hy => (hg.1 y hy).1, ⟨fun _ => True, by simp⟩, fun e a ha => .inr (hg.2.1 e _ (ha.poss x))⟩))
    · obtain ⟨hd2, ⟨-, ⟨P, hP⟩, hin⟩, e⟩ := hq
      refine ⟨hm', fun a ha => hsub a ((hP a).1 ha).1, fun k w hw => ?_⟩
      by_cases e' : w = x
      · exact .inl (e' ▸ fun a ha => (hin e a ha).resolve_right (by simp))
      · rcases hinv k w hw with h | h | ⟨h1, h2⟩
        · exact .inl fun a ha => h a ((hP a).1 ha).1
        · exact .inr (.inl h)
        · exact .inr (.inr ⟨(List.mem_cons.1 h1).resolve_left e', fun y hy => other (hK k) hx hw e' hd2 hP (h2 y hy)⟩)
    · rintro v ys d1 hd1 hl1 ⟨hI, ⟨P, hP⟩, hin⟩
      have hI' : ∀ y ∈ ys, InI64 y := fun y hy => hI y (List.mem_cons_of_mem _ hy)
      split
      · rename_i hv'
        refine ⟨hI', ⟨P, hP⟩, fun e a ha => ?_⟩
        rcases hin e a ha with h | h
        · exact .inl h
        · rcases List.mem_cons.1 h with h | h
          · exact .inl (h ▸ hv')
          · exact .inr h
      · rename_i hv'
        refine ver_tell_last (.ne (hv x hx) (hI v (by simp))) (fun a ha hC => ?_) fun d2 _ _ h3 => ⟨hI', ⟨fun z => P z ∧ z ≠ v, fun a => ?_⟩, fun e a ha => ?_⟩
        · rw [Lit.holds_ne]; exact fun e => hv' (e ▸ hs a ((hP a).1 ha).1 hC x hx hcan)
        · rw [h3, hP, Lit.holds_ne, and_assoc]
        · obtain ⟨k1, k2⟩ := (h3 a).1 ha
          exact (hin e a k1).imp id fun h => (List.mem_cons.1 h).resolve_left k2

end

/-- No two members are about one variable, and the count is about another one. -/
def Separate (vars : List VarId) (many : VarId) : Prop := Apart vars ∧ ∀ x ∈ vars, ∀ i, many.underlyingIndex = some i → x.underlyingIndex ≠ some i

/-- Restricting the count leaves the values of the members possible. -/
theorem keep {d' : Doms} {x : VarId} (hx : ∀ i, many.underlyingIndex = some i → x.underlyingIndex ≠ some i) {P : Int → Prop} (hd' : DomsOK d') (h : ∀ a, Within d' a ↔ Within d a ∧ P (many.eval a)) {y : Int} (hy : Poss d x y) :
    Poss d' x y := by
  obtain ⟨a, ha⟩ := exists_within hd'
  obtain ⟨ha1, ha2⟩ := (h a).1 ha
  obtain ⟨b, hb, rfl⟩ := hy
  obtain ⟨c, c1, c2, c3⟩ := move (vars := [x, many]) (v := x) (fun v hv w hw i h1 h2 => by
    simp only [List.mem_cons, List.not_mem_nil, or_false] at hv hw
    rcases hv with rfl | rfl <;> rcases hw with rfl | rfl
    · rfl
    · exact absurd h1 (hx i h2)
    · exact absurd h2 (hx i h1)
    · rfl) (by simp) ha1 hb
  refine ⟨c, (h c).2 ⟨c1, ?_⟩, c2⟩
  rcases c3 many (by simp) with e | e
  · rw [e] at hx ha2 ⊢
    have : x.underlyingIndex = none := by
      cases hu : x.underlyingIndex with
      | none => rfl
      | some i => exact absurd hu (hx i hu)
    cases x with
    | const k => exact ha2
    | simple i => cases this
    | view i b k => cases this
  · rw [e]; exact ha2

theorem prop_partial (ho : R .overflow) (hv : ∀ v ∈ vars, v.Valid n) (hm : many.Valid n) (hvals : ∀ y ∈ vals, InI64 y) (hd : DomsOK d) (hl : d.length = n) :
    (prop (σ := σ) (μ := μ) vars vals many).Ver { n, m, R, C := fun a => Within root a ∧ Counted vars vals many a } (fun _ => True)
      (fun ps d' => ((∀ x ∈ vars ++ [many], Known d x) → ∀ a, Within d' a → Counted vars vals many a) ∧ ps ≠ .enableButIdempotent ∧
        (ps = .disableUntilBacktrack → Separate vars many → ∀ a, Within d' a → Counted vars vals many a)) d := by
  subst hl
  refine ver_ask (f := (parts · vals vars)) ho (parts_roo hd hvals vars hv) fun r hr => ?_
  obtain ⟨p1, p2, p3⟩ := hr
  refine ver_lift ho (ofSize_roo r.1) fun no hno => ver_lift ho (ofSize_roo r.2.1) fun yes hyes => ver_lift ho (ofSize_roo r.2.2) fun either hei => ?_
  -- how many solutions can have
  have low : ∀ a, Within d a → r.2.1 ≤ cnt (fun x => x.eval a ∈ vals) vars := fun a ha => p1 ▸ cnt_le vars fun x _ h => h a ha
  have high : ∀ a, Within d a → cnt (fun x => x.eval a ∈ vals) vars ≤ r.2.1 + r.2.2 := fun a ha => p2 ▸ cnt_le vars fun x _ h h' => h' a ha h
  refine ver_tell (.ge hm hyes.2) (fun a ha hC => ?_) fun d1 hd1 hl1 h1 => ?_
  · have hc := hC.2; rw [Counted, count_cnt] at hc
    have := low a ha; have := hyes.1
    rw [Lit.holds_ge]; omega
  refine ver_lift (P := fun b => b = (r.2.1 : Int) + r.2.2 + 1 ∧ InI64 b) ho ((ofSize_roo vars.length).bind fun k hk => (sub_roo hk.2 hno.2).bind fun k' hk' => (add_roo hk'.2 (by decide)).mono fun b hb => ?_) fun bound hb => ?_
  · have := hk.1; have := hk'.1; have := hb.1; have := hno.1
    exact ⟨by omega, hb.2⟩
  refine ver_tell (.lt hm hb.2) (fun a ha hC => ?_) fun d2 hd2 hl2 h2 => ?_
  · have hc := hC.2; rw [Counted, count_cnt] at hc
    have := high a ((h1 a).1 ha).1; have := hb.1
    rw [Lit.holds_lt]; omega
  have hd12 : ∀ a, Within d2 a ↔ Within d a ∧ (yes ≤ many.eval a ∧ many.eval a < bound) := fun a => by rw [h2, h1, Lit.holds_ge, Lit.holds_lt, and_assoc]
  have known : (∀ x ∈ vars ++ [many], Known d x) → ∀ a, Within d2 a → Counted vars vals many a := by
    intro hk a ha
    obtain ⟨k1, k2, k3⟩ := (hd12 a).1 ha
    have e1 : cnt (fun x => x.eval a ∈ vals) vars = cnt (Must d vals) vars := cnt_congr vars fun x hx => ⟨fun h b hb => (hk x (by simp [hx])) b a hb k1 ▸ h, fun h => h a k1⟩
    have e2 : cnt (fun x => x.eval a ∈ vals) vars = cnt (fun x => ¬ Cannot d vals x) vars := cnt_congr vars fun x hx =>
      ⟨fun h h' => h' a k1 h, fun h => Classical.byContradiction fun hn => h fun b hb => (hk x (by simp [hx])) b a hb k1 ▸ hn⟩
    have := hyes.1; have := hb.1
    rw [Counted, count_cnt]; omega
  have simplePost : ∀ d3, (∀ a, Within d3 a → Within d2 a) → ((∀ x ∈ vars ++ [many], Known d x) → ∀ a, Within d3 a → Counted vars vals many a) ∧ PState.enable ≠ .enableButIdempotent ∧
      (PState.enable = .disableUntilBacktrack → Separate vars many → ∀ a, Within d3 a → Counted vars vals many a) := fun d3 h3 => ⟨fun hk a ha => known hk a (h3 a ha), by simp, by simp⟩
  have start : Separate vars many → ∀ x ∈ vars, ∀ y, Poss d x y → Poss d2 x y := fun hsep x hx y hy => keep (hsep.2 x hx) (P := fun z => yes ≤ z ∧ z < bound) hd2 hd12 hy
  refine ver_ask (f := (bounds · many)) ho (bounds_roo hd2 (hl2.symm ▸ hm)) fun b hbb => ?_
  refine ver_lift (P := fun _ => True) ho ((add_roo hbb.2.1 (by decide)).bind fun _ _ => .pure trivial) fun _ _ => ?_
  obtain ⟨a0, ha0⟩ := exists_within hd2
  have lo0 := hbb.1.2.1
  have hi0 := hbb.2.2.1
  have lo1 : yes ≤ b.1 := by obtain ⟨a, ha, e⟩ := lo0; have := ((hd12 a).1 ha).2.1; omega
  have hi1 : b.2 < bound := by obtain ⟨a, ha, e⟩ := hi0; have := ((hd12 a).1 ha).2.2; omega
  have lohi : b.1 ≤ b.2 := by have := hbb.1.2.le ha0; have := hbb.2.2.ge ha0; omega
  split
  · rename_i e
    rw [if_neg (show ¬ b.1 ≠ b.2 by omega)]
    have fixed : ∀ a, Within d2 a → many.eval a = r.2.1 := fun a ha => by have := hbb.1.2.le ha; have := hbb.2.2.ge ha; have := hyes.1; omega
    refine ver_seq (S := fun _ => False) hd2 hl2 (fun _ h => h) (ver_forEach (J := { n := d.length, m, R, C := fun a => Within root a ∧ Counted vars vals many a })
      (fun xs d' => Forbidding (Separate vars many) vars vals d xs d' ∧ ∀ a, Within d' a → Within d2 a) ?_ vars d2 hd2 hl2
      ⟨⟨fun _ h => h, fun a ha => ((hd12 a).1 ha).1, fun hsep x hx => .inr (.inr ⟨hx, start hsep x hx⟩)⟩, fun _ h => h⟩) fun _ d3 _ _ h3 hq => ⟨fun hk a ha => known hk a (h3 a ha), by simp, fun _ hsep a ha => ?_⟩
    · rintro x xs d3 hd3 hl3 ⟨hq, h3⟩
      refine ver_within hd3 hl3 h3 (ver_forbid ho hv hvals (fun a ha hC w hw hnm hin => ?_) (fun h => h.1) hd3 hl3 hq)
      have hc := hC.2; rw [Counted, count_cnt, fixed a (h3 a ha), p1] at hc
      have := cnt_lt (P := Must d vals) (Q := fun x => x.eval a ∈ vals) vars (fun x _ h => h a (hq.2.1 a ha)) ⟨w, hw, hin, hnm⟩
      omega
    · have hq' := hq.1.2.2 hsep
      rw [Counted, count_cnt, fixed a (h3 a ha), p1]
      congr 1
      refine cnt_congr vars fun x hx => ⟨fun h => h a (hq.1.2.1 a ha), fun h => ?_⟩
      rcases hq' x hx with k | k | k
      · exact absurd h (k a ha)
      · exact k
      · exact absurd k.1 (by simp)
  · refine ver_lift ho (add_roo hyes.2 hei.2) fun most hmost => ?_
    split
    · rename_i e
      have e1 := hyes.1; have e2 := hei.1; have e3 := hmost.1; have e4 := hb.1
      rw [if_neg (show ¬ b.1 ≠ b.2 by omega)]
      split
      · have fixed : ∀ a, Within d2 a → many.eval a = (r.2.1 + r.2.2 : Nat) := fun a ha => by have := hbb.1.2.le ha; have := hbb.2.2.ge ha; omega
        refine ver_seq (S := fun _ => False) hd2 hl2 (fun _ h => h) (ver_forEach (J := { n := d.length, m, R, C := fun a => Within root a ∧ Counted vars vals many a })
          (fun xs d' => Demanding (Separate vars many) vars vals d xs d' ∧ ∀ a, Within d' a → Within d2 a) ?_ vars d2 hd2 hl2
          ⟨⟨fun _ h => h, fun a ha => ((hd12 a).1 ha).1, fun hsep x hx => .inr (.inr ⟨hx, start hsep x hx⟩)⟩, fun _ h => h⟩) fun _ d3 _ _ h3 hq => ⟨fun hk a ha => known hk a (h3 a ha), by simp, fun _ hsep a ha => ?_⟩
        · rintro x xs d3 hd3 hl3 ⟨hq, h3⟩
          refine ver_within hd3 hl3 h3 (ver_demand ho hv hvals (fun a ha hC w hw hnc => Classical.byContradiction fun hin => ?_) (fun h => h.1) hd3 hl3 hq)
          have hc := hC.2; rw [Counted, count_cnt, fixed a (h3 a ha), p2] at hc
          have := cnt_lt (P := fun x => x.eval a ∈ vals) (Q := fun x => ¬ Cannot d vals x) vars (fun x _ h h' => h' a (hq.2.1 a ha) h) ⟨w, hw, hnc, hin⟩
          omega
        · have hq' := hq.1.2.2 hsep
          rw [Counted, count_cnt, fixed a (h3 a ha), p2]
          congr 1
          refine cnt_congr vars fun x hx => ⟨fun h => ?_, fun h h' => h' a (hq.1.2.1 a ha) h⟩
          rcases hq' x hx with k | k | k
          · exact k a ha
          · exact absurd k h
          · exact absurd k.1 (by simp)
      · exact simplePost d2 fun _ h => h
    · exact simplePost d2 fun _ h => h

theorem prop_enforces (ho : R .overflow) (hv : ∀ v ∈ vars, v.Valid n) (hm : many.Valid n) (hvals : ∀ y ∈ vals, InI64 y) (hsep : Separate vars many) :
    Enforces n m R root (Counted vars vals many) (vars ++ [many]) (prop (σ := σ) (μ := μ) vars vals many) := fun d hd hl =>
  ver_mono (fun ps d' hq => .intro (fun hk a ha _ => hq.1 hk a ha) (fun h => absurd h hq.2.1) fun h a ha _ => hq.2.2 h hsep a ha) _ _ (prop_partial ho hv hm hvals hd hl)

theorem install_right (ho : R .overflow) (hv : ∀ v ∈ vars, v.Valid n) (hm : many.Valid n) (hvals : ∀ y ∈ vals, InI64 y) (hsep : Separate vars many) :
    (Posted.mk (install (σ := σ) (μ := μ) vars vals many) (Counted vars vals many) (vars ++ [many])).Right n m R root (fun _ => False) :=
  right_one rfl (prop_enforces ho hv hm hvals hsep) (wakes_mem fun x hx => by
    simp only [List.mem_append, List.mem_cons, List.not_mem_nil, or_false] at hx
    rcases hx with h | rfl <;> simp [*]) rfl

end
end Gcs.Among
