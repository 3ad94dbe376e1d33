import Verif.Lemmas.Cons.In
import Verif.Lemmas.Cons.Quiet
import Verif.Lemmas.Cons.Abs
import Verif.Lemmas.Cons.AllDifferentPost
import Verif.Model.Cons.GlobalCardinality

namespace Gcs.GlobalCardinality
open IntervalSet

/-! ## Searching by bisection -/

section
variable {vals : List Int} {x : Int}

theorem bisectFrom_spec (hs : vals.Pairwise (· ≤ ·)) : ∀ (fuel first len : Nat), len ≤ fuel → first + len ≤ vals.length → (∀ i (h : i < vals.length), i < first → vals[i] < x) →
    (∀ i (h : i < vals.length), first + len ≤ i → x ≤ vals[i]) →
    bisectFrom vals x fuel first len ≤ vals.length ∧ (∀ i (h : i < vals.length), i < bisectFrom vals x fuel first len → vals[i] < x) ∧ ∀ i (h : i < vals.length), bisectFrom vals x fuel first len ≤ i → x ≤ vals[i]
  | 0, first, len, h1, h2, h3, h4 => by
    have : len = 0 := by omega
    subst this
    exact ⟨by unfold bisectFrom; omega, h3, h4⟩
  | fuel + 1, first, len, h1, h2, h3, h4 => by
    unfold bisectFrom
    split
    · rename_i e; subst e; exact ⟨by omega, h3, h4⟩
    · rename_i hne
      have hmid : first + len / 2 < vals.length := by omega
      have mono : ∀ i j (hi : i < vals.length) (hj : j < vals.length), i ≤ j → vals[i] ≤ vals[j] := fun i j hi hj hij => by
        rcases Nat.lt_or_ge i j with h | h
        · exact List.pairwise_iff_getElem.1 hs i j hi hj h
        · have : i = j := by omega
          subst this; exact Int.le_refl _
      dsimp only
      rw [List.getD_eq_getElem?_getD, List.getElem?_eq_getElem hmid, Option.getD_some]
      split
      · rename_i hlt
        refine bisectFrom_spec hs fuel _ _ (by omega) (by omega) (fun i h hi => ?_) fun i h hi => h4 i h (by omega)
        have := mono i _ h hmid (by omega)
        omega
      · rename_i hge
        refine bisectFrom_spec hs fuel _ _ (by omega) (by omega) h3 fun i h hi => ?_
        have := mono _ i hmid h hi
        omega

theorem bisect_iff (hs : vals.Pairwise (· ≤ ·)) : bisect vals x = true ↔ x ∈ vals := by
  obtain ⟨h1, h2, h3⟩ := bisectFrom_spec (x := x) hs vals.length 0 vals.length (Nat.le_refl _) (by omega) (fun i h hi => by omega) fun i h hi => by omega
  change lowerIndex vals x ≤ _ at h1
  change ∀ i (h : i < vals.length), i < lowerIndex vals x → _ at h2
  change ∀ i (h : i < vals.length), lowerIndex vals x ≤ i → _ at h3
  unfold bisect
  constructor
  · intro h
    cases e : vals[lowerIndex vals x]? with
    | none => rw [e] at h; cases h
    | some y =>
      rw [e] at h
      obtain ⟨hl, hy⟩ := List.getElem?_eq_some_iff.1 e
      have := h3 _ hl (Nat.le_refl _)
      have : ¬ x < y := by simpa using h
      have : x = y := by omega
      exact this ▸ hy ▸ List.getElem_mem hl
  · intro h
    obtain ⟨i, hi, e⟩ := List.getElem_of_mem h
    have hli : lowerIndex vals x ≤ i := Classical.byContradiction fun hn => by have := h2 i hi (by omega); omega
    have hl : lowerIndex vals x < vals.length := by omega
    rw [List.getElem?_eq_getElem hl]
    have : vals[lowerIndex vals x] ≤ vals[i] := by
      rcases Nat.lt_or_ge (lowerIndex vals x) i with h | h
      · exact List.pairwise_iff_getElem.1 hs _ _ hl hi h
      · have : lowerIndex vals x = i := by omega
        simp only [this]; exact Int.le_refl _
    simp only [decide_eq_true_eq]
    omega

end

/-! ## Counting -/

/-- The constraint: each count is how often its value is taken. -/
def Tally (vars : List VarId) (cover : List (Int × VarId)) (a : Asg) : Prop := ∀ p ∈ cover, p.2.eval a = cnt (fun x => x.eval a = p.1) vars

/-- The sum of some counts. -/
def total (hall : List (Int × VarId)) (a : Asg) : Int := (hall.map (·.2.eval a)).sum

theorem cnt_or {α : Type} {P Q : α → Prop} (h : ∀ x, ¬ (P x ∧ Q x)) : ∀ xs : List α, cnt (fun x => P x ∨ Q x) xs = cnt P xs + cnt Q xs
  | [] => by simp [cnt_nil]
  | x :: xs => by
    have ih := cnt_or h xs
    by_cases hp : P x
    · rw [cnt_pos (P := fun x => P x ∨ Q x) (.inl hp), cnt_pos hp, cnt_neg (P := Q) (fun hq => h x ⟨hp, hq⟩)]; omega
    · by_cases hq : Q x
      · rw [cnt_pos (P := fun x => P x ∨ Q x) (.inr hq), cnt_neg hp, cnt_pos hq]; omega
      · rw [cnt_neg (P := fun x => P x ∨ Q x) (by simp [hp, hq]), cnt_neg hp, cnt_neg hq]; omega

theorem cnt_false {α : Type} : ∀ xs : List α, cnt (fun _ => False) xs = 0
  | [] => cnt_nil
  | x :: xs => by rw [cnt_neg (P := fun _ => False) (fun h => h), cnt_false xs]

/-- Different values are taken by different variables. -/
theorem total_eq {vars : List VarId} {a : Asg} : ∀ hall : List (Int × VarId), (hall.map (·.1)).Nodup → Tally vars hall a → total hall a = cnt (fun x => x.eval a ∈ hall.map (·.1)) vars
  | [], _, _ => by simp [total, cnt_false]
  | p :: hall, hn, h => by
    rw [List.map_cons, List.nodup_cons] at hn
    have ih := total_eq hall hn.2 fun q hq => h q (List.mem_cons_of_mem _ hq)
    have e : cnt (fun x => x.eval a ∈ (p :: hall).map (·.1)) vars = cnt (fun x => x.eval a = p.1 ∨ x.eval a ∈ hall.map (·.1)) vars := cnt_congr vars fun x _ => by rw [List.map_cons, List.mem_cons]
    rw [e, cnt_or (P := fun x : VarId => x.eval a = p.1) (Q := fun x : VarId => x.eval a ∈ hall.map (·.1)) fun x hx => hn.1 (hx.1 ▸ hx.2)]
    unfold total at ih ⊢
    rw [List.map_cons, List.sum_cons, ih, h p (by simp)]
    omega

theorem total_snoc (hall : List (Int × VarId)) (p : Int × VarId) (a : Asg) : total (hall ++ [p]) a = total hall a + p.2.eval a := by
  simp [total]

/-- `cap` is at least the sum of the counts, whatever one of them is replaced by. -/
def Upper (d : Doms) (hall : List (Int × VarId)) (cap : Int) : Prop :=
  ∀ a, Within d a → total hall a ≤ cap ∧ ∀ b, Within d b → ∀ p ∈ hall, total hall a - p.2.eval a + p.2.eval b ≤ cap

/-- `demand` is at most that. -/
def Lower (d : Doms) (hall : List (Int × VarId)) (demand : Int) : Prop :=
  ∀ a, Within d a → demand ≤ total hall a ∧ ∀ b, Within d b → ∀ p ∈ hall, demand ≤ total hall a - p.2.eval a + p.2.eval b

section
variable {d d' : Doms} {hall : List (Int × VarId)} {cap : Int}

theorem Upper.mono (h : Upper d hall cap) (hs : ∀ a, Within d' a → Within d a) : Upper d' hall cap := fun a ha => ⟨(h a (hs a ha)).1, fun b hb => (h a (hs a ha)).2 b (hs b hb)⟩
theorem Lower.mono (h : Lower d hall cap) (hs : ∀ a, Within d' a → Within d a) : Lower d' hall cap := fun a ha => ⟨(h a (hs a ha)).1, fun b hb => (h a (hs a ha)).2 b (hs b hb)⟩

theorem Upper.snoc (h : Upper d hall cap) {p : Int × VarId} {u : Int} (hu : ∀ a, Within d a → p.2.eval a ≤ u) : Upper d (hall ++ [p]) (cap + u) := by
  intro a ha
  have h1 := (h a ha).1; have h2 := hu a ha
  rw [total_snoc]
  refine ⟨by omega, fun b hb q hq => ?_⟩
  rcases List.mem_append.1 hq with hq | hq
  · have := (h a ha).2 b hb q hq; omega
  · rw [List.mem_singleton.1 hq]; have := hu b hb; omega

theorem Lower.snoc (h : Lower d hall cap) {p : Int × VarId} {u : Int} (hu : ∀ a, Within d a → u ≤ p.2.eval a) : Lower d (hall ++ [p]) (cap + u) := by
  intro a ha
  have h1 := (h a ha).1; have h2 := hu a ha
  rw [total_snoc]
  refine ⟨by omega, fun b hb q hq => ?_⟩
  rcases List.mem_append.1 hq with hq | hq
  · have := (h a ha).2 b hb q hq; omega
  · rw [List.mem_singleton.1 hq]; have := hu b hb; omega

theorem Upper.nil : Upper d [] 0 := fun a _ => ⟨by simp [total], by simp⟩
theorem Lower.nil : Lower d [] 0 := fun a _ => ⟨by simp [total], by simp⟩

end

/-! ## Looking at the domains -/

/-- `x` can only have values in the list. -/
def Confined (d : Doms) (hall : List Int) (x : VarId) : Prop := ∀ a, Within d a → x.eval a ∈ hall
/-- `x` can have a value in the list. -/
def Potential (d : Doms) (hall : List Int) (x : VarId) : Prop := ∃ a, Within d a ∧ x.eval a ∈ hall

section
variable {d : Doms} {hall : List Int} {x : VarId} {v : Int}

theorem keepIf_roo {α : Type} {p : α → Chk Bool} {P : α → Prop} : ∀ xs : List α, (∀ x ∈ xs, RightOrOverflow (p x) (fun b => b = true ↔ P x)) →
    RightOrOverflow (keepIf p xs) (fun ys => ys.length = cnt P xs ∧ ∀ x, x ∈ ys ↔ x ∈ xs ∧ P x)
  | [], _ => .pure ⟨by simp [cnt_nil], by simp⟩
  | x :: xs, h => by
    refine (h x (by simp)).bind fun b hb => (keepIf_roo xs fun y hy => h y (List.mem_cons_of_mem _ hy)).bind fun ys hys => .pure ?_
    cases b with
    | true =>
      have hp := hb.1 rfl
      refine ⟨by simp [cnt_pos hp, hys.1], fun y => ?_⟩
      simp only [if_true, List.mem_cons, hys.2]
      constructor
      · rintro (rfl | h)
        · exact ⟨.inl rfl, hp⟩
        · exact ⟨.inr h.1, h.2⟩
      · rintro ⟨rfl | h, k⟩
        · exact .inl rfl
        · exact .inr ⟨h, k⟩
    | false =>
      have hp : ¬ P x := fun h => by have := hb.2 h; cases this
      refine ⟨by simp [cnt_neg hp, hys.1], fun y => ?_⟩
      simp only [Bool.false_eq_true, if_false, List.mem_cons, hys.2]
      constructor
      · exact fun h => ⟨.inr h.1, h.2⟩
      · rintro ⟨rfl | h, k⟩
        · exact absurd k hp
        · exact ⟨h, k⟩

theorem single_roo' (hd : DomsOK d) (hv : x.Valid d.length) : RightOrOverflow (hasSingleValue d x) (fun b => b = true ↔ ∃ y, Pinned d x y) := by
  obtain ⟨b, h1, h2⟩ := hasSingleValue_spec hd hv
  exact .inr ⟨b, h1, h2.trans ⟨fun ⟨y, hy⟩ => ⟨y, (pinned_iff hd y).1 hy⟩, fun ⟨y, hy⟩ => ⟨y, (pinned_iff hd y).2 hy⟩⟩⟩

theorem poss_pinned (hp : Poss d x v) {y : Int} (h : Pinned d x y) : y = v := by
  obtain ⟨a, ha, rfl⟩ := hp; exact (h a ha).symm

theorem pinned_poss (hd : DomsOK d) (h : Pinned d x v) : Poss d x v := by
  obtain ⟨a, ha⟩ := exists_within hd
  exact ⟨a, ha, h a ha⟩

theorem mustCan_roo (hd : DomsOK d) (hI : InI64 v) : ∀ (xs : List VarId) (p q : Int), InI64 p → InI64 q → (∀ x ∈ xs, x.Valid d.length) →
    RightOrOverflow (mustCan d v p q xs) (fun r => (r.1 = p + cnt (Pinned d · v) xs ∧ InI64 r.1) ∧ r.2 = q + cnt (Poss d · v) xs ∧ InI64 r.2)
  | [], p, q, hp, hq, _ => .pure ⟨⟨by simp [cnt_nil], hp⟩, by simp [cnt_nil], hq⟩
  | x :: xs, p, q, hp, hq, hv => by
    have hv' : ∀ y ∈ xs, y.Valid d.length := fun y hy => hv y (List.mem_cons_of_mem _ hy)
    refine (inDomain_spec hd (hv x (by simp)) v hI).bind fun b hb => ?_
    cases b with
    | false =>
      have n1 : ¬ Poss d x v := fun h => by have := hb.2 h; cases this
      rw [cnt_neg (P := (Pinned d · v)) fun h => n1 (pinned_poss hd h), cnt_neg (P := (Poss d · v)) n1]
      exact mustCan_roo hd hI xs p q hp hq hv'
    | true =>
      have n1 : Poss d x v := hb.1 rfl
      refine (inc_roo hq).bind fun q' hq' => (single_roo' hd (hv x (by simp))).bind fun c hc => ?_
      cases c with
      | true =>
        obtain ⟨y, hy⟩ := hc.1 rfl
        rw [poss_pinned n1 hy] at hy
        refine (inc_roo hp).bind fun p' hp' => (mustCan_roo hd hI xs p' q' hp'.2 hq'.2 hv').mono fun r hr => ?_
        rw [cnt_pos (P := (Pinned d · v)) hy, cnt_pos (P := (Poss d · v)) n1]
        have := hr.1.1; have := hr.2.1; have := hp'.1; have := hq'.1
        exact ⟨⟨by omega, hr.1.2⟩, by omega, hr.2.2⟩
      | false =>
        refine (mustCan_roo hd hI xs p q' hp hq'.2 hv').mono fun r hr => ?_
        rw [cnt_neg (P := (Pinned d · v)) (fun h => by have := hc.2 ⟨v, h⟩; cases this), cnt_pos (P := (Poss d · v)) n1]
        have := hr.2.1; have := hq'.1
        exact ⟨hr.1, by omega, hr.2.2⟩

theorem open_roo (hd : DomsOK d) (hx : x.Valid d.length) (hI : InI64 v) : RightOrOverflow (open_ d v x) (fun b => b = true ↔ Poss d x v ∧ ¬ Pinned d x v) := by
  refine (inDomain_spec hd hx v hI).bind fun b hb => ?_
  cases b with
  | false => exact .pure ⟨fun h => (nomatch h), fun h => hb.2 h.1⟩
  | true =>
    have n1 : Poss d x v := hb.1 rfl
    refine (single_roo' hd hx).bind fun c hc => .pure ?_
    cases c with
    | true =>
      obtain ⟨y, hy⟩ := hc.1 rfl
      have := poss_pinned n1 hy; subst this
      exact ⟨fun h => (nomatch h), fun h => absurd hy h.2⟩
    | false => exact ⟨fun _ => ⟨n1, fun h => by have := hc.2 ⟨v, h⟩; cases this⟩, fun _ => rfl⟩

theorem subset_roo (hd : DomsOK d) (hx : x.Valid d.length) (hs : hall.Pairwise (· ≤ ·)) : RightOrOverflow (subset hall d x) (fun b => b = true ↔ Confined d hall x) := by
  refine (listed_roo hd hx).bind fun g hg => (anyOfGen_roo (P := (· ∉ hall)) hg fun y _ _ => .pure ?_).bind fun b hb => .pure ?_
  · rw [← bisect_iff hs]; simp
  have key : b = true ↔ ¬ Confined d hall x := by
    rw [hb]
    constructor
    · rintro ⟨y, ⟨a, ha, rfl⟩, hy⟩ h; exact hy (h a ha)
    · intro h
      refine Classical.byContradiction fun hn => h fun a ha => Classical.byContradiction fun hm => hn ⟨_, ha.poss x, hm⟩
  cases b with
  | true => exact ⟨fun h => (nomatch h), fun h => absurd h (key.1 rfl)⟩
  | false => exact ⟨fun _ => Classical.byContradiction fun h => (nomatch key.2 h), fun _ => rfl⟩

theorem meets_roo (hd : DomsOK d) (hx : x.Valid d.length) (hI : ∀ y ∈ hall, InI64 y) : RightOrOverflow (meets hall d x) (fun b => b = true ↔ Potential d hall x) := by
  refine (anyOf_roo hall fun y hy => inDomain_spec hd hx y (hI y hy)).mono fun b hb => hb.trans ⟨?_, ?_⟩
  · rintro ⟨y, hy, a, ha, rfl⟩; exact ⟨a, ha, hy⟩
  · rintro ⟨a, ha, hy⟩; exact ⟨_, hy, ha.poss x⟩

end

theorem le_roo {v : VarId} {k : Int} (hk : InI64 k) : RightOrOverflow (Cond.le v k) (fun c => c = Cond.lt v (k + 1) ∧ InI64 (k + 1)) :=
  (add_roo hk (by decide)).bind fun k' hk' => .pure ⟨by rw [hk'.1]; rfl, hk'.1 ▸ hk'.2⟩

/-! ## The bounds consistent propagator -/

section
variable {σ μ : Type} {J : Job} {d : Doms} {vars : List VarId} {cover hall : List (Int × VarId)} {p : Int × VarId}

/-- Inferring something that holds of all solutions, or not. -/
theorem ver_maybe {c : Prop} [Decidable c] {l : Lit} {β : Type} {T : β → Prop} {Q : β → Doms → Prop} {k : Unit → Prog σ μ β} (hd : DomsOK d) (hl : d.length = J.n) (hv : l.Valid J.n) (hs : c → ∀ a, Within d a → J.C a → l.holds a)
    (hk : ∀ d', DomsOK d' → d'.length = J.n → (∀ a, Within d' a → Within d a) → (c → ∀ a, Within d' a → l.holds a) → (k ()).Ver J T Q d') : ((Prog.onlyIf c (Prog.tell l)).bind k).Ver J T Q d := by
  by_cases h : c
  · rw [Prog.onlyIf, if_pos h]
    exact ver_tell hv (hs h) fun d' h1 h2 h3 => hk d' h1 h2 (fun a ha => ((h3 a).1 ha).1) fun _ a ha => ((h3 a).1 ha).2
  · rw [Prog.onlyIf, if_neg h]
    exact hk d hd hl (fun _ h => h) fun h' => absurd h' h

theorem ver_countBounds (ho : J.R .overflow) (hv : ∀ x ∈ vars, x.Valid J.n) (hp : p.2.Valid J.n) (hI : InI64 p.1)
    (hC : ∀ a, Within d a → J.C a → p.2.eval a = cnt (fun x => x.eval a = p.1) vars) (hd : DomsOK d) (hl : d.length = J.n) :
    (countBounds (σ := σ) (μ := μ) vars p).Ver J (fun _ => False) (fun r d' => (r.1.1 = (cnt (Pinned d · p.1) vars : Int) ∧ r.1.2 = (cnt (Poss d · p.1) vars : Int)) ∧
      (∀ a, Within d a → r.2.1 ≤ p.2.eval a ∧ p.2.eval a ≤ r.2.2) ∧ ∀ a, Within d' a → (cnt (Pinned d · p.1) vars : Int) ≤ p.2.eval a ∧ p.2.eval a ≤ cnt (Poss d · p.1) vars) d := by
  refine ver_ask (f := (mustCan · p.1 0 0 vars)) ho (mustCan_roo hd hI vars 0 0 (by decide) (by decide) (hl ▸ hv)) fun r hr => ?_
  obtain ⟨⟨r1, i1⟩, r2, i2⟩ := hr
  have low : ∀ a, Within d a → cnt (Pinned d · p.1) vars ≤ cnt (fun x => x.eval a = p.1) vars := fun a ha => cnt_le vars fun x _ h => h a ha
  have high : ∀ a, Within d a → cnt (fun x => x.eval a = p.1) vars ≤ cnt (Poss d · p.1) vars := fun a ha => cnt_le vars fun x _ h => ⟨a, ha, h⟩
  refine ver_ask (f := (bounds · p.2)) ho (bounds_roo hd (hl ▸ hp)) fun b hb => ?_
  have hb1 : ∀ a, Within d a → b.1 ≤ p.2.eval a ∧ p.2.eval a ≤ b.2 := fun a ha => ⟨hb.1.2.le ha, hb.2.2.ge ha⟩
  refine ver_maybe hd hl (.ge hp i1) (fun _ a ha hc => ?_) fun d1 hd1 hl1 s1 h1 => ?_
  · have := hC a ha hc; have := low a ha
    rw [Lit.holds_ge]; omega
  have fin : ∀ d2, (∀ a, Within d2 a → Within d1 a) → (r.2 < b.2 → ∀ a, Within d2 a → p.2.eval a ≤ r.2) → (r.1 = (cnt (Pinned d · p.1) vars : Int) ∧ r.2 = (cnt (Poss d · p.1) vars : Int)) ∧
      (∀ a, Within d a → b.1 ≤ p.2.eval a ∧ p.2.eval a ≤ b.2) ∧ ∀ a, Within d2 a → (cnt (Pinned d · p.1) vars : Int) ≤ p.2.eval a ∧ p.2.eval a ≤ cnt (Poss d · p.1) vars := by
    refine fun d2 s2 h2 => ⟨⟨by omega, by omega⟩, hb1, fun a ha => ?_⟩
    have hh := hb1 a (s1 a (s2 a ha))
    constructor
    · by_cases h : r.1 > b.1
      · have := h1 h a (s2 a ha); rw [Lit.holds_ge] at this; omega
      · omega
    · by_cases h : r.2 < b.2
      · have := h2 h a ha; omega
      · omega
  refine ver_seq (S := fun _ => False) (Q' := fun _ d2 => r.2 < b.2 → ∀ a, Within d2 a → p.2.eval a ≤ r.2) hd1 hl1 (fun _ h => h) (ver_onlyIf (fun _ => ?_) fun h h' => absurd h' h) fun _ d2 _ _ s2 h2 => fin d2 s2 h2
  refine ver_lift ho (le_roo i2) fun c hc => ?_
  obtain ⟨rfl, hk⟩ := hc
  refine ver_tell_last (.lt hp hk) (fun a ha hc => ?_) fun d2 _ _ h2 _ a ha => ?_
  · have := hC a (s1 a ha) hc; have := high a (s1 a ha)
    rw [Lit.holds_lt]; omega
  · have := ((h2 a).1 ha).2; rw [Lit.holds_lt] at this; omega

/-- A loop that loses no solutions, whatever it does. -/
theorem ver_loop {α : Type} {f : α → Prog σ μ Unit} (xs : List α) (hd : DomsOK d) (hl : d.length = J.n)
    (step : ∀ x ∈ xs, ∀ d', DomsOK d' → d'.length = J.n → (∀ a, Within d' a → Within d a) → (f x).Ver J (fun _ => False) (fun _ _ => True) d') :
    (Prog.forEach f xs).Ver J (fun _ => False) (fun _ _ => True) d := by
  refine ver_mono (fun _ _ _ => trivial) _ _ (ver_forEach (fun ys d' => (∀ y ∈ ys, y ∈ xs) ∧ ∀ a, Within d' a → Within d a) (fun x ys d' h1 h2 h3 => ?_) xs d hd hl ⟨fun _ h => h, fun _ h => h⟩)
  exact ver_mono (fun _ _ hq => ⟨fun y hy => h3.1 y (List.mem_cons_of_mem _ hy), hq.2⟩) _ _ (ver_within h1 h2 h3.2 (step x (h3.1 x (by simp)) d' h1 h2 h3.2))

/-- Removing some values of a variable that no solution has. -/
theorem ver_remove {c : Int → Prop} [DecidablePred c] {x : VarId} (ho : J.R .overflow) (hx : x.Valid J.n) (hd : DomsOK d) (hl : d.length = J.n) (hs : ∀ a, Within d a → J.C a → ¬ c (x.eval a)) :
    (Prog.bind (Prog.ask (eachValue · x)) fun g => Prog.forGen (fun w => Prog.onlyIf (c w) (Prog.tell (.cond (Cond.ne x w)))) g : Prog σ μ Unit).Ver J (fun _ => False) (fun _ _ => True) d := by
  refine ver_ask (f := (eachValue · x)) ho (listed_roo hd (hl ▸ hx)) fun g hg => ?_
  refine ver_forGen hd hl (fun e h => hg.2.2 e h ▸ ho) (ver_loop _ hd hl fun w hw d' h1 h2 h3 => ver_onlyIf (fun h => ?_) fun _ => trivial)
  exact ver_tell_last (.ne hx (hg.1 w hw).1) (fun a ha hC => by rw [Lit.holds_ne]; exact fun e => hs a (h3 a ha) hC (e ▸ h)) fun _ _ _ _ => trivial

theorem ver_perValue (ho : J.R .overflow) (hv : ∀ x ∈ vars, x.Valid J.n) (hp : p.2.Valid J.n) (hI : InI64 p.1) (hC : ∀ a, Within d a → J.C a → p.2.eval a = cnt (fun x => x.eval a = p.1) vars) (hd : DomsOK d) (hl : d.length = J.n) :
    (perValue (σ := σ) (μ := μ) vars p).Ver J (fun _ => False) (fun _ d' => (∀ x ∈ vars, Known d x) → ∀ a, Within d' a → p.2.eval a = cnt (fun x => x.eval a = p.1) vars) d := by
  refine ver_seq (S := fun _ => False) hd hl (fun _ h => h) (ver_countBounds ho hv hp hI hC hd hl) fun r d1 hd1 hl1 s1 hr => ?_
  obtain ⟨⟨r1, r2⟩, hb, hc⟩ := hr
  have fin : ∀ d2, (∀ a, Within d2 a → Within d1 a) → (∀ x ∈ vars, Known d x) → ∀ a, Within d2 a → p.2.eval a = cnt (fun x => x.eval a = p.1) vars := by
    intro d2 s2 hk a ha
    have hc' := hc a (s2 a ha)
    have hw := s1 a (s2 a ha)
    rw [cnt_congr (Q := fun x => x.eval a = p.1) vars fun x hx => ⟨fun h => h a hw, fun h => h ▸ (hk x hx).pinned hw⟩,
      cnt_congr (P := (Poss d · p.1)) (Q := fun x => x.eval a = p.1) vars fun x hx => ⟨fun h => (hk x hx).poss hw h, fun h => ⟨a, hw, h⟩⟩] at hc'
    omega
  refine ver_seq (S := fun _ => False) (Q' := fun _ _ => True) hd1 hl1 (fun _ h => h) (ver_onlyIf (fun e => ver_loop _ hd1 hl1 fun x hx d2 hd2 hl2 s2 => ?_) fun _ => trivial) fun _ d2 hd2 hl2 s2 _ => ?_
  · refine ver_ask (f := (open_ · p.1 x)) ho (open_roo hd2 (hl2 ▸ hv x hx) hI) fun b hbb => ver_onlyIf (fun e' => ?_) fun _ => trivial
    refine ver_tell_last (.ne (hv x hx) hI) (fun a ha hc => ?_) fun _ _ _ _ => trivial
    rw [Lit.holds_ne]; intro e2
    have hw := s1 a (s2 a ha)
    have h1 := hC a hw hc; have h2 := hb a hw
    have := cnt_lt (P := (Pinned d · p.1)) (Q := fun x => x.eval a = p.1) vars (fun x _ h => h a hw) ⟨x, hx, e2, fun h => (hbb.1 e').2 fun b hb => h b (s1 b (s2 b hb))⟩
    omega
  · refine ver_mono (fun _ d3 hq => fin d3 fun a ha => s2 a (hq.2 a ha)) _ _ (ver_within hd2 hl2 (fun _ h => h) (ver_onlyIf (Q := fun _ _ => True) (fun e => ver_loop _ hd2 hl2 fun x hx d3 hd3 hl3 s3 => ?_) fun _ => trivial))
    refine ver_ask (f := (open_ · p.1 x)) ho (open_roo hd3 (hl3 ▸ hv x hx) hI) fun b hbb => ver_onlyIf (fun e' => ?_) fun _ => trivial
    refine ver_remove ho (hv x hx) hd3 hl3 fun a ha hc hne => ?_
    have sub : ∀ b, Within d3 b → Within d b := fun b hb => s1 b (s2 b (s3 b hb))
    have hw := sub a ha
    have h1 := hC a hw hc; have h2 := hb a hw
    obtain ⟨b0, hb0, eb⟩ := (hbb.1 e').1
    have := cnt_lt (P := fun x => x.eval a = p.1) (Q := (Poss d · p.1)) vars (fun x _ h => ⟨a, hw, h⟩) ⟨x, hx, ⟨b0, sub b0 hb0, eb⟩, hne⟩
    omega

/-- Between how many variables take one of the values. -/
def Between (J : Job) (d : Doms) (hall : List (Int × VarId)) (nc np : Int) : Prop := ∀ a, Within d a → J.C a → nc ≤ total hall a ∧ total hall a ≤ np

theorem ver_tighten {cap demand nc np : Int} (ho : J.R .overflow) (hp : p.2.Valid J.n) (hm : p ∈ hall) (hi1 : InI64 cap) (hi2 : InI64 demand) (hi3 : InI64 nc) (hi4 : InI64 np) (hu : Upper d hall cap) (hlo : Lower d hall demand)
    (key : Between J d hall nc np) (hd : DomsOK d) (hl : d.length = J.n) : (tighten (σ := σ) (μ := μ) nc np cap demand p).Ver J (fun _ => False) (fun _ _ => True) d := by
  refine ver_ask (f := (bounds · p.2)) ho (bounds_roo hd (hl ▸ hp)) fun b hb => ?_
  obtain ⟨⟨ib1, ⟨b1, hb1, eb1⟩, -⟩, ib2, ⟨b2, hb2, eb2⟩, -⟩ := hb
  refine ver_lift (P := fun r => r = nc - (cap - b.2) ∧ InI64 r) ho ((sub_roo hi1 ib2).bind fun r hr => (sub_roo hi3 hr.2).mono fun s hs => ⟨by rw [hs.1, hr.1], hs.2⟩) fun lower hlow => ?_
  refine ver_maybe hd hl (.ge hp hlow.2) (fun _ a ha hc => ?_) fun d2 hd2 hl2 s2 _ => ?_
  · have := (key a ha hc).1; have := (hu a ha).2 b2 hb2 p hm; have := hlow.1
    rw [Lit.holds_ge]; omega
  refine ver_lift (P := fun r => r = np - (demand - b.1) ∧ InI64 r) ho ((sub_roo hi2 ib1).bind fun r hr => (sub_roo hi4 hr.2).mono fun s hs => ⟨by rw [hs.1, hr.1], hs.2⟩) fun upper hup => ?_
  refine ver_onlyIf (fun _ => ver_lift ho (le_roo hup.2) fun c hc => ?_) fun _ => trivial
  obtain ⟨rfl, hk⟩ := hc
  refine ver_tell_last (.lt hp hk) (fun a ha hc => ?_) fun _ _ _ _ => trivial
  have hw := s2 a ha
  have := (key a hw hc).2; have := (hlo a hw).2 b1 hb1 p hm; have := hup.1
  rw [Lit.holds_lt]; omega

/-- `d0` is what the domains were when the variables were counted. -/
theorem ver_capacity {cap nc : Int} {vals : List Int} {d0 : Doms} (ho : J.R .overflow) (hv : ∀ x ∈ vars, x.Valid J.n) (hsort : vals.Pairwise (· ≤ ·)) (hI : ∀ v ∈ vals, InI64 v) (hnc : nc = cnt (Confined d0 vals) vars)
    (hcap : ∀ a, Within d0 a → J.C a → (cnt (fun x => x.eval a ∈ vals) vars : Int) ≤ cap) (s0 : ∀ a, Within d a → Within d0 a) (hd : DomsOK d) (hl : d.length = J.n) :
    (capacity (σ := σ) (μ := μ) vars vals nc cap).Ver J (fun _ => False) (fun _ _ => True) d := by
  unfold capacity
  split
  · intro a ha hc
    have := hcap a (s0 a ha) hc
    have := cnt_le (P := Confined d0 vals) (Q := fun x => x.eval a ∈ vals) vars fun x _ h => h a (s0 a ha)
    omega
  · refine ver_onlyIf (fun e => ver_loop _ hd hl fun x hx d2 hd2 hl2 s2 => ?_) fun _ => trivial
    refine ver_ask (f := (subset vals · x)) ho (subset_roo hd2 (hl2 ▸ hv x hx) hsort) fun b hb => ver_onlyIf (fun e' => ?_) fun _ => trivial
    have hnc' : ¬ Confined d0 vals x := fun h => by have := hb.2 fun a ha => h a (s0 a (s2 a ha)); rw [e'] at this; cases this
    refine ver_loop _ hd2 hl2 fun v hv' d3 hd3 hl3 s3 => ?_
    refine ver_ask (f := (inDomain · x v)) ho (inDomain_spec hd3 (hl3 ▸ hv x hx) v (hI v hv')) fun b hb => ver_onlyIf (fun _ => ?_) fun _ => trivial
    refine ver_tell_last (.ne (hv x hx) (hI v hv')) (fun a ha hc => ?_) fun _ _ _ _ => trivial
    rw [Lit.holds_ne]; intro e2
    have hw := s0 a (s2 a (s3 a ha))
    have h1 := hcap a hw hc
    have := cnt_lt (P := Confined d0 vals) (Q := fun x => x.eval a ∈ vals) vars (fun x _ h => h a hw) ⟨x, hx, e2 ▸ hv', hnc'⟩
    omega

theorem ver_demands {demand np : Int} {vals : List Int} {ps : List VarId} {d0 : Doms} (ho : J.R .overflow) (hv : ∀ x ∈ vars, x.Valid J.n) (hsort : vals.Pairwise (· ≤ ·)) (hnp : np = cnt (Potential d0 vals) vars)
    (hps : ∀ x ∈ ps, x ∈ vars ∧ Potential d0 vals x) (hdem : ∀ a, Within d0 a → J.C a → demand ≤ (cnt (fun x => x.eval a ∈ vals) vars : Int)) (s0 : ∀ a, Within d a → Within d0 a) (hd : DomsOK d) (hl : d.length = J.n) :
    (demands (σ := σ) (μ := μ) ps vals np demand).Ver J (fun _ => False) (fun _ _ => True) d := by
  unfold demands
  split
  · intro a ha hc
    have := hdem a (s0 a ha) hc
    have := cnt_le (P := fun x => x.eval a ∈ vals) (Q := Potential d0 vals) vars fun x _ h => ⟨a, s0 a ha, h⟩
    omega
  · refine ver_onlyIf (fun e => ver_loop _ hd hl fun x hx d3 hd3 hl3 s3 => ?_) fun _ => trivial
    obtain ⟨hxv, hpot⟩ := hps x hx
    refine ver_remove (c := fun v => bisect vals v = false) ho (hv x hxv) hd3 hl3 fun a ha hc hne => ?_
    have hw := s0 a (s3 a ha)
    have h1 := hdem a hw hc
    have := cnt_lt (P := fun x => x.eval a ∈ vals) (Q := Potential d0 vals) vars (fun x _ h => ⟨a, hw, h⟩) ⟨x, hxv, hpot, fun h => by rw [← bisect_iff hsort, hne] at h; cases h⟩
    omega

theorem ver_interval {cap demand : Int} (ho : J.R .overflow) (hv : ∀ x ∈ vars, x.Valid J.n) (hp : ∀ p ∈ hall, p.2.Valid J.n) (hI : ∀ p ∈ hall, InI64 p.1) (hs : (hall.map (·.1)).Pairwise (· < ·))
    (hC : ∀ a, Within d a → J.C a → Tally vars hall a) (hi1 : InI64 cap) (hi2 : InI64 demand) (hu : Upper d hall cap) (hlo : Lower d hall demand) (hd : DomsOK d) (hl : d.length = J.n) :
    (interval (σ := σ) (μ := μ) vars hall cap demand).Ver J (fun _ => False) (fun _ _ => True) d := by
  have hsort : (hall.map (·.1)).Pairwise (· ≤ ·) := hs.imp fun h => Int.le_of_lt h
  have hnodup : (hall.map (·.1)).Nodup := hs.imp fun h => Int.ne_of_lt h
  have hI' : ∀ v ∈ hall.map (·.1), InI64 v := fun v hv => by obtain ⟨p, hp, rfl⟩ := List.mem_map.1 hv; exact hI p hp
  obtain ⟨vals, hvals⟩ : ∃ vals, vals = hall.map (·.1) := ⟨_, rfl⟩
  unfold interval
  rw [← hvals] at hsort hnodup hI' ⊢
  refine ver_ask (f := fun d => keepIf (subset vals d) vars) ho (keepIf_roo vars fun x hx => subset_roo hd (hl ▸ hv x hx) hsort) fun cs hcs => ?_
  refine ver_ask (f := fun d => keepIf (meets vals d) vars) ho (keepIf_roo vars fun x hx => meets_roo hd (hl ▸ hv x hx) hI') fun ps hps => ?_
  refine ver_lift ho (ofSize_roo cs.length) fun nc hnc => ver_lift ho (ofSize_roo ps.length) fun np hnp => ?_
  have tot : ∀ a, Within d a → J.C a → total hall a = cnt (fun x => x.eval a ∈ vals) vars := fun a ha hc => hvals ▸ total_eq hall (hvals ▸ hnodup) (hC a ha hc)
  have key : Between J d hall nc np := by
    intro a ha hc
    rw [tot a ha hc, hnc.1, hnp.1, hcs.1, hps.1]
    exact ⟨Int.ofNat_le.2 (cnt_le vars fun x _ h => h a ha), Int.ofNat_le.2 (cnt_le vars fun x _ h => ⟨a, ha, h⟩)⟩
  refine ver_seq (S := fun _ => False) hd hl (fun _ h => h) (ver_loop _ hd hl fun p hp' d1 hd1 hl1 s1 => ver_tighten ho (hp p hp') hp' hi1 hi2 hnc.2 hnp.2 (hu.mono s1) (hlo.mono s1) (fun a ha => key a (s1 a ha)) hd1 hl1)
    fun _ d1 hd1 hl1 s1 _ => ?_
  refine ver_seq (S := fun _ => False) hd1 hl1 (fun _ h => h) (ver_capacity ho hv hsort hI' (by rw [hnc.1, hcs.1]) (fun a ha hc => tot a ha hc ▸ (hu a ha).1) s1 hd1 hl1) fun _ d2 hd2 hl2 s2 _ => ?_
  exact ver_demands ho hv hsort (by rw [hnp.1, hps.1]) (fun x hx => (hps.2 x).1 hx) (fun a ha hc => tot a ha hc ▸ (hlo a ha).1) (fun a ha => s1 a (s2 a ha)) hd2 hl2

theorem ver_intervals (ho : J.R .overflow) (hv : ∀ x ∈ vars, x.Valid J.n) : ∀ (rest hall : List (Int × VarId)) (cap demand : Int) (d : Doms), (∀ p ∈ hall ++ rest, p.2.Valid J.n) → (∀ p ∈ hall ++ rest, InI64 p.1) →
    ((hall ++ rest).map (·.1)).Pairwise (· < ·) → (∀ a, Within d a → J.C a → Tally vars (hall ++ rest) a) → InI64 cap → InI64 demand → Upper d hall cap → Lower d hall demand → DomsOK d → d.length = J.n →
    (intervals (σ := σ) (μ := μ) vars hall cap demand rest).Ver J (fun _ => False) (fun _ _ => True) d
  | [], _, _, _, _, _, _, _, _, _, _, _, _, _, _ => trivial
  | p :: rest, hall, cap, demand, d, hp, hI, hs, hC, i1, i2, hu, hlo, hd, hl => by
    have e : hall ++ p :: rest = (hall ++ [p]) ++ rest := by simp
    have mem : ∀ q ∈ hall ++ [p], q ∈ hall ++ p :: rest := fun q hq => e ▸ List.mem_append_left _ hq
    refine ver_ask (f := (bounds · p.2)) ho (bounds_roo hd (hl ▸ hp p (by simp))) fun b hb => ?_
    refine ver_lift ho (add_roo i1 hb.2.1) fun cap' hcap => ver_lift ho (add_roo i2 hb.1.1) fun demand' hdem => ?_
    have hu' : Upper d (hall ++ [p]) cap' := hcap.1 ▸ hu.snoc fun a ha => hb.2.2.ge ha
    have hlo' : Lower d (hall ++ [p]) demand' := hdem.1 ▸ hlo.snoc fun a ha => hb.1.2.le ha
    refine ver_seq (S := fun _ => False) hd hl (fun _ h => h) (ver_interval ho hv (fun q hq => hp q (mem q hq)) (fun q hq => hI q (mem q hq)) ?_ (fun a ha hc q hq => hC a ha hc q (mem q hq)) hcap.2 hdem.2 hu' hlo' hd hl) fun _ d1 hd1 hl1 s1 _ => ?_
    · rw [e, List.map_append] at hs; exact (List.pairwise_append.1 hs).1
    · exact ver_intervals ho hv rest (hall ++ [p]) cap' demand' d1 (e ▸ hp) (e ▸ hI) (e ▸ hs) (fun a ha hc => e ▸ hC a (s1 a ha) hc) hcap.2 hdem.2 (hu'.mono s1) (hlo'.mono s1) hd1 hl1

theorem ver_allIntervals (ho : J.R .overflow) (hv : ∀ x ∈ vars, x.Valid J.n) : ∀ (cover : List (Int × VarId)) (d : Doms), (∀ p ∈ cover, p.2.Valid J.n) → (∀ p ∈ cover, InI64 p.1) →
    (cover.map (·.1)).Pairwise (· < ·) → (∀ a, Within d a → J.C a → Tally vars cover a) → DomsOK d → d.length = J.n → (allIntervals (σ := σ) (μ := μ) vars cover).Ver J (fun _ => False) (fun _ _ => True) d
  | [], _, _, _, _, _, _, _ => trivial
  | p :: rest, d, hp, hI, hs, hC, hd, hl => by
    refine ver_ask (f := (bounds · p.2)) ho (bounds_roo hd (hl ▸ hp p (by simp))) fun b hb => ?_
    refine ver_lift ho (add_roo (by decide : InI64 0) hb.2.1) fun cap' hcap => ver_lift ho (add_roo (by decide : InI64 0) hb.1.1) fun demand' hdem => ?_
    refine ver_seq (S := fun _ => False) hd hl (fun _ h => h) (ver_intervals ho hv rest [p] cap' demand' d hp hI hs hC hcap.2 hdem.2 (hcap.1 ▸ Upper.nil.snoc (hall := []) fun a ha => hb.2.2.ge ha)
      (hdem.1 ▸ Lower.nil.snoc (hall := []) fun a ha => hb.1.2.le ha) hd hl) fun _ d1 hd1 hl1 s1 _ => ?_
    exact ver_allIntervals ho hv rest d1 (fun q hq => hp q (List.mem_cons_of_mem _ hq)) (fun q hq => hI q (List.mem_cons_of_mem _ hq)) (List.pairwise_cons.1 hs).2
      (fun a ha hc q hq => hC a (s1 a ha) hc q (List.mem_cons_of_mem _ hq)) hd1 hl1

end

/-! ## What is posted -/

section
variable {σ μ : Type} {n m : Nat} {R : Err → Prop} {root d : Doms} {vars : List VarId} {cover : List (Int × VarId)}

theorem boundsProp_enforces (ho : R .overflow) (hv : ∀ x ∈ vars, x.Valid n) (hp : ∀ p ∈ cover, p.2.Valid n) (hI : ∀ p ∈ cover, InI64 p.1) (hs : (cover.map (·.1)).Pairwise (· < ·)) :
    Enforces n m R root (Tally vars cover) (vars ++ cover.map (·.2)) (boundsProp (σ := σ) (μ := μ) vars cover) := by
  intro d hd hl
  refine ver_seq (S := fun _ => False) hd hl (fun _ h => h) (ver_forEach (J := { n, m, R, C := fun a => Within root a ∧ Tally vars cover a })
    (fun ps d' => (∀ p ∈ ps, p ∈ cover) ∧ (∀ a, Within d' a → Within d a) ∧ ((∀ x ∈ vars, Known d x) → ∀ a, Within d' a → ∀ p ∈ cover, p ∈ ps ∨ p.2.eval a = cnt (fun x => x.eval a = p.1) vars)) ?_ cover d hd hl
    ⟨fun _ h => h, fun _ h => h, fun _ _ _ p hp => .inl hp⟩) fun _ d1 hd1 hl1 s1 h1 => ?_
  · rintro p ps d1 hd1 hl1 ⟨hm, hsub, hinv⟩
    have hpc := hm p (by simp)
    refine ver_mono (fun _ d2 hq => ⟨fun q hq => hm q (List.mem_cons_of_mem _ hq), fun a ha => hsub a (hq.2 a ha), fun hk a ha q hqc => ?_⟩) _ _
      (ver_within hd1 hl1 (fun _ h => h) (ver_perValue ho hv (hp p hpc) (hI p hpc) (fun a ha hc => hc.2 p hpc) hd1 hl1))
    rcases hinv hk a (hq.2 a ha) q hqc with h | h
    · rcases List.mem_cons.1 h with rfl | h
      · exact .inr (hq.1 (fun x hx => (hk x hx).sub hsub) a ha)
      · exact .inl h
    · exact .inr h
  · refine ver_seq (S := fun _ => False) hd1 hl1 (fun _ h => h) (ver_allIntervals ho hv cover d1 hp hI hs (fun a _ hc => hc.2) hd1 hl1) fun _ d2 _ _ s2 _ => ?_
    refine .intro (fun hk a ha _ p hp => ?_) (fun h => nomatch h) fun h => nomatch h
    exact (h1.2.2 (fun x hx => hk x (by simp [hx])) a (s2 a ha) p hp).resolve_left (by simp)

theorem closedProp_enforces {vals : List Int} (ho : R .overflow) (hv : ∀ x ∈ vars, x.Valid n) : Enforces n m R root (fun a => ∀ x ∈ vars, x.eval a ∈ vals) vars (closedProp (σ := σ) (μ := μ) vars vals) := by
  intro d hd hl
  refine ver_seq (S := fun _ => False) hd hl (fun _ h => h) (ver_forEach (J := { n, m, R, C := fun a => Within root a ∧ ∀ x ∈ vars, x.eval a ∈ vals })
    (fun xs d' => (∀ x ∈ xs, x ∈ vars) ∧ (∀ a, Within d' a → Within d a) ∧ ((∀ x ∈ vars, Known d x) → ∀ a, Within d' a → ∀ x ∈ vars, x ∈ xs ∨ x.eval a ∈ vals)) ?_ vars d hd hl
    ⟨fun _ h => h, fun _ h => h, fun _ _ _ x hx => .inl hx⟩) fun _ d1 hd1 hl1 s1 h1 => ?_
  · rintro x xs d1 hd1 hl1 ⟨hm, hsub, hinv⟩
    have hx := hm x (by simp)
    refine ver_mono (fun _ d2 hq => ⟨fun y hy => hm y (List.mem_cons_of_mem _ hy), fun a ha => hsub a (hq.2 a ha), fun hk a ha y hy => ?_⟩) _ _
      (ver_within hd1 hl1 (fun _ h => h) (ver_weaken (J := { n, m, R, C := fun a => Within root a ∧ InSet.IsIn x [] vals a }) _ _ (fun a _ hc => ⟨hc.1, .inl (hc.2 x hx)⟩)
        (InSet.ver_narrow (root := root) ho (hv x hx) (by simp) hd1 hl1)))
    rcases hinv hk a (hq.2 a ha) y hy with h | h
    · rcases List.mem_cons.1 h with rfl | h
      · exact .inr ((hq.1 (fun z hz => by rw [List.mem_singleton.1 hz]; exact (hk y hy).sub hsub) a ha).resolve_right (by simp))
      · exact .inl h
    · exact .inr h
  · refine .intro (fun hk a ha _ x hx => ?_) (fun h => nomatch h) fun h => nomatch h
    exact (h1.2.2 hk a ha x hx).resolve_left (by simp)

/-- A propagator that enforces a part of the constraint. -/
theorem Enforces.part {C P : Asg → Prop} {xs : List VarId} {f : Prog σ μ PState} {t : Triggers} (h : Enforces n m R root P xs f) (hc : ∀ a, C a → P a) (hw : Wakes t xs) (ht : t.refined = []) :
    Implements n m R root f t C P xs where
  wakes := hw
  refined := by simp [ht]
  ver := fun d h1 h2 => ver_mono (fun _ _ h => h.when) _ _ (ver_weaken (J := { n, m, R, C := fun a => Within root a ∧ P a }) f d (fun a _ hh => ⟨hh.1, hc a hh.2⟩) (h d h1 h2))

theorem pairUp_ok : ∀ (vs : List Int) (cs : List VarId), vs.length ≤ cs.length → pairUp vs cs = .ok (vs.zip cs)
  | [], cs, _ => by simp [pairUp]
  | v :: vs, [], h => by simp at h
  | v :: vs, c :: cs, h => by
    rw [pairUp, pairUp_ok vs cs (by simpa using h)]
    rfl

theorem pairUp_ub : ∀ (vs : List Int) (cs : List VarId), cs.length < vs.length → pairUp vs cs = .error .ub
  | [], cs, h => by simp at h
  | v :: vs, [], _ => rfl
  | v :: vs, c :: cs, h => by
    rw [pairUp, pairUp_ub vs cs (by simpa using h)]
    rfl

theorem insertBy_sorted {α : Type} {le : α → α → Bool} (htr : ∀ a b c, le a b = true → le b c = true → le a c = true) (htot : ∀ a b, le a b = true ∨ le b a = true) (x : α) :
    ∀ ys : List α, ys.Pairwise (fun a b => le a b = true) → (insertBy le x ys).Pairwise (fun a b => le a b = true)
  | [], _ => by simp [insertBy]
  | y :: ys, h => by
    rw [insertBy]
    have h' := List.pairwise_cons.1 h
    split
    · rename_i hxy
      refine List.pairwise_cons.2 ⟨fun z hz => ?_, h⟩
      rcases List.mem_cons.1 hz with rfl | hz
      · exact hxy
      · exact htr _ _ _ hxy (h'.1 z hz)
    · rename_i hxy
      refine List.pairwise_cons.2 ⟨fun z hz => ?_, insertBy_sorted htr htot x ys h'.2⟩
      rcases List.mem_cons.1 ((insertBy_perm le x ys).mem_iff.1 hz) with rfl | hz
      · exact (htot z y).resolve_left hxy
      · exact h'.1 z hz

theorem sortBy_sorted {α : Type} {le : α → α → Bool} (htr : ∀ a b c, le a b = true → le b c = true → le a c = true) (htot : ∀ a b, le a b = true ∨ le b a = true) :
    ∀ xs : List α, (sortBy le xs).Pairwise (fun a b => le a b = true)
  | [] => .nil
  | x :: xs => insertBy_sorted htr htot x _ (sortBy_sorted htr htot xs)

theorem cover_sorted {ps : List (Int × VarId)} (hn : (ps.map (·.1)).Nodup) : ((sortBy (fun p q : Int × VarId => decide (p.1 ≤ q.1)) ps).map (·.1)).Pairwise (· < ·) := by
  have h1 := sortBy_sorted (le := fun p q : Int × VarId => decide (p.1 ≤ q.1)) (fun a b c h1 h2 => by simp only [decide_eq_true_eq] at *; omega) (fun a b => by simp only [decide_eq_true_eq]; omega) ps
  have h2 : ((sortBy (fun p q : Int × VarId => decide (p.1 ≤ q.1)) ps).map (·.1)).Nodup := ((sortBy_perm _ ps).map _).nodup_iff.2 hn
  rw [List.Nodup, List.pairwise_map] at h2
  rw [List.pairwise_map]
  exact (h1.and h2).imp fun h => by have := h.1; have := h.2; simp only [decide_eq_true_eq] at *; omega

theorem tally_perm {ps qs : List (Int × VarId)} (h : ps.Perm qs) (a : Asg) : Tally vars ps a ↔ Tally vars qs a := ⟨fun H p hp => H p (h.mem_iff.2 hp), fun H p hp => H p (h.mem_iff.1 hp)⟩

theorem closed_ok {vals : List Int} {xs : List VarId} {C : Asg → Prop} (ho : R .overflow) (hv : ∀ x ∈ vars, x.Valid n) (hx : ∀ x ∈ vars, x ∈ xs) (closed : Bool) (hc : ∀ a, C a → closed = true → ∀ x ∈ vars, x.eval a ∈ vals) :
    ∃ es : List (Item σ μ × (Asg → Prop)), es.map (·.1) = closedItems vars vals closed ∧ (∀ p ∈ es, p.1.OK n m R root C xs p.2) ∧ ∀ a, Within root a → ((closed = true → ∀ x ∈ vars, x.eval a ∈ vals) ↔ ∀ p ∈ es, p.2 a) := by
  cases closed with
  | false => exact ⟨[], rfl, by simp, by simp⟩
  | true =>
    refine ⟨[(.prop (closedProp vars vals) { onChange := vars }, fun a => ∀ x ∈ vars, x.eval a ∈ vals)], rfl, fun p hp => ?_, by simp⟩
    rw [List.mem_singleton.1 hp]
    exact ⟨vars, hx, Enforces.part (closedProp_enforces ho hv) (fun a h => hc a h rfl) (wakes_mem fun x hx => .inl hx) rfl⟩

theorem install_right {values : List Int} {counts : List VarId} {closed : Bool} (ho : R .overflow) (hv : ∀ x ∈ vars, x.Valid n) (hc : ∀ x ∈ counts, x.Valid n) (hI : ∀ v ∈ values, InI64 v) (hn : values.Nodup)
    (hlen : values.length ≤ counts.length) :
    (Posted.mk (install (σ := σ) (μ := μ) vars values counts closed) (fun a => Tally vars (values.zip counts) a ∧ (closed = true → ∀ x ∈ vars, x.eval a ∈ values)) (vars ++ counts)).Right n m R root (fun _ => False) := by
  have e : install (σ := σ) (μ := μ) vars values counts closed root = .ok (closedItems vars values closed ++
      [.prop (boundsProp vars (sortBy (fun p q : Int × VarId => decide (p.1 ≤ q.1)) (values.zip counts))) { onChange := vars, onBounds := (sortBy (fun p q : Int × VarId => decide (p.1 ≤ q.1)) (values.zip counts)).map (·.2) }]) := by
    rw [install, pairUp_ok _ _ hlen]; rfl
  refine ⟨fun items h => ?_, fun x h => ?_⟩
  · replace h : install vars values counts closed root = _ := h
    rw [e] at h; cases h
    have hperm := sortBy_perm (fun p q : Int × VarId => decide (p.1 ≤ q.1)) (values.zip counts)
    have hfst : ((values.zip counts).map (·.1)) = values := List.map_fst_zip hlen
    obtain ⟨cover, hcov⟩ : ∃ cover, cover = sortBy (fun p q : Int × VarId => decide (p.1 ≤ q.1)) (values.zip counts) := ⟨_, rfl⟩
    have hs := cover_sorted (ps := values.zip counts) (by rw [hfst]; exact hn)
    rw [← hcov] at hperm hs ⊢
    have hmem : ∀ p ∈ cover, p.1 ∈ values ∧ p.2 ∈ counts := fun p hp => List.of_mem_zip (hperm.mem_iff.1 hp)
    refine Posts.append (D1 := fun a => closed = true → ∀ x ∈ vars, x.eval a ∈ values) (D2 := Tally vars cover) (closed_ok ho hv (fun x hx => List.mem_append_left _ hx) closed fun a h => h.2)
      ⟨[(.prop (boundsProp vars cover) { onChange := vars, onBounds := cover.map (·.2) }, Tally vars cover)], rfl, fun p hp => ?_, by simp⟩ fun a _ => ?_
    · rw [List.mem_singleton.1 hp]
      refine ⟨vars ++ cover.map (·.2), fun y hy => ?_, Enforces.part (boundsProp_enforces ho hv (fun p hp => hc _ (hmem p hp).2) (fun p hp => hI _ (hmem p hp).1) hs) (fun a h => (tally_perm hperm a).2 h.1)
        (wakes_mem fun x hx => (List.mem_append.1 hx).imp id .inl) rfl⟩
      rcases List.mem_append.1 hy with h | h
      · exact List.mem_append_left _ h
      · obtain ⟨p, hp, rfl⟩ := List.mem_map.1 h
        exact List.mem_append_right _ (hmem p hp).2
    · rw [tally_perm hperm a, and_comm]
  · replace h : install vars values counts closed root = _ := h
    rw [e] at h; cases h

end
end Gcs.GlobalCardinality
