import Verif.Lemmas.Cons.LinearTidy
import Verif.Lemmas.Cons.Quiet
import Verif.Lemmas.Cons.MinMax

/-!
# Linear equations and inequalities
-/

namespace Gcs
open IntervalSet

theorem IsMin.mono {P Q : Int → Prop} {l : Int} (h : IsMin P l) (hq : ∀ y, Q y → P y) (hl : Q l) : IsMin Q l := ⟨hl, fun y hy => h.2 y (hq y hy)⟩
theorem IsMax.mono {P Q : Int → Prop} {l : Int} (h : IsMax P l) (hq : ∀ y, Q y → P y) (hl : Q l) : IsMax Q l := ⟨hl, fun y hy => h.2 y (hq y hy)⟩

theorem Poss.sub {d d' : Doms} {v : VarId} (hs : ∀ a, Within d' a → Within d a) {y : Int} (h : Poss d' v y) : Poss d v y := by
  obtain ⟨a, ha, e⟩ := h; exact ⟨a, hs a ha, e⟩

namespace Linear

/-- The coefficient, with the sign it has in a sweep. -/
def eff (inv : Bool) (t : Term) : Int := if inv then - t.coeff else t.coeff

/-- The sum, with the sign it has in a sweep. -/
def esum (inv : Bool) (ts : List Term) (a : Asg) : Int := if inv then - tsum ts a else tsum ts a

/-- The least contribution of a term. -/
def low (inv : Bool) (t : Bounded) : Int := eff inv t.term * (if eff inv t.term ≥ 0 then t.lo else t.hi)

def lowSum (inv : Bool) (bs : List Bounded) : Int := (bs.map (low inv)).sum

theorem esum_cons (inv : Bool) (t : Term) (ts : List Term) (a : Asg) : esum inv (t :: ts) a = eff inv t * a t.var + esum inv ts a := by
  unfold esum eff
  rw [tsum_cons]
  cases inv <;> simp [Int.neg_mul] <;> omega

theorem esum_nil (inv : Bool) (a : Asg) : esum inv [] a = 0 := by unfold esum; cases inv <;> simp [tsum]

theorem lowSum_cons (inv : Bool) (t : Bounded) (ts : List Bounded) : lowSum inv (t :: ts) = low inv t + lowSum inv ts := by simp [lowSum]

/-- The bounds are those in the state. -/
structure Fits (d : Doms) (t : Bounded) : Prop where
  loI : InI64 t.lo
  hiI : InI64 t.hi
  lo : IsMin (Poss d (.simple t.term.var)) t.lo
  hi : IsMax (Poss d (.simple t.term.var)) t.hi

section
variable {d d' : Doms} {inv : Bool}

theorem Fits.low_le {t : Bounded} (h : Fits d t) {a : Asg} (ha : Within d a) : low inv t ≤ eff inv t.term * a t.term.var := by
  have h1 := h.lo.le ha
  have h2 := h.hi.ge ha
  simp only [VarId.eval] at h1 h2
  unfold low
  split
  · exact Int.mul_le_mul_of_nonneg_left h1 ‹_›
  · exact Int.mul_le_mul_of_nonpos_left (by omega) h2

theorem Fits.low_eq {t : Bounded} (h : Fits d t) (hk : Known d (.simple t.term.var)) {a : Asg} (ha : Within d a) : low inv t = eff inv t.term * a t.term.var := by
  have h1 := h.lo.eq hk ha
  have h2 := h.hi.eq hk ha
  simp only [VarId.eval] at h1 h2
  unfold low
  rw [h1, h2, ite_self]

theorem lowSum_le : ∀ {bs : List Bounded}, (∀ t ∈ bs, Fits d t) → ∀ {a : Asg}, Within d a → lowSum inv bs ≤ esum inv (bs.map Bounded.term) a
  | [], _, a, _ => by rw [List.map_nil, esum_nil]; simp [lowSum]
  | t :: bs, h, a, ha => by
    have h1 := (h t (by simp)).low_le (inv := inv) ha
    have h2 := lowSum_le (bs := bs) (fun u hu => h u (by simp [hu])) ha
    rw [lowSum_cons, List.map_cons, esum_cons]; omega

theorem lowSum_eq : ∀ {bs : List Bounded}, (∀ t ∈ bs, Fits d t) → (∀ t ∈ bs, Known d (.simple t.term.var)) → ∀ {a : Asg}, Within d a → lowSum inv bs = esum inv (bs.map Bounded.term) a
  | [], _, _, a, _ => by rw [List.map_nil, esum_nil]; simp [lowSum]
  | t :: bs, h, hk, a, ha => by
    have h1 := (h t (by simp)).low_eq (inv := inv) (hk t (by simp)) ha
    have h2 := lowSum_eq (bs := bs) (fun u hu => h u (by simp [hu])) (fun u hu => hk u (by simp [hu])) ha
    rw [lowSum_cons, List.map_cons, esum_cons]; omega

theorem coeffOf_roo {t : Bounded} (h : InI64 t.term.coeff) : RightOrOverflow (coeffOf inv t) (fun c => c = eff inv t.term ∧ InI64 c) := by
  refine (signed_roo h).mono fun c hc => ⟨?_, hc.2⟩
  rw [hc.1]; rfl

theorem contribution_roo {t : Bounded} (h : InI64 t.term.coeff) (h1 : InI64 t.lo) (h2 : InI64 t.hi) : RightOrOverflow (contribution inv t) (fun c => c = low inv t ∧ InI64 c) := by
  refine (coeffOf_roo (inv := inv) h).bind fun c hc => ?_
  have hi : InI64 (if c ≥ 0 then t.lo else t.hi) := by split <;> assumption
  refine (mul_roo hc.2 hi).mono fun r hr => ⟨?_, hr.2⟩
  rw [hr.1, hc.1]; rfl

theorem lowerSum_roo : ∀ {bs : List Bounded} {s : Int}, InI64 s → (∀ t ∈ bs, InI64 t.term.coeff ∧ Fits d t) → RightOrOverflow (lowerSum inv s bs) (fun r => r = s + lowSum inv bs ∧ InI64 r)
  | [], s, hs, _ => .pure ⟨by simp [lowSum], hs⟩
  | t :: bs, s, hs, h => by
    have ht := h t (by simp)
    refine (contribution_roo (inv := inv) ht.1 ht.2.loI ht.2.hiI).bind fun c hc => (add_roo hs hc.2).bind fun s' hs' => ?_
    refine (lowerSum_roo hs'.2 fun u hu => h u (by simp [hu])).mono fun r hr => ⟨?_, hr.2⟩
    rw [hr.1, hs'.1, hc.1, lowSum_cons]; omega

theorem readBounds_roo {n : Nat} (hd : DomsOK d) (hl : d.length = n) : ∀ {ts : List Term}, (∀ t ∈ ts, t.var < n) → RightOrOverflow (readBounds d ts) (fun bs => bs.map Bounded.term = ts ∧ ∀ t ∈ bs, Fits d t)
  | [], _ => .pure ⟨rfl, by simp⟩
  | t :: ts, h => by
    refine (bounds_roo (v := .simple t.var) hd (hl ▸ h t (by simp))).bind fun b hb => (readBounds_roo hd hl fun u hu => h u (by simp [hu])).bind fun bs hbs => .pure ⟨by simp [hbs.1], fun u hu => ?_⟩
    rcases List.mem_cons.1 hu with rfl | hu
    · exact ⟨hb.1.1, hb.2.1, hb.1.2, hb.2.2⟩
    · exact hbs.2 u hu

/-- Narrowing another variable leaves the bounds alone. -/
theorem Fits.apart {t : Bounded} (h : Fits d t) (hs : ∀ a, Within d' a → Within d a) (hp : ∀ y, Poss d (.simple t.term.var) y → Poss d' (.simple t.term.var) y) : Fits d' t :=
  ⟨h.loI, h.hiI, h.lo.mono (fun _ hy => hy.sub hs) (hp _ h.lo.1), h.hi.mono (fun _ hy => hy.sub hs) (hp _ h.hi.1)⟩

/-- Cutting off large values leaves the smallest one, if any value remains. -/
theorem poss_lo {v : VarId} {b l : Int} (hd' : DomsOK d') (hv : ∃ i, v = .simple i) (h : ∀ a, Within d' a ↔ Within d a ∧ v.eval a < b) (hl : IsMin (Poss d v) l) : IsMin (Poss d' v) l := by
  refine hl.mono (fun _ hy => hy.sub fun a ha => ((h a).1 ha).1) ?_
  obtain ⟨i, rfl⟩ := hv
  obtain ⟨c, hc⟩ := exists_within hd'
  obtain ⟨a, ha, e⟩ := hl.1
  simp only [VarId.eval] at e h
  refine ⟨fun j => if j = i then l else c j, (h _).2 ⟨fun j s hs => ?_, ?_⟩, by simp [VarId.eval]⟩
  · by_cases hj : j = i
    · subst hj; simp only [if_pos]; rw [← e]; exact ha j s hs
    · simp only [if_neg hj]; exact ((h c).1 hc).1 j s hs
  · simp only [if_pos]
    have := hl.2 _ (((h c).1 hc).1.poss (.simple i))
    simp only [VarId.eval] at this
    have := ((h c).1 hc).2
    omega

theorem poss_hi {v : VarId} {b u : Int} (hd' : DomsOK d') (hv : ∃ i, v = .simple i) (h : ∀ a, Within d' a ↔ Within d a ∧ v.eval a ≥ b) (hl : IsMax (Poss d v) u) : IsMax (Poss d' v) u := by
  refine hl.mono (fun _ hy => hy.sub fun a ha => ((h a).1 ha).1) ?_
  obtain ⟨i, rfl⟩ := hv
  obtain ⟨c, hc⟩ := exists_within hd'
  obtain ⟨a, ha, e⟩ := hl.1
  simp only [VarId.eval] at e h
  refine ⟨fun j => if j = i then u else c j, (h _).2 ⟨fun j s hs => ?_, ?_⟩, by simp [VarId.eval]⟩
  · by_cases hj : j = i
    · subst hj; simp only [if_pos]; rw [← e]; exact ha j s hs
    · simp only [if_neg hj]; exact ((h c).1 hc).1 j s hs
  · simp only [if_pos]
    have := hl.2 _ (((h c).1 hc).1.poss (.simple i))
    simp only [VarId.eval] at this
    have := ((h c).1 hc).2
    omega

end

/-- What a term in a sweep is like. -/
structure Good (n : Nat) (unit : Bool) (t : Term) : Prop where
  coeff : InI64 t.coeff
  nonzero : t.coeff ≠ 0
  var : t.var < n
  unit : unit = true → t.coeff = 1 ∨ t.coeff = -1

theorem Tidy.good {n : Nat} {ts : List Term} (h : Tidy n ts) : ∀ t ∈ ts, Good n (units ts) t := fun t ht =>
  ⟨(h.coeff t ht).1, (h.coeff t ht).2, h.var t ht, fun hu => by simpa [units] using List.all_eq_true.1 hu t ht⟩

section
variable {σ μ : Type} {J : Job} {unit inv : Bool} {S : PState → Prop} {Q : PState → Doms → Prop} {d : Doms}

theorem infer_ver (ho : J.R .overflow) (hS : S .enable) {t : Bounded} {rem : Int} {k : Bounded → Prog σ μ PState} (hd : DomsOK d) (hl : d.length = J.n) (hg : Good J.n unit t.term) (hf : Fits d t) (hr : InI64 rem)
    (hs : ∀ a, Within d a → J.C a → eff inv t.term * a t.term.var ≤ rem)
    (hk : ∀ t' d', DomsOK d' → d'.length = J.n → (∀ a, Within d' a → Within d a) → t'.term = t.term → Fits d' t' → low inv t' = low inv t → low inv t ≤ rem → (∀ a, Within d' a → eff inv t.term * a t.term.var ≤ rem) →
      (∀ v, v ≠ t.term.var → ∀ y, Poss d (.simple v) y → Poss d' (.simple v) y) → (k t').Ver J S Q d') :
    (infer unit inv t rem k).Ver J S Q d := by
  have hlv : (VarId.simple t.term.var).Valid J.n := hg.var
  have e0 : eff inv t.term ≠ 0 := by unfold eff; have := hg.nonzero; split <;> omega
  have eu : unit = true → eff inv t.term = 1 ∨ eff inv t.term = -1 := fun h => by unfold eff; have := hg.unit h; split <;> omega
  refine ver_lift ho (coeffOf_roo (inv := inv) hg.coeff) fun c hc => ?_
  obtain ⟨rfl, hci⟩ := hc
  refine ver_lift ho (limit_roo (unit := unit) hci hr e0 eu) fun b hb => ?_
  obtain ⟨hbi, hb1, hb2⟩ := hb
  have apart : ∀ {d' : Doms} {P : Int → Prop}, DomsOK d' → (∀ b, Within d' b ↔ Within d b ∧ P ((VarId.simple t.term.var).eval b)) → ∀ v, v ≠ t.term.var → ∀ y, Poss d (.simple v) y → Poss d' (.simple v) y := by
    intro d' P hd' h v hv y hy
    refine poss_apart (P := P) hd' h ?_ hy
    intro i hi e
    simp only [VarId.underlyingIndex, Option.some.injEq] at hi e
    omega
  by_cases hp : eff inv t.term > 0
  · rw [if_pos hp]
    have low_of : ∀ x : Int, t.lo ≤ x → x < b → low inv t ≤ rem := by
      intro x h1 h2
      have := (hb1 hp x).2 h2
      have h3 := Int.mul_le_mul_of_nonneg_left h1 (Int.le_of_lt hp)
      unfold low; rw [if_pos (by omega)]; omega
    split
    · refine ver_orStop hS (.lt hlv hbi) (fun a ha hC => (hb1 hp _).1 (hs a ha hC)) fun d' hd' hl' hw => ?_
      have hs' : ∀ a, Within d' a → Within d a := fun a ha => ((hw a).1 ha).1
      refine ver_ask (f := (upperBound · (.simple t.term.var))) ho (upper_roo hd' (hl'.symm ▸ hlv)) fun u hu => ?_
      refine hk _ d' hd' hl' hs' rfl ⟨hf.loI, hu.1, poss_lo hd' ⟨_, rfl⟩ hw hf.lo, hu.2⟩ ?_ ?_ (fun a ha => (hb1 hp _).2 ((hw a).1 ha).2) (apart (P := (· < b)) hd' hw)
      · unfold low; rw [if_pos (show eff inv t.term ≥ 0 by omega), if_pos (show eff inv t.term ≥ 0 by omega)]
      · obtain ⟨a, ha⟩ := exists_within hd'
        exact low_of _ (hf.lo.le (hs' a ha)) ((hw a).1 ha).2
    · rename_i hlt
      refine hk t d hd hl (fun _ h => h) rfl hf rfl ?_ (fun a ha => (hb1 hp _).2 (by have : a t.term.var ≤ t.hi := hf.hi.ge ha; omega)) (fun _ _ _ h => h)
      exact low_of t.hi (hf.lo.2 _ hf.hi.1) (by omega)
  · have hn : eff inv t.term < 0 := by omega
    rw [if_neg hp]
    have low_of : ∀ x : Int, x ≤ t.hi → b ≤ x → low inv t ≤ rem := by
      intro x h1 h2
      have := (hb2 hn x).2 h2
      have h3 := Int.mul_le_mul_of_nonpos_left (Int.le_of_lt hn) h1
      unfold low; rw [if_neg (by omega)]; omega
    split
    · refine ver_orStop hS (.ge hlv hbi) (fun a ha hC => (hb2 hn _).1 (hs a ha hC)) fun d' hd' hl' hw => ?_
      have hs' : ∀ a, Within d' a → Within d a := fun a ha => ((hw a).1 ha).1
      refine ver_ask (f := (lowerBound · (.simple t.term.var))) ho (lower_roo hd' (hl'.symm ▸ hlv)) fun u hu => ?_
      refine hk _ d' hd' hl' hs' rfl ⟨hu.1, hf.hiI, hu.2, poss_hi hd' ⟨_, rfl⟩ hw hf.hi⟩ ?_ ?_ (fun a ha => (hb2 hn _).2 ((hw a).1 ha).2) (apart (P := (· ≥ b)) hd' hw)
      · unfold low; rw [if_neg (show ¬ eff inv t.term ≥ 0 by omega), if_neg (show ¬ eff inv t.term ≥ 0 by omega)]
      · obtain ⟨a, ha⟩ := exists_within hd'
        exact low_of _ (hf.hi.ge (hs' a ha)) ((hw a).1 ha).2
    · rename_i hlt
      refine hk t d hd hl (fun _ h => h) rfl hf rfl ?_ (fun a ha => (hb2 hn _).2 (by have : t.lo ≤ a t.term.var := hf.lo.le ha; omega)) (fun _ _ _ h => h)
      exact low_of t.lo (hf.lo.2 _ hf.hi.1) (by omega)

theorem sweep_ver (ho : J.R .overflow) (hS : S .enable) {update : Bool} {value : Int} (hv : InI64 value) : ∀ {bs : List Bounded} {sum : Int} {d : Doms} {k : List Bounded → Prog σ μ PState}, DomsOK d → d.length = J.n →
    ((bs.map Bounded.term).map Term.var).Nodup → (∀ t ∈ bs, Good J.n unit t.term ∧ Fits d t) → InI64 sum →
    (∀ a, Within d a → J.C a → sum - lowSum inv bs + esum inv (bs.map Bounded.term) a ≤ value) →
    (∀ bs' d', DomsOK d' → d'.length = J.n → (∀ a, Within d' a → Within d a) → bs'.map Bounded.term = bs.map Bounded.term → (∀ t ∈ bs', Fits d' t) → lowSum inv bs' = lowSum inv bs → (bs ≠ [] → sum ≤ value) →
      (∀ t ∈ bs', ∀ a, Within d' a → sum - low inv t + eff inv t.term * a t.term.var ≤ value) →
      (∀ v, v ∉ (bs.map Bounded.term).map Term.var → ∀ y, Poss d (.simple v) y → Poss d' (.simple v) y) → (k bs').Ver J S Q d') →
    (sweep unit inv update value sum bs k).Ver J S Q d
  | [], sum, d, k, hd, hl, _, _, _, _, hk => hk [] d hd hl (fun _ h => h) rfl (by simp) rfl (by simp) (by simp) (fun _ _ _ h => h)
  | t :: bs, sum, d, k, hd, hl, hn, hg, hsum, hs, hk => by
    have ht := hg t (by simp)
    simp only [List.map_cons, List.nodup_cons] at hn
    refine ver_lift (P := fun w => w = sum - low inv t ∧ InI64 w) ho ((contribution_roo (inv := inv) ht.1.coeff ht.2.loI ht.2.hiI).bind fun c hc => ?_) fun w hw => ?_
    · rw [← hc.1]; exact sub_roo hsum hc.2
    refine ver_lift ho (sub_roo hv hw.2) fun rem hrem => ?_
    have fits' : ∀ u ∈ bs, Fits d u := fun u hu => (hg u (by simp [hu])).2
    refine infer_ver ho hS hd hl ht.1 ht.2 hrem.2 (fun a ha hC => ?_) fun t' d1 hd1 hl1 hs1 et hf' elow hle hcap hap => ?_
    · have h1 := hs a ha hC
      have h2 := lowSum_le (inv := inv) fits' ha
      rw [List.map_cons, esum_cons, lowSum_cons] at h1
      rw [hrem.1, hw.1]; omega
    have hcoeff : InI64 t'.term.coeff := et ▸ ht.1.coeff
    refine ver_lift (P := fun s => s = sum ∧ InI64 s) ho ?_ fun sum' hsum' => ?_
    · split
      · refine (contribution_roo (inv := inv) hcoeff hf'.loI hf'.hiI).bind fun c hc => ?_
        refine (add_roo hw.2 hc.2).mono fun r hr => ⟨?_, hr.2⟩
        rw [hr.1, hw.1, hc.1, elow]; omega
      · exact .pure ⟨rfl, hsum⟩
    obtain ⟨rfl, _⟩ := hsum'
    have f1 : ∀ u ∈ bs, Fits d1 u := fun u hu => (fits' u hu).apart hs1 (hap _ fun e => hn.1 (e ▸ List.mem_map.2 ⟨u.term, List.mem_map.2 ⟨u, hu, rfl⟩, rfl⟩))
    have hle' : sum' ≤ value := by rw [hrem.1, hw.1] at hle; omega
    refine sweep_ver ho hS hv hd1 hl1 hn.2 (fun u hu => ⟨(hg u (by simp [hu])).1, f1 u hu⟩) hsum (fun a ha hC => ?_) fun bs' d2 hd2 hl2 hs2 eb hf2 el _ hcap2 hap2 => ?_
    · have h1 := hs a (hs1 a ha) hC
      have h2 := ht.2.low_le (inv := inv) (hs1 a ha)
      rw [List.map_cons, esum_cons, lowSum_cons] at h1
      omega
    refine hk _ d2 hd2 hl2 (fun a ha => hs1 a (hs2 a ha)) (by simp [et, eb]) (fun u hu => ?_) (by rw [lowSum_cons, lowSum_cons, elow, el]) (fun _ => hle') (fun u hu a ha => ?_) (fun v hv y hy => ?_)
    · rcases List.mem_cons.1 hu with rfl | hu
      · exact hf'.apart hs2 (hap2 _ (by rw [et]; exact hn.1))
      · exact hf2 u hu
    · rcases List.mem_cons.1 hu with rfl | hu
      · have := hcap a (hs2 a ha)
        rw [hrem.1, hw.1] at this; rw [elow, et]; omega
      · exact hcap2 u hu a ha
    · simp only [List.map_cons, List.mem_cons, not_or] at hv
      exact hap2 v hv.2 y (hap v hv.1 y hy)

/-- Once all variables are known, the sum is within its limit. -/
def Capped (inv : Bool) (ts : List Term) (value : Int) (d : Doms) : Prop := (∀ t ∈ ts, Known d (.simple t.var)) → ∀ a, Within d a → esum inv ts a ≤ value

theorem capped {bs : List Bounded} {value : Int} (h : ∀ t ∈ bs, Fits d t) (hle : lowSum inv bs ≤ value) : Capped inv (bs.map Bounded.term) value d := by
  intro hk a ha
  rw [← lowSum_eq h (fun t ht => hk t.term (List.mem_map.2 ⟨t, ht, rfl⟩)) ha]
  exact hle

/-- How the loops for equalities and inequalities end. -/
def Ends (P : Asg → Prop) (ts : List Term) (ps : PState) (d' : Doms) : Prop := ps = .enableButIdempotent ∧ ((∀ t ∈ ts, Known d' (.simple t.var)) → ∀ a, Within d' a → P a)

theorem equalityLoop_ver (ho : J.R .overflow) (hS : S .enable) {ts : List Term} {update : Bool} {value fixed : Int} (hv : InI64 value) (hfi : InI64 fixed) (hne : ts ≠ []) (hn : (ts.map Term.var).Nodup) (hg : ∀ t ∈ ts, Good J.n unit t) :
    ∀ (fuel : Nat) (first : Bool) (bs : List Bounded) (d : Doms), DomsOK d → d.length = J.n → d.card < fuel → bs.map Bounded.term = ts → (∀ t ∈ bs, Fits d t) → (first = false → Capped true ts (fixed - value) d) → (∀ a, Within d a → J.C a → fixed + tsum ts a = value) →
    (equalityLoop unit update value fixed fuel first bs : Prog σ μ PState).Ver J S (Ends (fun a => fixed + tsum ts a = value) ts) d
  | 0, _, _, _, _, _, h, _, _, _, _ => by omega
  | fuel + 1, first, bs, d, hd, hl, hfuel, hb, hf, hcap, hC => by
    rintro s rfl
    have good : ∀ {bs : List Bounded}, bs.map Bounded.term = ts → ∀ t ∈ bs, Good J.n unit t.term := fun e t ht => hg _ (e ▸ List.mem_map.2 ⟨t, ht, rfl⟩)
    have both : ∀ {d : Doms}, Capped false ts (value - fixed) d → Capped true ts (fixed - value) d → (∀ t ∈ ts, Known d (.simple t.var)) → ∀ a, Within d a → fixed + tsum ts a = value := by
      intro d h1 h2 hk a ha
      have h1 := h1 hk a ha
      have h2 := h2 hk a ha
      simp only [esum] at h1 h2
      simp at h1 h2
      omega
    have ne : ∀ {bs : List Bounded}, bs.map Bounded.term = ts → bs ≠ [] := fun e h => hne (by rw [← e, h]; rfl)
    refine ver_lift ho (lowerSum_roo (inv := false) (s := fixed) hfi fun t ht => ⟨(good hb t ht).coeff, hf t ht⟩) fun sum hsum => ?_
    refine sweep_ver ho hS hv hd hl (hb ▸ hn) (fun t ht => ⟨good hb t ht, hf t ht⟩) hsum.2 (fun a ha hc => ?_) fun bs1 d1 hd1 hl1 hs1 e1 f1 l1 le1 _ _ => ?_
    · rw [hb, hsum.1]
      have := hC a ha hc
      simp only [esum]; simp; omega
    have e1 : bs1.map Bounded.term = ts := e1.trans hb
    have cap1 : Capped false ts (value - fixed) d1 := by
      have := capped (inv := false) (value := value - fixed) f1 (by have := le1 (ne hb); rw [hsum.1] at this; omega)
      rwa [e1] at this
    rintro s1 rfl
    dsimp only
    split
    · rename_i h
      refine ⟨rfl, both cap1 ?_⟩
      rw [h.2]; exact hcap h.1
    · refine ver_lift ho (P := fun r => r = -fixed + lowSum true bs1 ∧ InI64 r) ((neg_roo hfi).bind fun p hp => hp.1 ▸ lowerSum_roo (inv := true) (s := p) hp.2 fun t ht => ⟨(good e1 t ht).coeff, f1 t ht⟩) fun isum hisum => ?_
      refine ver_lift ho (neg_roo hv) fun nv hnv => ?_
      refine sweep_ver ho hS hnv.2 hd1 hl1 (e1 ▸ hn) (fun t ht => ⟨good e1 t ht, f1 t ht⟩) hisum.2 (fun a ha hc => ?_) fun bs2 d2 hd2 hl2 hs2 e2 f2 l2 le2 _ _ => ?_
      · rw [e1, hisum.1, hnv.1]
        have := hC a (hs1 a ha) hc
        simp only [esum]; simp; omega
      have e2 : bs2.map Bounded.term = ts := e2.trans e1
      have cap2 : Capped true ts (fixed - value) d2 := by
        have := capped (inv := true) (value := fixed - value) f2 (by have := le2 (ne e1); rw [hisum.1, hnv.1] at this; omega)
        rwa [e2] at this
      rintro s2 rfl
      dsimp only
      split
      · rename_i h
        refine ⟨rfl, both ?_ cap2⟩
        rw [h]; exact cap1
      · rename_i h
        have c1 := card_lt_of_sub hd1 hd2 (hl2.trans hl1.symm) hs2 h
        have c0 : s1.doms.card ≤ s.doms.card := by
          by_cases he : s1.doms = s.doms
          · rw [he]; exact Nat.le_refl _
          · exact Nat.le_of_lt (card_lt_of_sub hd hd1 (hl1.trans hl.symm) hs1 he)
        exact equalityLoop_ver ho hS hv hfi hne hn hg fuel false bs2 _ hd2 hl2 (by omega) e2 f2 (fun _ => cap2) fun a ha => hC a (hs1 a (hs2 a ha))

end
end Linear
end Gcs
