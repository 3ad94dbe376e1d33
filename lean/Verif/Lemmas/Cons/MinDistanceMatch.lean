import Verif.Lemmas.Cons.MinDistanceProp

namespace Gcs.MinDistance
open IntervalSet

section
variable {σ μ : Type} {n m : Nat} {R : Err → Prop} {root d : Doms} {D : Matrix} {Q : Option Matrix} {z : VarId} {xs : List VarId}

theorem chk_ok_bind {α β : Type} (v : α) (f : α → Chk β) : ((Except.ok v : Chk α) >>= f) = f v := rfl

theorem partner_ok (hs : ∀ row ∈ D, row.length = D.length) {t a : Int} (ha : InRange D.length a) : ∀ bs : List Int, (∀ b ∈ bs, InRange D.length b) →
    ∃ r, partner D t a bs = .ok r ∧ ∀ b cs, r = some (b, cs) → bs.Perm (b :: cs) ∧ entry D a b < t
  | [], _ => ⟨none, rfl, fun _ _ h => (nomatch h)⟩
  | b :: bs, hb => by
    obtain ⟨r, h1, h2⟩ := partner_ok (t := t) hs ha bs fun c hc => hb c (List.mem_cons_of_mem _ hc)
    rw [partner, dist_eq hs ha (hb b List.mem_cons_self)]
    show ∃ r, (if entry D a b < t then _ else _) = _ ∧ _
    split
    · rename_i hlt
      exact ⟨some (b, bs), rfl, fun c cs e => by cases e; exact ⟨.refl _, hlt⟩⟩
    · rw [h1]
      refine ⟨_, rfl, fun c cs e => ?_⟩
      obtain ⟨⟨c', cs'⟩, e1, e2⟩ := Option.map_eq_some_iff.1 e
      cases e2
      obtain ⟨k1, k2⟩ := h2 _ _ e1
      exact ⟨(k1.cons b).trans (.swap _ _ _), k2⟩

/-- No two of them are closer than `t`. -/
def Independent (D : Matrix) (t : Int) (S : List Int) : Prop := ∀ x ∈ S, ∀ y ∈ S, x ≠ y → t ≤ entry D x y

theorem sum_perm {f : Int → Nat} {as bs : List Int} (h : as.Perm bs) : (as.map f).sum = (bs.map f).sum := by
  induction h with
  | nil => rfl
  | cons x _ ih => simp [ih]
  | swap x y l => simp only [List.map_cons, List.sum_cons]; omega
  | trans _ _ ih1 ih2 => rw [ih1, ih2]

theorem matching_ok (hs : ∀ row ∈ D, row.length = D.length) {t : Int} : ∀ (fuel : Nat) (as : List Int), as.length ≤ fuel → as.Nodup → (∀ a ∈ as, InRange D.length a) →
    ∃ es us, matching D t fuel as = .ok (es, us) ∧ as.length = 2 * es.length + us.length ∧ (∀ f : Int → Nat, (as.map f).sum = (es.map fun e => f e.1 + f e.2).sum + (us.map f).sum) ∧
      ∀ S : List Int, S.Nodup → (∀ x ∈ S, x ∈ as) → Independent D t S → S.length ≤ es.length + us.length
  | 0, [], _, _, _ => ⟨[], [], rfl, rfl, fun _ => rfl, fun S _ hS _ => by cases S with | nil => simp | cons x _ => exact absurd (hS x List.mem_cons_self) (by simp)⟩
  | fuel + 1, [], _, _, _ => ⟨[], [], rfl, rfl, fun _ => rfl, fun S _ hS _ => by cases S with | nil => simp | cons x _ => exact absurd (hS x List.mem_cons_self) (by simp)⟩
  | 0, _ :: _, h, _, _ => by simp at h
  | fuel + 1, a :: as, hf, nd, hr => by
    obtain ⟨nda, nd'⟩ := List.nodup_cons.1 nd
    obtain ⟨r, h1, h2⟩ := partner_ok (t := t) hs (hr a List.mem_cons_self) as fun c hc => hr c (List.mem_cons_of_mem _ hc)
    rw [matching, h1]
    cases r with
    | none =>
      obtain ⟨es, us, e, hlen, hsum, hind⟩ := matching_ok hs (t := t) fuel as (by simpa using hf) nd' fun c hc => hr c (List.mem_cons_of_mem _ hc)
      refine ⟨es, a :: us, ?_, by simp [hlen]; omega, fun f => by have := hsum f; simp only [List.map_cons, List.sum_cons]; omega, fun S nS hS iS => ?_⟩
      · show (do let r ← matching D t fuel as; pure (r.1, a :: r.2) : Chk _) = _
        rw [e]; rfl
      · have := hind (S.erase a) (nS.erase a) (fun x hx => by
          have := (nS.mem_erase_iff).1 hx
          exact (List.mem_cons.1 (hS x this.2)).resolve_left this.1) fun x hx y hy => iS x (List.mem_of_mem_erase hx) y (List.mem_of_mem_erase hy)
        have h' := List.length_erase (a := a) (l := S)
        simp only [List.length_cons]
        split at h' <;> omega
    | some r =>
      obtain ⟨b, bs⟩ := r
      obtain ⟨hp, hlt⟩ := h2 b bs rfl
      have hlen' := hp.length_eq
      simp only [List.length_cons] at hlen' hf
      have ndb : (b :: bs).Nodup := hp.nodup_iff.1 nd'
      obtain ⟨nb, ndbs⟩ := List.nodup_cons.1 ndb
      obtain ⟨es, us, e, hlen, hsum, hind⟩ := matching_ok hs (t := t) fuel bs (by omega) ndbs fun c hc => hr c (List.mem_cons_of_mem _ (hp.mem_iff.2 (List.mem_cons_of_mem _ hc)))
      refine ⟨(a, b) :: es, us, ?_, by simp only [List.length_cons]; omega, fun f => ?_, fun S nS hS iS => ?_⟩
      · show (do let r ← matching D t fuel bs; pure ((a, b) :: r.1, r.2) : Chk _) = _
        rw [e]; rfl
      · have k1 := hsum f
        have k2 := sum_perm (f := f) hp
        simp only [List.map_cons, List.sum_cons] at *
        omega
      · have hab : a ≠ b := fun h => nda (h ▸ hp.mem_iff.2 List.mem_cons_self)
        have mem : ∀ x ∈ S, x = a ∨ x = b ∨ x ∈ bs := fun x hx => (List.mem_cons.1 (hS x hx)).imp id fun h => List.mem_cons.1 (hp.mem_iff.1 h)
        simp only [List.length_cons]
        by_cases ha : a ∈ S
        · have hb : b ∉ S := fun hb => by have := iS a ha b hb hab; omega
          have := hind (S.erase a) (nS.erase a) (fun x hx => by
            have := (nS.mem_erase_iff).1 hx
            rcases mem x this.2 with h | h | h
            · exact absurd h this.1
            · exact absurd (h ▸ this.2) hb
            · exact h) fun x hx y hy => iS x (List.mem_of_mem_erase hx) y (List.mem_of_mem_erase hy)
          have h' := List.length_erase (a := a) (l := S)
          split at h' <;> omega
        · have := hind (S.erase b) (nS.erase b) (fun x hx => by
            have := (nS.mem_erase_iff).1 hx
            rcases mem x this.2 with h | h | h
            · exact absurd (h ▸ this.2) ha
            · exact absurd h this.1
            · exact h) fun x hx y hy => iS x (List.mem_of_mem_erase hx) y (List.mem_of_mem_erase hy)
          have h' := List.length_erase (a := b) (l := S)
          split at h' <;> omega

/-- What the search finds has been tested. -/
theorem search_ok {test : Int → Chk Bool} {levels : List Int} {lo : Nat} (ht : ∀ t ∈ levels, ∃ b, test t = .ok b) : ∀ (fuel left right : Nat) (found : Option Nat), right + 1 - left ≤ fuel → lo ≤ left → right < levels.length →
    (∀ i, found = some i → lo ≤ i ∧ ∃ t, levels[i]? = some t ∧ test t = .ok true) → ∃ r, search test levels fuel left right found = .ok r ∧ ∀ i, r = some i → lo ≤ i ∧ ∃ t, levels[i]? = some t ∧ test t = .ok true
  | 0, left, right, found, hf, _, _, h => ⟨found, by rw [search, if_neg (by omega)], h⟩
  | fuel + 1, left, right, found, hf, hlo, hlen, h => by
    rw [search]
    split
    · rename_i hle
      have hmid : left + (right - left) / 2 ≤ right := by omega
      have hget : levels[left + (right - left) / 2]? = some levels[left + (right - left) / 2] := List.getElem?_eq_getElem (by omega)
      obtain ⟨b, hb⟩ := ht _ (List.getElem_mem (by omega : left + (right - left) / 2 < levels.length))
      dsimp only
      rw [vecAt_ok.2 hget, chk_ok_bind, hb, chk_ok_bind]
      cases b with
      | true =>
        have hnew : ∀ i, some (left + (right - left) / 2) = some i → lo ≤ i ∧ ∃ t, levels[i]? = some t ∧ test t = .ok true := fun i hi => by cases hi; exact ⟨by omega, _, hget, hb⟩
        show ∃ r, (if left + (right - left) / 2 = 0 then pure (some (left + (right - left) / 2)) else search test levels fuel left (left + (right - left) / 2 - 1) (some (left + (right - left) / 2))) = _ ∧ _
        split
        · exact ⟨_, rfl, hnew⟩
        · exact search_ok ht fuel left _ _ (by omega) hlo (by omega) hnew
      | false => exact search_ok ht fuel (left + (right - left) / 2 + 1) right found (by omega) (by omega) hlen h
    · exact ⟨found, rfl, h⟩

theorem addUp_roo : ∀ (ks : List Nat) (s : Int), InI64 s → RightOrOverflow (addUp s ks) (fun r => r = s + ks.sum - ks.length)
  | [], s, _ => .pure (by simp)
  | k :: ks, s, hs => by
    rw [addUp]
    refine (ofSize_roo k).bind fun K hK => (sub_roo hK.2 (by decide)).bind fun r hr => (add_roo hs hr.2).bind fun q hq => (addUp_roo ks q hq.2).mono fun w hw => ?_
    rw [hw, hq.1, hr.1, hK.1]
    simp only [List.sum_cons, List.length_cons]
    omega

/-- Every position has a site that counts. -/
theorem sum_countAt {as : List Int} : ∀ (ss : List (List Int)), (∀ l ∈ ss, ∃ a ∈ as, a ∈ l) → ss.length ≤ (as.map (countAt ss)).sum
  | [], _ => by simp
  | l :: ss, h => by
    have ih := sum_countAt ss fun l hl => h l (List.mem_cons_of_mem _ hl)
    have split : ∀ as : List Int, (as.map (countAt (l :: ss))).sum = (as.map (countAt ss)).sum + as.countP fun a => decide (a ∈ l) := by
      intro as
      induction as with
      | nil => rfl
      | cons a as ih =>
        have e : countAt (l :: ss) a = countAt ss a + if a ∈ l then 1 else 0 := by simp [countAt, List.countP_cons]
        simp only [List.map_cons, List.sum_cons, List.countP_cons, ih, e, decide_eq_true_eq]
        omega
    have pos : 0 < as.countP fun a => decide (a ∈ l) := by
      obtain ⟨a, h1, h2⟩ := h l List.mem_cons_self
      exact List.countP_pos_iff.2 ⟨a, h1, by simpa using h2⟩
    rw [split, List.length_cons]
    omega

theorem nums_nodup (n : Nat) : ((List.range n).map Int.ofNat).Nodup := by
  rw [List.Nodup, List.pairwise_map]
  exact List.nodup_range.imp fun h e => h (Int.ofNat.inj e)

theorem mem_nums {n : Nat} {a : Int} : a ∈ (List.range n).map Int.ofNat ↔ InRange n a := by
  simp only [List.mem_map, List.mem_range]
  constructor
  · rintro ⟨k, hk, rfl⟩; exact ⟨Int.natCast_nonneg k, by show (k : Int) < n; omega⟩
  · rintro ⟨h1, h2⟩; exact ⟨a.toNat, by omega, by show ((a.toNat : Nat) : Int) = a; omega⟩

theorem active_roo {n : Nat} (hd : DomsOK d) (hx : ∀ x ∈ xs, x.Valid d.length) : RightOrOverflow (active n xs d) (fun as => as.Nodup ∧ ∀ a, a ∈ as ↔ InRange n a ∧ ∃ x ∈ xs, Poss d x a) := by
  refine (AllDifferent.mapAll_roo (P := fun x L => ∀ v, v ∈ L ↔ Poss d x v) xs fun x h => (listed_roo hd (hx x h)).bind fun g hg => (collect_roo hg).mono fun L hL => hL.2).bind fun vs hvs => .pure ⟨(nums_nodup n).sublist List.filter_sublist, fun a => ?_⟩
  rw [List.mem_filter, mem_nums, List.any_eq_true]
  refine and_congr_right fun _ => ⟨?_, ?_⟩
  · rintro ⟨l, hl, ha⟩
    obtain ⟨i, hi⟩ := List.getElem?_of_mem hl
    have hlt := (List.getElem?_eq_some_iff.1 hi).1
    have hxi : xs[i]? = some xs[i] := List.getElem?_eq_getElem (by omega)
    exact ⟨xs[i], List.getElem_mem _, (hvs.2 i _ _ hxi hi a).1 (of_decide_eq_true ha)⟩
  · rintro ⟨x, hx, h⟩
    obtain ⟨i, hi⟩ := List.getElem?_of_mem hx
    have hlt := (List.getElem?_eq_some_iff.1 hi).1
    have hvi : vs[i]? = some vs[i] := List.getElem?_eq_getElem (by omega)
    exact ⟨vs[i], List.getElem_mem _, decide_eq_true ((hvs.2 i _ _ hi hvi a).2 h)⟩

theorem takeWhile_ge {levels : List Int} (hs : levels.Pairwise (· < ·)) {c : Int} {i : Nat} {t : Int} (hi : (levels.takeWhile fun l => decide (l < c)).length ≤ i) (ht : levels[i]? = some t) : c ≤ t := by
  induction levels generalizing i with
  | nil => simp at ht
  | cons l ls ih =>
    obtain ⟨h1, h2⟩ := List.pairwise_cons.1 hs
    by_cases hl : l < c
    · rw [List.takeWhile_cons_of_pos (by simpa using hl), List.length_cons] at hi
      cases i with
      | zero => omega
      | succ i => exact ih h2 (Nat.le_of_succ_le_succ hi) (by simpa using ht)
    · cases i with
      | zero => simp at ht; omega
      | succ i => have := h1 t (List.mem_of_getElem? (by simpa using ht)); omega

/-- What the matching propagator concludes is right, and it does not throw what is not expected. -/
theorem judge_roo (hD : Distances D) {levels : List Int} (hsort : levels.Pairwise (· < ·)) (hlv : ∀ t ∈ levels, InI64 t) {ss : List (List Int)} {as : List Int} (nd : as.Nodup) (hr : ∀ a ∈ as, InRange D.length a) (hss : ∀ l ∈ ss, ∃ a ∈ as, a ∈ l) {p : Nat} (hp : ss.length = p) {b : Int × Int} :
    RightOrOverflow (judge D p levels (countAt ss) as b) (fun v => (v = .none → ∃ t, 1 ≤ t ∧ t ≤ b.1 ∧ ∀ S : List Int, S.Nodup → (∀ x ∈ S, x ∈ as) → Independent D t S → S.length < p) ∧
      ∀ t, v = .below t → InI64 t ∧ 1 ≤ t ∧ ∀ S : List Int, S.Nodup → (∀ x ∈ S, x ∈ as) → Independent D t S → S.length < p) := by
  have triv : RightOrOverflow (.ok .nothing : Chk Verdict) (fun v => (v = .none → ∃ t, 1 ≤ t ∧ t ≤ b.1 ∧ ∀ S : List Int, S.Nodup → (∀ x ∈ S, x ∈ as) → Independent D t S → S.length < p) ∧
      ∀ t, v = .below t → InI64 t ∧ 1 ≤ t ∧ ∀ S : List Int, S.Nodup → (∀ x ∈ S, x ∈ as) → Independent D t S → S.length < p) := .pure ⟨fun h => (nomatch h), fun _ h => (nomatch h)⟩
  unfold judge
  split
  · exact triv
  split
  · exact triv
  dsimp only
  split
  · exact triv
  rename_i hlohi
  have hlen := (List.takeWhile_prefix (p := fun l => decide (l ≤ b.2)) (l := levels)).length_le
  obtain ⟨r, e, hr'⟩ := search_ok (test := refuted D p as) (levels := levels) (lo := (levels.takeWhile fun l => decide (l < max b.1 1)).length) (fun t _ => by
      obtain ⟨es, us, e, _⟩ := matching_ok hD.square (t := t) as.length as (Nat.le_refl _) nd hr
      exact ⟨_, by rw [refuted, e]; rfl⟩) (levels.takeWhile fun l => decide (l ≤ b.2)).length (levels.takeWhile fun l => decide (l < max b.1 1)).length ((levels.takeWhile fun l => decide (l ≤ b.2)).length - 1) none
      (by omega) (Nat.le_refl _) (by omega) (by simp)
  rw [e]
  cases r with
  | none => exact triv
  | some i =>
    obtain ⟨hi, t, hget, ht⟩ := hr' i rfl
    have hge := takeWhile_ge hsort hi hget
    obtain ⟨es, us, em, h1, h2, h3⟩ := matching_ok hD.square (t := t) as.length as (Nat.le_refl _) nd hr
    have href : (as.length : Int) - es.length < p := by
      rw [refuted, em] at ht
      have ht : decide ((as.length : Int) - es.length < p) = true := by injection ht
      exact of_decide_eq_true ht
    have hall : ∀ S : List Int, S.Nodup → (∀ x ∈ S, x ∈ as) → Independent D t S → S.length < p := fun S k1 k2 k3 => by have := h3 S k1 k2 k3; omega
    show RightOrOverflow (do let t ← vecAt levels i; let r ← matching D t as.length as; let c ← guards (countAt ss) r.1 r.2; if c < 1 then throw .unexpected else return if t ≤ b.1 then Verdict.none else .below t) _
    rw [vecAt_ok.2 hget]
    show RightOrOverflow (do let r ← matching D t as.length as; let c ← guards (countAt ss) r.1 r.2; if c < 1 then throw .unexpected else return if t ≤ b.1 then Verdict.none else .below t) _
    rw [em]
    refine (addUp_roo _ 0 (by decide)).bind fun c hc => ?_
    have k1 := h2 (countAt ss)
    have k2 := sum_countAt (as := as) ss hss
    simp only [List.sum_append, List.length_append, List.length_map] at hc
    rw [if_neg (by omega)]
    refine .pure ?_
    split
    · exact ⟨fun _ => ⟨t, by omega, by assumption, hall⟩, fun _ h => (nomatch h)⟩
    · exact ⟨fun h => (nomatch h), fun t' h => by cases h; exact ⟨hlv t (List.mem_of_getElem? hget), by omega, hall⟩⟩

/-- What is chosen at a distance of at least `t` is independent. -/
theorem chosen {t : Int} (hD : Distances D) (ht : 1 ≤ t) {a : Asg} (hC : Means D Q xs z a) (hz : t ≤ z.eval a) : (at_ xs a).Nodup ∧ Independent D t (at_ xs a) := by
  have rng := hC.sites
  refine ⟨?_, fun x hx y hy hne => ?_⟩
  · rw [List.Nodup, List.pairwise_iff_getElem]
    intro i j hi hj hij e
    have := hC.least i j _ _ hij (List.getElem?_eq_getElem hi) (List.getElem?_eq_getElem hj)
    rw [← e, entry_self hD (rng _ (List.getElem_mem hi))] at this
    omega
  · obtain ⟨i, hi⟩ := List.getElem?_of_mem hx
    obtain ⟨j, hj⟩ := List.getElem?_of_mem hy
    rcases Nat.lt_trichotomy i j with h | h | h
    · have := hC.least i j _ _ h hi hj; omega
    · subst h; rw [hi] at hj; cases hj; exact absurd rfl hne
    · have := hC.least j i _ _ h hj hi
      rw [entry_symm hD (rng x hx) (rng y hy)]
      omega

/-- The matching propagator. -/
theorem ver_bound (ho : R .overflow) (hD : Fit D) (hz : z.Valid n) (hx : ∀ x ∈ xs, x.Valid n) {levels : List Int} (hsort : levels.Pairwise (· < ·)) (hlv : ∀ t ∈ levels, InI64 t) {ss : List (List Int)} (hlen : ss.length = xs.length)
    (hss : ∀ (i : Nat) x l, xs[i]? = some x → ss[i]? = some l → ∀ a, a ∈ l ↔ InRange D.length a ∧ Poss root x a) (hd : DomsOK d) (hl : d.length = n) (hs : Sites D xs d) (hroot : ∀ a, Within d a → Within root a) :
    (bound (σ := σ) (μ := μ) D z xs levels (countAt ss)).Ver (job n m R root D Q xs z) (fun _ => True) (Enforced (fun _ => True) (([] : List VarId).filterMap VarId.underlyingIndex) d) d := by
  obtain ⟨a0, ha0⟩ := exists_within hd
  refine ver_ask (f := fun d => do
    let as ← active D.length xs d
    let b ← bounds d z
    judge D xs.length levels (countAt ss) as b) (P := fun v => (v = .none → ∀ a, Within d a → ¬ Means D Q xs z a) ∧ ∀ t, v = .below t → InI64 t ∧ ∀ a, Within d a → Means D Q xs z a → z.eval a < t) ho ?_ fun v hv => ?_
  · refine (active_roo hd (hl ▸ hx)).bind fun as has => (bounds_roo hd (hl ▸ hz)).bind fun b hb => (judge_roo hD.ok hsort hlv has.1 (fun a ha => ((has.2 a).1 ha).1) (fun l hl' => ?_) hlen).mono fun v hv => ?_
    · obtain ⟨i, hi⟩ := List.getElem?_of_mem hl'
      have hlt := (List.getElem?_eq_some_iff.1 hi).1
      have hxi : xs[i]? = some xs[i] := List.getElem?_eq_getElem (by omega)
      have rng := hs a0 ha0 xs[i] (List.getElem_mem _)
      exact ⟨xs[i].eval a0, (has.2 _).2 ⟨rng, xs[i], List.getElem_mem _, ha0.poss _⟩, (hss i _ _ hxi hi _).2 ⟨rng, (hroot a0 ha0).poss _⟩⟩
    · have key : ∀ t, 1 ≤ t → (∀ S : List Int, S.Nodup → (∀ x ∈ S, x ∈ as) → Independent D t S → S.length < xs.length) → ∀ a, Within d a → Means D Q xs z a → z.eval a < t := fun t ht hS a ha hC => by
        refine Int.not_le.1 fun hle => ?_
        obtain ⟨k1, k2⟩ := chosen hD.ok ht hC hle
        have := hS _ k1 (fun v hv => by
          obtain ⟨x, hx, rfl⟩ := List.mem_map.1 hv
          exact (has.2 _).2 ⟨hs a ha x hx, x, hx, ha.poss x⟩) k2
        simp at this
      refine ⟨fun e a ha hC => ?_, fun t e => ⟨(hv.2 t e).1, key t (hv.2 t e).2.1 (hv.2 t e).2.2⟩⟩
      obtain ⟨t, ht, hle, hS⟩ := hv.1 e
      have := key t ht hS a ha hC
      have := hb.1.2.le ha
      omega
  · cases v with
    | nothing => exact ⟨fun _ _ _ => trivial, fun _ _ _ _ => trivial, fun _ _ _ => trivial⟩
    | none => exact fun a ha hC => hv.1 rfl a ha hC.2
    | below t => exact ver_tell (.lt hz (hv.2 t rfl).1) (fun a ha hC => (hv.2 t rfl).2 a ha hC.2) fun _ _ _ _ => ⟨fun _ _ _ => trivial, fun _ _ _ _ => trivial, fun _ _ _ => trivial⟩

end
end Gcs.MinDistance
