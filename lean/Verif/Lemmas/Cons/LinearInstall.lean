import Verif.Lemmas.Cons.Linear
import Verif.Lemmas.Cons.Reified

namespace Gcs
open IntervalSet

section
variable {σ μ α β : Type}

/-- Domains only shrink. -/
theorem ver_sub {J : Job} {S : α → Prop} {Q : α → Doms → Prop} : ∀ (p : Prog σ μ α) (d : Doms), p.Ver J S Q d → p.Ver J S (fun v d' => Q v d' ∧ ∀ a, Within d' a → Within d a) d
  | .ret _, _, h => ⟨h, fun _ h => h⟩
  | .raise _, _, h => h
  | .fail, _, h => h
  | .read k, d, h => fun s e => ver_sub (k s) d (h s e)
  | .infer _ _ k, _, h => ⟨h.1, h.2.1, fun d' h1 h2 h3 => ver_mono (fun _ _ hq => ⟨hq.1, fun a ha => ((h3 a).1 (hq.2 a ha)).1⟩) _ _ (ver_sub (k true) d' (h.2.2.1 d' h1 h2 h3)), h.2.2.2⟩
  | .progress k, d, h => fun b => ver_sub (k b) d (h b)
  | .watch _ _ k, d, h => ⟨h.1, h.2.1, h.2.2.1, h.2.2.2.1, ver_sub k d h.2.2.2.2⟩
  | .clearWatches k, d, h => ⟨h.1, ver_sub k d h.2⟩
  | .setWatchState _ _ k, d, h => ⟨h.1, ver_sub k d h.2⟩
  | .setState _ _ k, d, h => ⟨h.1, ver_sub k d h.2⟩
  | .setMem _ _, _, h => h.elim

theorem RightOrOverflow.bindEq {x : Chk α} {f : α → Chk β} {P : α → Prop} {Q : β → Prop} (h : RightOrOverflow x P) (hf : ∀ v, x = .ok v → P v → RightOrOverflow (f v) Q) : RightOrOverflow (x >>= f) Q := by
  rcases h with h | ⟨v, h, hp⟩
  · exact .inl (by rw [h]; rfl)
  · rw [h]; exact hf v h hp

theorem right_of_roo {n m : Nat} {R : Err → Prop} {root : Doms} {c : Posted σ μ} (h : RightOrOverflow (c.install root) (Posts n m R root c.holds c.about)) : c.Right n m R root (· = .overflow) := by
  refine ⟨fun items e => h.value e, fun e he => ?_⟩
  rcases h with h | ⟨v, h, _⟩
  · rw [h] at he; cases he; rfl
  · rw [h] at he; cases he

theorem Posts.mono {n m : Nat} {R : Err → Prop} {root : Doms} {C : Asg → Prop} {xs ys : List VarId} {items : List (Item σ μ)} (h : Posts n m R root C xs items) (hs : ∀ x ∈ xs, x ∈ ys) : Posts n m R root C ys items := by
  obtain ⟨es, e1, e2, e3⟩ := h
  refine ⟨es, e1, fun p hp => ?_, e3⟩
  obtain ⟨it, e⟩ := p
  cases it with
  | init pr f => exact e2 _ hp
  | prop f t => obtain ⟨zs, h1, h2⟩ := e2 _ hp; exact ⟨zs, fun y hy => hs y (h1 y hy), h2⟩

theorem Posts.congr {n m : Nat} {R : Err → Prop} {root : Doms} {C D : Asg → Prop} {xs : List VarId} {items : List (Item σ μ)} (h : Posts n m R root C xs items) (hc : ∀ a, C a ↔ D a) : Posts n m R root D xs items := by
  have : C = D := funext fun a => propext (hc a)
  exact this ▸ h

theorem Enforces.congr {n m : Nat} {R : Err → Prop} {root : Doms} {P Q : Asg → Prop} {xs : List VarId} {f : Prog σ μ PState} (h : Enforces n m R root P xs f) (hc : ∀ a, P a ↔ Q a) : Enforces n m R root Q xs f := by
  have : P = Q := funext fun a => propext (hc a)
  exact this ▸ h

theorem Enforces.mono {n m : Nat} {R : Err → Prop} {root : Doms} {P : Asg → Prop} {xs ys : List VarId} {f : Prog σ μ PState} (h : Enforces n m R root P xs f)
    (hs : ∀ v ∈ xs.filterMap VarId.underlyingIndex, v ∈ ys.filterMap VarId.underlyingIndex) : Enforces n m R root P ys f := fun d hd hl =>
  ver_mono (fun _ _ ⟨e1, e2, e3⟩ => ⟨fun hf => e1 fun v hv => hf v (hs v hv), fun hp hf => e2 hp fun v hv => hf v (hs v hv), e3⟩) _ _ (h d hd hl)

/-- A value is computed first. -/
theorem Enforces.lift {n m : Nat} {R : Err → Prop} {root : Doms} {P : Asg → Prop} {xs : List VarId} {x : Chk α} {f : α → Prog σ μ PState} {T : α → Prop} (ho : R .overflow) (hx : RightOrOverflow x T)
    (h : ∀ v, T v → Enforces n m R root P xs (f v)) : Enforces n m R root P xs (do f (← Prog.lift x)) := fun d hd hl => ver_lift ho hx fun v hv => h v hv d hd hl

end

namespace Linear

/-- The variables of a tidied sum. -/
def scope (ts : List Term) : List VarId := ts.map fun t => .simple t.var

theorem known_scope {ts : List Term} {d : Doms} (h : ∀ x ∈ scope ts, Known d x) : ∀ t ∈ ts, Known d (.simple t.var) := fun t ht => h _ (List.mem_map.2 ⟨t, ht, rfl⟩)

section
variable {σ μ : Type} {n m : Nat} {R : Err → Prop} {root : Doms} {ts : List Term} {value : Int}

theorem Ends.enforced {P : Asg → Prop} {d d' : Doms} {ps : PState} (h : Ends P ts ps d') (hs : ∀ a, Within d' a → Within d a) :
    Enforced (fun a => Within root a → P a) ((scope ts).filterMap VarId.underlyingIndex) d ps d' :=
  .intro (fun hk a ha _ => h.2 (fun t ht => (known_scope hk t ht).sub hs) a ha) (fun _ hk a ha _ => h.2 (known_scope hk) a ha) (by rintro rfl; cases h.1)

theorem propagate_le (ho : R .overflow) (hv : InI64 value) (ht : Tidy n ts) : Enforces n m R root (fun a => tsum ts a ≤ value) (scope ts) (propagate (σ := σ) (μ := μ) false ts value) := by
  intro d hd hl
  unfold propagate
  split
  · rename_i e; subst e
    split
    · rename_i h
      exact ⟨fun _ a _ _ => h, fun _ _ a _ _ => h, fun _ a _ _ => h⟩
    · rename_i h
      exact fun a _ hc => h hc.2
  · rename_i hne
    refine ver_mono (fun ps d' h => Ends.enforced h.1 h.2) _ _ (ver_sub (Q := Ends (fun a => tsum ts a ≤ value) ts) _ _ ?_)
    refine ver_ask (f := (readBounds · ts)) ho (readBounds_roo hd hl ht.var) fun bs hbs => ?_
    obtain ⟨rfl, hf⟩ := hbs
    have good : ∀ t ∈ bs, Good n (units (bs.map Bounded.term)) t.term := fun t h => ht.good _ (List.mem_map.2 ⟨t, h, rfl⟩)
    refine ver_lift ho (lowerSum_roo (inv := false) (s := 0) (by decide) fun t h => ⟨(good t h).coeff, hf t h⟩) fun sum hsum => ?_
    refine sweep_ver ho trivial hv hd hl ht.nodup (fun t h => ⟨good t h, hf t h⟩) hsum.2 (fun a ha hc => ?_) fun bs1 d1 hd1 hl1 hs1 e1 f1 l1 le1 _ _ => ?_
    · rw [hsum.1]
      have := hc.2
      simp only [esum]; simp; omega
    · refine ⟨rfl, ?_⟩
      have cap := capped (inv := false) (value := value) f1 (by have := le1 (fun h => hne (by rw [h]; rfl)); rw [hsum.1] at this; omega)
      rw [e1] at cap
      exact fun hk a ha => by have := cap hk a ha; simpa [esum] using this

theorem propagate_eq (ho : R .overflow) (hv : InI64 value) (ht : Tidy n ts) (he : ts = [] → value ≤ 0) : Enforces n m R root (fun a => tsum ts a = value) (scope ts) (propagate (σ := σ) (μ := μ) true ts value) := by
  intro d hd hl
  unfold propagate
  split
  · rename_i e; subst e
    have he := he rfl
    split
    · rename_i h
      have : (0 : Int) = value := by omega
      exact ⟨fun _ a _ _ => this, fun _ _ a _ _ => this, fun _ a _ _ => this⟩
    · rename_i h
      exact fun a _ hc => h (by have : (0 : Int) = value := hc.2; omega)
  · rename_i hne
    refine ver_mono (fun ps d' h => Ends.enforced h.1 h.2) _ _ (ver_sub (Q := Ends (fun a => tsum ts a = value) ts) _ _ ?_)
    refine ver_ask (f := (readBounds · ts)) ho (readBounds_roo hd hl ht.var) fun bs hbs => ?_
    rintro s rfl
    refine ver_mono (fun ps d' h => ⟨h.1, fun hk a ha => by have := h.2 hk a ha; omega⟩) _ _ (equalityLoop_ver (J := { n, m, R, C := fun a => Within root a ∧ tsum ts a = value }) (S := fun _ => True) (update := false) (fixed := 0) ho trivial hv (by decide) hne ht.nodup
      ht.good _ true bs _ hd hl (by show (List.map _ _).sum < _; omega) hbs.1 hbs.2 (fun h => nomatch h) (fun a _ hc => by have := hc.2; omega))

/-- What the loop looking for variables that are not fixed finds. -/
def ScanRight (d : Doms) (us ts : List Term) (accum : Int) : Unset → Prop
  | .many => ¬ ∀ t ∈ us ++ ts, Known d (.simple t.var)
  | .none acc => us = [] ∧ InI64 acc ∧ ∀ a, Within d a → accum + tsum ts a = acc
  | .one t acc => t ∈ us ++ ts ∧ ¬ Known d (.simple t.var) ∧ InI64 acc ∧ ∀ a, Within d a → accum + tsum (us ++ ts) a = acc + t.coeff * a t.var

theorem scan_roo {d : Doms} (hd : DomsOK d) (hl : d.length = n) : ∀ (ts : List Term) (unset : Option Term) (accum : Int), InI64 accum → (∀ t ∈ ts, InI64 t.coeff ∧ t.var < n) → (∀ t ∈ unset.toList, ¬ Known d (.simple t.var)) →
    RightOrOverflow (scan d unset accum ts) (ScanRight d unset.toList ts accum)
  | [], none, accum, ha, _, _ => .pure ⟨rfl, ha, fun a _ => by simp [tsum]⟩
  | [], some t, accum, ha, _, hu => .pure ⟨by simp, hu t (by simp), ha, fun a _ => by simp [tsum]⟩
  | t :: ts, unset, accum, ha, h, hu => by
    obtain ⟨h1, h2⟩ := h t (by simp)
    unfold scan
    refine (single_pin (x := .simple t.var) hd (hl.symm ▸ h2)).bind fun r hr => ?_
    cases r with
    | some v =>
      have hv := hr v
      have pin := hv.1.1 rfl
      refine (mul_roo h1 (hv.2 rfl)).bind fun p hp => (add_roo ha hp.2).bind fun q hq => ?_
      refine (scan_roo hd hl ts unset q hq.2 (fun u hu => h u (by simp [hu])) hu).mono fun x hx => ?_
      cases x with
      | many => exact fun hk => hx fun u hu => hk u (by rcases List.mem_append.1 hu with hu | hu <;> simp [hu])
      | none acc =>
        refine ⟨hx.1, hx.2.1, fun a ha => ?_⟩
        have := hx.2.2 a ha
        have e := pin a ha
        simp only [VarId.eval] at e
        rw [tsum_cons, e]; rw [hq.1, hp.1] at this; omega
      | one u acc =>
        refine ⟨by rcases List.mem_append.1 hx.1 with hu | hu <;> simp [hu], hx.2.1, hx.2.2.1, fun a ha => ?_⟩
        have := hx.2.2.2 a ha
        have e := pin a ha
        simp only [VarId.eval] at e
        rw [tsum_append] at this ⊢
        rw [tsum_cons, e]; rw [hq.1, hp.1] at this; omega
    | none =>
      have open_ : ¬ Known d (.simple t.var) := by
        intro hk
        obtain ⟨a, ha⟩ := exists_within hd
        have := (hr _).1.2 (hk.pinned ha)
        cases this
      cases unset with
      | some u => exact .pure fun hk => open_ (hk t (by simp))
      | none =>
        refine (scan_roo hd hl ts (some t) accum ha (fun u hu => h u (by simp [hu])) (by simpa using open_)).mono fun x hx => ?_
        cases x with
        | many => exact fun hk => hx (by simpa using hk)
        | none acc => exact absurd hx.1 (by simp)
        | one u acc => exact hx

/-- When exactly one variable is left. -/
theorem one_left {c residual : Int} (h0 : c ≠ 0) (x : Int) : (residual.tmod c ≠ 0 → c * x ≠ residual) ∧ (residual.tmod c = 0 → (c * x = residual ↔ x = residual.tdiv c)) := by
  constructor
  · rintro h rfl
    exact h (Int.mul_tmod_right c x)
  · intro h
    have e : c * residual.tdiv c = residual := by have := Int.mul_tdiv_add_tmod residual c; omega
    constructor
    · intro h1
      rw [← h1, Int.mul_tdiv_cancel_left _ h0]
    · rintro rfl; exact e

theorem Enforced.all {C : Asg → Prop} {vs : List Nat} {d d' : Doms} {ps : PState} (h : ∀ a, Within d' a → C a) : Enforced C vs d ps d' := ⟨fun _ => h, fun _ _ => h, fun _ => h⟩

theorem notEquals_enforces (ho : R .overflow) (hv : InI64 value) (ht : Tidy n ts) : Enforces n m R root (fun a => ¬ tsum ts a = value) (scope ts) (notEquals (σ := σ) (μ := μ) ts value) := by
  intro d hd hl
  refine ver_ask (f := (scan · none 0 ts)) ho (scan_roo hd hl ts none 0 (by decide) (fun t h => ⟨(ht.coeff t h).1, ht.var t h⟩) (by simp)) fun x hx => ?_
  cases x with
  | many => exact .intro (fun hk => absurd (fun t h => known_scope hk t (by simpa using h)) hx) (by rintro ⟨⟩) (by rintro ⟨⟩)
  | none acc =>
    have hx := hx.2.2
    simp only [Int.zero_add] at hx
    dsimp only
    split
    · rename_i e
      exact fun a ha hc => hc.2 ((hx a ha).trans e)
    · rename_i e
      exact Enforced.all fun a ha _ => by rw [hx a ha]; exact e
  | one t acc =>
    obtain ⟨hm, _, hacc, hx⟩ := hx
    simp only [Option.toList_none, List.nil_append, Int.zero_add] at hm hx
    obtain ⟨hc, h0⟩ := ht.coeff t hm
    refine ver_lift ho (sub_roo hv hacc) fun res hres => ?_
    refine ver_lift ho (mod_roo hres.2 hc h0) fun rest hrest => ?_
    have key : ∀ a, Within d a → (tsum ts a = value ↔ t.coeff * a t.var = res) := fun a ha => by have := hx a ha; rw [hres.1]; omega
    split
    · rename_i hz
      refine ver_lift ho (div_roo hres.2 hc h0) fun q hq => ?_
      have one := fun x => (one_left (c := t.coeff) (residual := res) h0 x).2 (hrest ▸ hz)
      refine ver_ask (f := (inDomain · (.simple t.var) q)) ho (inDomain_spec (v := .simple t.var) hd (hl.symm ▸ ht.var t hm) q hq.2) fun b hb => ?_
      cases b with
      | true =>
        refine ver_tell (.ne (ht.var t hm) hq.2) (fun a ha hC e => hC.2 ((key a ha).2 ((one _).2 (e.trans hq.1)))) fun d' _ _ hw => ?_
        exact Enforced.all fun a ha _ e => ((hw a).1 ha).2 (((one _).1 ((key a ((hw a).1 ha).1).1 e)).trans hq.1.symm)
      | false =>
        refine Enforced.all fun a ha _ e => ?_
        have : a t.var = q := ((one _).1 ((key a ha).1 e)).trans hq.1.symm
        exact absurd (hb.2 (this ▸ ha.poss (.simple t.var))) (by simp)
    · rename_i hz
      exact Enforced.all fun a ha _ e => (one_left h0 _).1 (hrest ▸ hz) ((key a ha).1 e)

theorem whenUndecided_enforces (ho : R .overflow) (hv : InI64 value) (ht : Tidy n ts) {r : Reif} (hr : r.Valid n) (hm : r ≠ .mustHold) (he : (∃ c, r = .ifCond c ∨ r = .iffCond c) → ts = [] → value ≤ 0) :
    Enforces n m R root (fun a => r.holds (fun a => tsum ts a = value) a) (scope ts ++ r.vars) (whenUndecided (σ := σ) (μ := μ) r ts value) := by
  intro d hd hl
  refine ver_ask' (f := (r.test ·)) (fun e he' => ?_) fun e0 e => ?_
  · rcases reif_test_spec hd hl hr with h | ⟨v, h, _⟩ <;> rw [h] at he' <;> cases he'; exact ho
  have ev := (reif_test_spec hd hl hr).value e
  have transfer : ∀ {K : Asg → Prop} {ps : PState} {d' : Doms}, (∀ a, Within d' a → Within d a) → (∀ a, Within d a → (r.holds (fun a => tsum ts a = value) a ↔ K a)) →
      Enforced (fun a => Within root a → K a) ((scope ts).filterMap VarId.underlyingIndex) d ps d' →
      Enforced (fun a => Within root a → r.holds (fun a => tsum ts a = value) a) ((scope ts ++ r.vars).filterMap VarId.underlyingIndex) d ps d' := by
    rintro K ps d' hs hk ⟨e1, e2, e3⟩
    have sub : ∀ v ∈ (scope ts).filterMap VarId.underlyingIndex, v ∈ (scope ts ++ r.vars).filterMap VarId.underlyingIndex := fun v hv => by rw [List.filterMap_append]; exact List.mem_append_left _ hv
    exact ⟨fun hf a ha hw => (hk a (hs a ha)).2 (e1 (fun v hv => hf v (sub v hv)) a ha hw), fun hp hf a ha hw => (hk a (hs a ha)).2 (e2 hp (fun v hv => hf v (sub v hv)) a ha hw),
      fun hp a ha hw => (hk a (hs a ha)).2 (e3 hp a ha hw)⟩
  cases e0 with
  | mustHold l =>
    have he' : ts = [] → value ≤ 0 := by
      intro h0
      cases r with
      | mustHold => exact absurd rfl hm
      | mustNotHold => cases e
      | ifCond c => exact he ⟨c, .inl rfl⟩ h0
      | notIf c =>
        simp only [Reif.test] at e
        obtain ⟨x, _, e⟩ := bind_ok e
        cases x <;> cases e
      | iffCond c => exact he ⟨c, .inr rfl⟩ h0
    refine ver_mono (fun ps d' h => transfer h.2 (fun a ha => ev.2.2 _ a ha) h.1) _ _ (ver_sub _ _ ?_)
    exact ver_weaken (J := { n, m, R, C := fun a => Within root a ∧ tsum ts a = value }) _ d (fun a ha hh => ⟨hh.1, (ev.2.2 _ a ha).1 hh.2⟩) (propagate_eq ho hv ht he' d hd hl)
  | mustNotHold l =>
    refine ver_mono (fun ps d' h => transfer h.2 (fun a ha => ev.2.2 _ a ha) h.1) _ _ (ver_sub _ _ ?_)
    exact ver_weaken (J := { n, m, R, C := fun a => Within root a ∧ ¬ tsum ts a = value }) _ d (fun a ha hh => ⟨hh.1, (ev.2.2 _ a ha).1 hh.2⟩) (notEquals_enforces ho hv ht d hd hl)
  | deactivated => exact Enforced.all fun a ha _ => ev _ a ha
  | undecided c b1 b2 b3 =>
    obtain ⟨hcv, hmem, hvars, hu1, hu2, hm1, hm2, hval⟩ := ev
    have open_ : ¬ ∀ x ∈ scope ts ++ r.vars, Known d x := fun h => by
      rcases cond_known (h c.var (List.mem_append_right _ hmem)) hd with h | h
      · exact hu1 h
      · exact hu2 h
    have still : Enforced (fun a => Within root a → r.holds (fun a => tsum ts a = value) a) ((scope ts ++ r.vars).filterMap VarId.underlyingIndex) d .enable d :=
      .intro (fun h => absurd h open_) (by rintro ⟨⟩) (by rintro ⟨⟩)
    have done : ∀ (o : Option Lit), (∀ l, o = some l → l.Valid n) → (∀ a, Within d a → (r.holds (fun a => tsum ts a = value) a ↔ OptHolds a o)) →
        (do Prog.tellAny o; return PState.disableUntilBacktrack : Prog σ μ PState).Ver { n, m, R, C := fun a => Within root a ∧ r.holds (fun a => tsum ts a = value) a } (fun _ => True)
          (Enforced (fun a => Within root a → r.holds (fun a => tsum ts a = value) a) ((scope ts ++ r.vars).filterMap VarId.underlyingIndex) d) d := by
      intro o hv hh
      cases o with
      | none => exact Enforced.all fun a ha _ => (hh a ha).2 trivial
      | some l =>
        refine ver_tell (hv l rfl) (fun a ha hc => (hh a ha).1 hc.2) fun d2 _ _ h3 => ?_
        exact Enforced.all fun a ha hw => (hh a ((h3 a).1 ha).1).2 ((h3 a).1 ha).2
    refine ver_ask (f := (scan · none 0 ts)) ho (scan_roo hd hl ts none 0 (by decide) (fun t h => ⟨(ht.coeff t h).1, ht.var t h⟩) (by simp)) fun x hx => ?_
    cases x with
    | many => exact still
    | none acc =>
      have hx := hx.2.2
      simp only [Int.zero_add] at hx
      by_cases e : acc = value
      · simp only [if_pos e]
        exact done _ (fun l hl => hval l (.inl hl)) fun a ha => hm1 (fun a => tsum ts a = value) a ((hx a ha).trans e)
      · simp only [if_neg e]
        exact done _ (fun l hl => hval l (.inr hl)) fun a ha => hm2 (fun a => tsum ts a = value) a (by rw [hx a ha]; exact e)
    | one t acc =>
      obtain ⟨hm, _, hacc, hx⟩ := hx
      simp only [Option.toList_none, List.nil_append, Int.zero_add] at hm hx
      obtain ⟨hc, h0⟩ := ht.coeff t hm
      refine ver_lift ho (sub_roo hv hacc) fun res hres => ?_
      refine ver_lift ho (mod_roo hres.2 hc h0) fun rest hrest => ?_
      have key : ∀ a, Within d a → (tsum ts a = value ↔ t.coeff * a t.var = res) := fun a ha => by have := hx a ha; rw [hres.1]; omega
      have never : (∀ a, Within d a → ¬ tsum ts a = value) → _ := fun h => done _ (fun l hl => hval l (.inr hl)) fun a ha => hm2 (fun a => tsum ts a = value) a (h a ha)
      split
      · rename_i hz
        refine ver_lift ho (div_roo hres.2 hc h0) fun q hq => ?_
        have one := fun x => (one_left (c := t.coeff) (residual := res) h0 x).2 (hrest ▸ hz)
        refine ver_ask (f := (inDomain · (.simple t.var) q)) ho (inDomain_spec (v := .simple t.var) hd (hl.symm ▸ ht.var t hm) q hq.2) fun b hb => ?_
        cases b with
        | true => exact still
        | false =>
          refine never fun a ha e => ?_
          have : a t.var = q := ((one _).1 ((key a ha).1 e)).trans hq.1.symm
          exact absurd (hb.2 (this ▸ ha.poss (.simple t.var))) (by simp)
      · rename_i hz
        exact never fun a ha e => (one_left h0 _).1 (hrest ▸ hz) ((key a ha).1 e)

theorem range_roo {d : Doms} (hd : DomsOK d) (hl : d.length = n) : ∀ (ts : List Term) (mn mx : Int), InI64 mn → InI64 mx → (∀ t ∈ ts, InI64 t.coeff ∧ t.var < n) →
    RightOrOverflow (range d mn mx ts) (fun x => (∀ a, Within d a → x.1 - mn ≤ tsum ts a ∧ tsum ts a ≤ x.2 - mx) ∧ ((∀ t ∈ ts, Known d (.simple t.var)) → ∀ a, Within d a → tsum ts a = x.1 - mn ∧ tsum ts a = x.2 - mx))
  | [], mn, mx, _, _, _ => .pure ⟨fun a _ => by simp [tsum], fun _ a _ => by simp [tsum]⟩
  | t :: ts, mn, mx, h1, h2, h => by
    obtain ⟨hc, hv⟩ := h t (by simp)
    unfold range
    refine (bounds_roo (v := .simple t.var) hd (hl ▸ hv)).bind fun b hb => ?_
    have rest : ∀ {p q : Int} {x : Int × Int}, (∀ a, Within d a → p ≤ t.coeff * a t.var ∧ t.coeff * a t.var ≤ q) → (Known d (.simple t.var) → ∀ a, Within d a → t.coeff * a t.var = p ∧ t.coeff * a t.var = q) →
        ((∀ a, Within d a → x.1 - (mn + p) ≤ tsum ts a ∧ tsum ts a ≤ x.2 - (mx + q)) ∧ ((∀ t ∈ ts, Known d (.simple t.var)) → ∀ a, Within d a → tsum ts a = x.1 - (mn + p) ∧ tsum ts a = x.2 - (mx + q))) →
        (∀ a, Within d a → x.1 - mn ≤ tsum (t :: ts) a ∧ tsum (t :: ts) a ≤ x.2 - mx) ∧ ((∀ u ∈ t :: ts, Known d (.simple u.var)) → ∀ a, Within d a → tsum (t :: ts) a = x.1 - mn ∧ tsum (t :: ts) a = x.2 - mx) := by
      intro p q x hp hq hx
      refine ⟨fun a ha => ?_, fun hk a ha => ?_⟩
      · have := hp a ha; have := hx.1 a ha; rw [tsum_cons]; omega
      · have := hq (hk t (by simp)) a ha; have := hx.2 (fun u hu => hk u (by simp [hu])) a ha; rw [tsum_cons]; omega
    have lo : ∀ a, Within d a → b.1 ≤ a t.var := fun a ha => hb.1.2.le ha
    have hi : ∀ a, Within d a → a t.var ≤ b.2 := fun a ha => hb.2.2.ge ha
    have elo : Known d (.simple t.var) → ∀ a, Within d a → b.1 = a t.var := fun hk a ha => hb.1.2.eq hk ha
    have ehi : Known d (.simple t.var) → ∀ a, Within d a → b.2 = a t.var := fun hk a ha => hb.2.2.eq hk ha
    split
    · rename_i hp
      refine (mul_roo hc hb.1.1).bind fun p hp1 => (add_roo h1 hp1.2).bind fun mn' hmn => (mul_roo hc hb.2.1).bind fun q hq1 => (add_roo h2 hq1.2).bind fun mx' hmx => ?_
      refine (range_roo hd hl ts mn' mx' hmn.2 hmx.2 fun u hu => h u (by simp [hu])).mono fun x hx => ?_
      rw [hmn.1, hmx.1] at hx
      refine rest (fun a ha => ?_) (fun hk a ha => ?_) hx
      · rw [hp1.1, hq1.1]; exact ⟨Int.mul_le_mul_of_nonneg_left (lo a ha) hp, Int.mul_le_mul_of_nonneg_left (hi a ha) hp⟩
      · rw [hp1.1, hq1.1, elo hk a ha, ehi hk a ha]; exact ⟨rfl, rfl⟩
    · rename_i hp
      refine (mul_roo hc hb.2.1).bind fun p hp1 => (add_roo h1 hp1.2).bind fun mn' hmn => (mul_roo hc hb.1.1).bind fun q hq1 => (add_roo h2 hq1.2).bind fun mx' hmx => ?_
      refine (range_roo hd hl ts mn' mx' hmn.2 hmx.2 fun u hu => h u (by simp [hu])).mono fun x hx => ?_
      rw [hmn.1, hmx.1] at hx
      refine rest (fun a ha => ?_) (fun hk a ha => ?_) hx
      · rw [hp1.1, hq1.1]; exact ⟨Int.mul_le_mul_of_nonpos_left (by omega) (hi a ha), Int.mul_le_mul_of_nonpos_left (by omega) (lo a ha)⟩
      · rw [hp1.1, hq1.1, elo hk a ha, ehi hk a ha]; exact ⟨rfl, rfl⟩

theorem verdict_judges {modifier : Int} (ho : R .overflow) (hv : InI64 value) (hm : InI64 modifier) (ht : Tidy n ts) : Judges n m R root (fun a => tsum ts a ≤ value + modifier) (scope ts) (verdict (σ := σ) (μ := μ) ts value modifier) := by
  intro d hd hl
  refine ver_ask (f := (range · 0 0 ts)) ho (range_roo hd hl ts 0 0 (by decide) (by decide) fun t h => ⟨(ht.coeff t h).1, ht.var t h⟩) fun x hx => ?_
  refine ver_lift ho (add_roo hv hm) fun v hv => ?_
  obtain ⟨rfl, _⟩ := hv
  obtain ⟨h1, h2⟩ := hx
  refine ver_pure ⟨rfl, fun e a ha _ => ?_, fun e a ha _ => ?_, fun e hk a ha _ => ?_⟩
  · have := h1 a ha
    split at e
    · cases e
    · split at e
      · show _ ≤ _; omega
      · cases e
  · have := h1 a ha
    split at e
    · show ¬ _ ≤ _; omega
    · split at e <;> cases e
  · have := h2 (known_scope hk) a ha
    split at e
    · cases e
    · split at e
      · cases e
      · omega

variable {terms : List WTerm}

/-- The variables in a sum. -/
def about (terms : List WTerm) (r : Reif) : List VarId := (varsOf terms).map .simple ++ r.vars

theorem scope_sub {r : Reif} (h : ∀ t ∈ ts, t.var ∈ varsOf terms) : ∀ x ∈ scope ts ++ r.vars, x ∈ about terms r := by
  intro x hx
  rcases List.mem_append.1 hx with hx | hx
  · obtain ⟨t, ht, rfl⟩ := List.mem_map.1 hx
    exact List.mem_append_left _ (List.mem_map.2 ⟨_, h t ht, rfl⟩)
  · exact List.mem_append_right _ hx

theorem inequality_roo (ho : R .overflow) (hd : DomsOK root) (hl : root.length = n) (ht : TermsOK n terms) (hv : InI64 value) {r : Reif} (hr : r.Valid n) :
    RightOrOverflow (inequality (σ := σ) (μ := μ) terms value r root) (Posts n m R root (fun a => r.holds (fun a => wsum terms a ≤ value) a) (about terms r)) := by
  refine (reif_test_spec hd hl hr).bindEq fun e he _ => (tidy_roo ht).bind fun x hx => (negate_roo ht).bind fun nt hnt => (tidy_roo hnt.1).bind fun y hy => .pure ?_
  obtain ⟨tx, ix, vx, sx⟩ := hx
  obtain ⟨ty, iy, vy, sy⟩ := hy
  have same : ∀ v ∈ (scope y.1).filterMap VarId.underlyingIndex, v ∈ (scope x.1).filterMap VarId.underlyingIndex := by
    intro v hv
    obtain ⟨z, hz, e⟩ := List.mem_filterMap.1 hv
    obtain ⟨u, hu, rfl⟩ := List.mem_map.1 hz
    cases e
    have := same_vars (p := x.2) (q := y.2) ty (fun a => by rw [← sy a, ← sx a]; exact hnt.2.1 a) u hu
    obtain ⟨t, ht, e⟩ := List.mem_map.1 this
    exact List.mem_filterMap.2 ⟨.simple t.var, List.mem_map.2 ⟨t, ht, rfl⟩, by simp [VarId.underlyingIndex, e]⟩
  refine (Posts.mono (dispatcher_posts ho hd hl hr (P := fun a => wsum terms a ≤ value) (xs := scope x.1) ?_ ?_ ?_ ?_ rfl he) (scope_sub vx))
  · refine Enforces.lift ho (add_roo hv ix) fun v h => ?_
    refine (propagate_le ho h.2 tx).congr fun a => ?_
    have := sx a; rw [h.1]; omega
  · refine Enforces.lift (T := fun v => v = -value + y.2 - 1 ∧ InI64 v) ho ((neg_roo hv).bind fun p hp => (add_roo hp.2 iy).bind fun q hq => ?_) fun v h => ?_
    · rw [hp.1] at hq; rw [← hq.1]; exact sub_roo hq.2 (by decide)
    refine ((propagate_le ho h.2 ty).congr fun a => ?_).mono same
    have := sy a; have := hnt.2.1 a; rw [h.1]; omega
  · refine cast ?_ (verdict_judges (σ := σ) (μ := μ) (m := m) (root := root) ho hv ix tx)
    congr 1
    funext a
    have := sx a
    exact propext ⟨fun h => by omega, fun h => by omega⟩
  · intro z hz v hv
    exact ⟨z, .inr (.inl hz), hv⟩

theorem wakes_terms {t : Triggers} (h : ∀ u ∈ ts, u.var ∈ varsOf terms) (ht : t.onChange = terms.map (·.2) ∨ t.onBounds = terms.map (·.2)) : Wakes t (scope ts) := by
  intro z hz v hv
  obtain ⟨u, hu, rfl⟩ := List.mem_map.1 hz
  obtain ⟨w, hw, e⟩ := List.mem_filterMap.1 (h u hu)
  refine ⟨w.2, ?_, e.trans hv⟩
  rcases ht with ht | ht
  · exact .inl (ht ▸ List.mem_map.2 ⟨w, hw, rfl⟩)
  · exact .inr (.inl (ht ▸ List.mem_map.2 ⟨w, hw, rfl⟩))

theorem constantIs_roo {modifier : Int} (hv : InI64 value) : RightOrOverflow (constantIs ts modifier value) (fun b => (ts = [] → b = some (decide (modifier = -value))) ∧ (ts ≠ [] → b = none)) := by
  unfold constantIs
  split
  · exact (neg_roo hv).bind fun p hp => .pure ⟨fun _ => by rw [hp.1], fun h => absurd ‹_› h⟩
  · exact .pure ⟨fun h => absurd h ‹_›, fun _ => rfl⟩

/-- A propagator, with failing at once before it. -/
theorem posts_ff {C : Asg → Prop} {xs ys : List VarId} {f : Prog σ μ PState} {t : Triggers} {P : Asg → Prop} (hc : ∀ a, Within root a → ¬ C a) (hf : Enforces n m R root P ys f) (hy : ∀ y ∈ ys, y ∈ xs) (hw : Wakes t ys) (ht : t.refined = []) :
    Posts n m R root C xs [.init .simpleDefinition (.tell .ff), .prop f t] := by
  refine ⟨[(_, fun _ => False), (_, P)], rfl, fun p hp => ?_, fun a ha => ⟨fun h => absurd h (hc a ha), fun h => (h (_, fun _ => False) List.mem_cons_self).elim⟩⟩
  simp only [List.mem_cons, List.not_mem_nil, or_false] at hp
  rcases hp with rfl | rfl
  · exact fun d _ _ => ver_tell_last trivial (fun a _ hC => absurd hC.2 (hc a hC.1)) fun d' _ _ h a ha _ => ((h a).1 ha).2
  · refine ⟨ys, hy, hw, by simp [ht], fun d h1 h2 => ?_⟩
    exact ver_mono (fun _ _ h => Enforced.when h) _ _ (ver_weaken (J := { n, m, R, C := fun a => Within root a ∧ P a }) f d (fun a _ hh => absurd hh.2 (hc a hh.1)) (hf d h1 h2))

theorem posts_prop {C : Asg → Prop} {xs ys : List VarId} {f : Prog σ μ PState} {t : Triggers} {P : Asg → Prop} (hc : ∀ a, Within root a → (C a ↔ P a)) (hf : Enforces n m R root P ys f) (hy : ∀ y ∈ ys, y ∈ xs) (hw : Wakes t ys) (ht : t.refined = []) :
    Posts n m R root C xs [.prop f t] := .one' P ⟨ys, hy, hf.implements hc hw ht⟩ hc

theorem equality_roo (ho : R .overflow) (hd : DomsOK root) (hl : root.length = n) (ht : TermsOK n terms) (hv : InI64 value) {r : Reif} (hr : r.Valid n)
    (hx : (∃ c, r = .ifCond c ∨ r = .iffCond c) → ∃ a, value ≤ wsum terms a) :
    RightOrOverflow (equality (σ := σ) (μ := μ) terms value r root) (Posts n m R root (fun a => r.holds (fun a => wsum terms a = value) a) (about terms r)) := by
  refine (reif_test_spec hd hl hr).bindEq fun e he ev => (tidy_roo ht).bind fun x hx' => ?_
  obtain ⟨tx, ix, vx, sx⟩ := hx'
  have sub := scope_sub (r := r) vx
  have sub' : ∀ y ∈ scope x.1, y ∈ about terms r := fun y hy => sub y (List.mem_append_left _ hy)
  have iff : ∀ a, wsum terms a = value ↔ tsum x.1 a = value + x.2 := fun a => by have := sx a; omega
  cases e with
  | deactivated => exact .pure (.nil fun a ha => ev _ a ha)
  | mustHold l =>
    refine (constantIs_roo (ts := x.1) (modifier := x.2) hv).bind fun b hb => .pure ?_
    have hw := wakes_terms (ts := x.1) (terms := terms) (t := { onBounds := terms.map (·.2) }) vx (.inr rfl)
    have hC : ∀ a, Within root a → (r.holds (fun a => wsum terms a = value) a ↔ tsum x.1 a = value + x.2) := fun a ha => (ev.2.2 _ a ha).trans (iff a)
    by_cases hbad : b = some false
    · rw [if_pos hbad]
      have e0 : x.1 = [] := Classical.byContradiction fun h => by rw [hb.2 h] at hbad; cases hbad
      have ne : x.2 ≠ -value := by have := hb.1 e0; rw [this] at hbad; simpa using hbad
      refine posts_ff (P := fun a => tsum x.1 a ≤ value + x.2) (ys := scope x.1) (fun a ha h => ?_) (Enforces.lift ho (add_roo hv ix) fun v h => ?_) sub' hw rfl
      · have := (hC a ha).1 h
        rw [e0, tsum_nil] at this; omega
      · have := propagate_le (σ := σ) (μ := μ) (m := m) (root := root) ho h.2 tx
        rw [h.1] at this ⊢
        rw [e0] at this ⊢
        exact this
    · rw [if_neg hbad]
      refine posts_prop (P := fun a => tsum x.1 a = value + x.2) (ys := scope x.1) hC (Enforces.lift ho (add_roo hv ix) fun v h => ?_) sub' hw rfl
      rw [← h.1]
      refine propagate_eq ho h.2 tx fun e0 => ?_
      have : x.2 = -value := Classical.byContradiction fun h => hbad (by rw [hb.1 e0]; simp [h])
      omega
  | mustNotHold l =>
    refine (constantIs_roo (ts := x.1) (modifier := x.2) hv).bind fun b hb => (add_roo hv ix).bind fun v h => .pure ?_
    have hw := wakes_terms (ts := x.1) (terms := terms) (t := { onChange := terms.map (·.2) }) vx (.inl rfl)
    have hC : ∀ a, Within root a → (r.holds (fun a => wsum terms a = value) a ↔ ¬ tsum x.1 a = v) := fun a ha => (ev.2.2 _ a ha).trans (not_congr (by rw [h.1]; exact iff a))
    by_cases hbad : b = some true
    · rw [if_pos hbad]
      have e0 : x.1 = [] := Classical.byContradiction fun h => by rw [hb.2 h] at hbad; cases hbad
      have ne : x.2 = -value := by have := hb.1 e0; rw [this] at hbad; simpa using hbad
      refine posts_ff (ys := scope x.1) (fun a ha h' => (hC a ha).1 h' ?_) (notEquals_enforces ho h.2 tx) sub' hw rfl
      rw [e0, tsum_nil]; omega
    · rw [if_neg hbad]
      exact posts_prop hC (notEquals_enforces ho h.2 tx) sub' hw rfl
  | undecided c b1 b2 b3 =>
    refine (add_roo hv ix).bind fun v h => .pure ?_
    have hm : r ≠ .mustHold := by rintro rfl; cases he
    obtain ⟨_, _, hvars, _⟩ := ev
    refine posts_prop (P := fun a => r.holds (fun a => tsum x.1 a = v) a) (ys := scope x.1 ++ r.vars) (fun a _ => ?_) (whenUndecided_enforces ho h.2 tx hr hm fun hc e0 => ?_) sub ?_ (addFor_refined _)
    · have : (fun a => wsum terms a = value) = fun a => tsum x.1 a = v := funext fun a => propext (by rw [h.1]; exact iff a)
      rw [this]
    · obtain ⟨a, ha⟩ := hx hc
      have := sx a
      rw [e0, tsum_nil] at this; omega
    · intro z hz v hv
      rcases List.mem_append.1 hz with hz | hz
      · obtain ⟨y, hy, e⟩ := wakes_terms (ts := x.1) (terms := terms) (t := { onChange := terms.map (·.2) }) vx (.inl rfl) z hz v hv
        exact wakes_addFor (.cond c) hy e
      · rw [hvars, List.mem_singleton] at hz
        subst hz
        exact ⟨_, (wakes_cond c).elim .inl fun h => .inr (.inl h), hv⟩

theorem greaterEqual_roo (ho : R .overflow) (hd : DomsOK root) (hl : root.length = n) (ht : TermsOK n terms) (hv : InI64 value) {r : Reif} (hr : r.Valid n) :
    RightOrOverflow (greaterEqual (σ := σ) (μ := μ) terms value r root) (Posts n m R root (fun a => r.holds (fun a => wsum terms a ≥ value) a) (about terms r)) := by
  refine (negate_roo ht).bind fun nt hnt => (neg_roo hv).bind fun nv hnv => (inequality_roo (m := m) ho hd hl hnt.1 hnv.2 hr).mono fun items h => ?_
  have e1 : about nt r = about terms r := by
    have : ∀ ts : List WTerm, varsOf ts = (ts.map (·.2)).filterMap VarId.underlyingIndex := fun ts => by simp [varsOf, List.filterMap_map]; rfl
    unfold about; rw [this, this, hnt.2.2]
  have e2 : (fun a => wsum nt a ≤ nv) = fun a => wsum terms a ≥ value := funext fun a => propext (by rw [hnt.2.1 a, hnv.1]; omega)
  rw [e1, e2] at h
  exact h

end
end Linear
end Gcs
