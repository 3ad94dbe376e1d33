import Verif.Model.Cons.LinearIncremental
import Verif.Lemmas.Cons.LinearInstall
import Verif.Lemmas.Cons.ReifiedState
import Verif.Lemmas.Cons.ValueConsistent

/-!
# The incremental propagator for linear equations and inequalities
-/

namespace Gcs.Linear
open IntervalSet AllDifferent

theorem tsum_perm {ts us : List Term} (h : ts.Perm us) (a : Asg) : tsum ts a = tsum us a := by
  induction h with
  | nil => rfl
  | cons x _ ih => rw [tsum_cons, tsum_cons, ih]
  | swap x y l => simp only [tsum_cons]; omega
  | trans _ _ h1 h2 => rw [h1, h2]

/-- The equation or inequality holds. -/
def Meets (equality : Bool) (value x : Int) : Prop := if equality then x = value else x ≤ value

theorem meets_eq {value x : Int} : Meets true value x ↔ x = value := Iff.rfl
theorem meets_le {value x : Int} : Meets false value x ↔ x ≤ value := Iff.rfl

/-- What has been left out: the sum of these terms is known. -/
structure Left (ts : List Term) (d : Doms) (st : Fold) : Prop where
  ne : st.active ≠ []
  fixedI : InI64 st.fixed
  rest : ∃ us, ts.Perm (st.active ++ us) ∧ (∀ t ∈ us, Known d (.simple t.var)) ∧ ∀ a, Within d a → tsum us a = st.fixed

theorem Left.sum {ts : List Term} {d : Doms} {st : Fold} (h : Left ts d st) {a : Asg} (ha : Within d a) : tsum ts a = st.fixed + tsum st.active a := by
  obtain ⟨us, h1, _, h3⟩ := h.rest
  rw [tsum_perm h1, tsum_append, h3 a ha]; omega

theorem Left.known {ts : List Term} {d : Doms} {st : Fold} (h : Left ts d st) (hk : ∀ t ∈ st.active, Known d (.simple t.var)) : ∀ t ∈ ts, Known d (.simple t.var) := by
  obtain ⟨us, h1, h2, _⟩ := h.rest
  intro t ht
  rcases List.mem_append.1 (h1.mem_iff.1 ht) with ht | ht
  · exact hk t ht
  · exact h2 t ht

theorem Left.mem {ts : List Term} {d : Doms} {st : Fold} (h : Left ts d st) : ∀ t ∈ st.active, t ∈ ts := by
  obtain ⟨us, h1, _, _⟩ := h.rest
  exact fun t ht => h1.mem_iff.2 (List.mem_append_left _ ht)

theorem Left.nodup {ts : List Term} {d : Doms} {st : Fold} (h : Left ts d st) (hn : (ts.map Term.var).Nodup) : (st.active.map Term.var).Nodup := by
  obtain ⟨us, h1, _, _⟩ := h.rest
  have := (h1.map Term.var).nodup_iff.1 hn
  rw [List.map_append] at this
  exact (List.nodup_append.1 this).1

theorem Left.sub {ts : List Term} {d d' : Doms} {st : Fold} (h : Left ts d st) (hs : ∀ a, Within d' a → Within d a) : Left ts d' st := by
  obtain ⟨us, h1, h2, h3⟩ := h.rest
  exact ⟨h.ne, h.fixedI, us, h1, fun t ht => (h2 t ht).sub hs, fun a ha => h3 a (hs a ha)⟩

theorem Left.reorder {ts vs : List Term} {d : Doms} {st : Fold} (h : Left ts d st) (hp : vs.Perm st.active) : Left ts d ⟨vs, st.fixed⟩ := by
  obtain ⟨us, h1, h2, h3⟩ := h.rest
  refine ⟨fun e => h.ne ?_, h.fixedI, us, h1.trans (hp.symm.append_right us), h2, h3⟩
  have e : vs = [] := e
  subst e
  exact List.Perm.eq_nil hp.symm

theorem fold_roo {n : Nat} {ts : List Term} {d : Doms} (hd : DomsOK d) (hl : d.length = n) (ht : Tidy n ts) : ∀ (f k : Nat) (active : List Term) (fixed : Int), Left ts d ⟨active, fixed⟩ → active.length + (active.length - k) < f →
    RightOrOverflow (fold d f k active fixed) (Left ts d)
  | 0, _, _, _, _, h => by omega
  | f + 1, k, active, fixed, h, hf => by
    unfold fold
    split
    · rename_i hlen
      cases hk : active[k]? with
      | none => exact .pure h
      | some t =>
        have hmem := h.mem t (List.mem_of_getElem? hk)
        have hlt := (List.getElem?_eq_some_iff.1 hk).1
        dsimp only
        refine (single_pin (x := .simple t.var) hd (hl.symm ▸ ht.var t hmem)).bind fun r hr => ?_
        cases r with
        | none => exact fold_roo hd hl ht f (k + 1) active fixed h (by omega)
        | some v =>
          have hv := hr v
          have pin := hv.1.1 rfl
          refine (mul_roo (ht.coeff t hmem).1 (hv.2 rfl)).bind fun p hp => (add_roo h.fixedI hp.2).bind fun q hq => ?_
          have perm := takeOut_perm hk
          have hlen' := perm.length_eq
          simp only [List.length_cons] at hlen'
          obtain ⟨us, h1, h2, h3⟩ := h.rest
          refine fold_roo hd hl ht f k _ q ⟨fun e => ?_, hq.2, t :: us, ?_, ?_, fun a ha => ?_⟩ (by omega)
          · have e : takeOut active k = [] := e
            rw [e] at hlen'; simp at hlen'; omega
          · exact h1.trans ((perm.append_right us).trans List.perm_middle.symm)
          · intro u hu
            rcases List.mem_cons.1 hu with rfl | hu
            · exact fun a b ha hb => (pin a ha).trans (pin b hb).symm
            · exact h2 u hu
          · have := h3 a ha
            have e := pin a ha
            simp only [VarId.eval] at e
            dsimp only at this
            rw [tsum_cons, e, this, hq.1, hp.1]; dsimp only; omega
    · exact .pure h

section
variable {σ μ : Type} {n m : Nat} {R : Err → Prop} {root : Doms} {ts : List Term} {value : Int} {J : Job}

/-- How the sweeps end. -/
theorem sweeps_ver (ho : J.R .overflow) (hv : InI64 value) (ht : Tidy J.n ts) {equality : Bool} {st : Fold} {d : Doms} (hd : DomsOK d) (hl : d.length = J.n) (h : Left ts d st)
    (hC : ∀ a, J.C a → Meets equality value (tsum ts a)) :
    ((Prog.ask (readBounds · st.active)).bind (sweeps (σ := σ) (μ := μ) equality (units ts) value st.fixed)).Ver J (· = .enable)
      (Ends (fun a => Meets equality value (st.fixed + tsum st.active a)) st.active) d := by
  have good : ∀ t ∈ st.active, Good J.n (units ts) t := fun t h' => ht.good t (h.mem t h')
  refine ver_ask (f := (readBounds · st.active)) ho (readBounds_roo hd hl fun t h' => (good t h').var) fun bs hbs => ?_
  obtain ⟨hb, hf⟩ := hbs
  have goodb : ∀ t ∈ bs, Good J.n (units ts) t.term := fun t h' => good _ (hb ▸ List.mem_map.2 ⟨t, h', rfl⟩)
  unfold sweeps
  cases equality with
  | true =>
    rw [if_pos rfl]
    rintro s rfl
    exact equalityLoop_ver (S := (· = .enable)) ho rfl hv h.fixedI h.ne (h.nodup ht.nodup) good _ true bs _ hd hl (by show (List.map _ _).sum < (List.map _ _).sum + 2; omega) hb hf (fun h => nomatch h)
      (fun a ha hc => by rw [← h.sum ha]; exact hC a hc)
  | false =>
    rw [if_neg (by simp)]
    refine ver_lift ho (lowerSum_roo (inv := false) h.fixedI fun t h' => ⟨(goodb t h').coeff, hf t h'⟩) fun sum hsum => ?_
    refine sweep_ver (S := (· = .enable)) ho rfl hv hd hl (hb ▸ h.nodup ht.nodup) (fun t h' => ⟨goodb t h', hf t h'⟩) hsum.2 (fun a ha hc => ?_) fun bs1 d1 hd1 hl1 hs1 e1 f1 l1 le1 _ _ => ?_
    · rw [hsum.1, hb]
      have h1 := meets_le.1 (hC a hc)
      have := h.sum ha
      simp only [esum]; simp; omega
    · refine ⟨rfl, ?_⟩
      have cap := capped (inv := false) (value := value - st.fixed) f1 (by have := le1 (fun e => h.ne (by rw [← hb, e]; rfl)); rw [hsum.1] at this; omega)
      rw [e1, hb] at cap
      intro hk a ha
      have := cap hk a ha
      rw [meets_le]
      simp [esum] at this
      omega

/-- The state of the incremental propagator is right. -/
def Kept (i : Inc σ) (ts : List Term) (d : Doms) (z : List σ) : Prop := ts ≠ [] → ∃ st, z[i.handle]? = some (i.kind.put st) ∧ Left ts d st

theorem Kept.sub {i : Inc σ} {d d' : Doms} {z : List σ} (h : Kept i ts d z) (hs : ∀ a, Within d' a → Within d a) : Kept i ts d' z := fun hne => by
  obtain ⟨st, h1, h2⟩ := h hne
  exact ⟨st, h1, h2.sub hs⟩

/-- The incremental propagator, with another condition `J` that does not matter here. -/
theorem incremental_ver {i : Inc σ} {I : Doms → List σ → Prop} {own : Nat → Prop} (hord : ∀ k us, (i.order k us).Perm us) (hown : own i.handle) (hI : ∀ d z, I d z → Kept i ts d z)
    (hI' : ∀ d d' z st, (∀ a, Within d' a → Within d a) → Left ts d' st → i.handle < z.length → I d z → I d' (z.set i.handle (i.kind.put st)))
    (hsub : ∀ d d' z, (∀ a, Within d' a → Within d a) → I d z → I d' z)
    (ho : R .overflow) (hv : InI64 value) (ht : Tidy n ts) {equality : Bool} (he : ts = [] → equality = true → value ≤ 0) :
    EnforcesS n m R root I own (fun a => Meets equality value (tsum ts a)) (scope ts) (incremental (μ := μ) i equality ts value) := by
  intro d z hd hl hz hi
  unfold incremental
  split
  · rename_i e
    have key : Enforces n m R root (fun a => Meets equality value (tsum ts a)) (scope ts) (propagate (σ := σ) (μ := μ) equality ts value) := by
      cases equality with
      | true => exact propagate_eq ho hv ht fun h => he h rfl
      | false => exact propagate_le ho hv ht
    exact verS_mono (fun ps d' z' h => ⟨h.1.1, h.2 ▸ hsub _ _ _ h.1.2 hi⟩) _ _ _
      (Ver.toS' (J := { n, m, R, C := fun a => Within root a ∧ Meets equality value (tsum ts a), own }) (ver_sub _ _ (key d hd hl)))
  · rename_i hne
    obtain ⟨st, hu, hleft⟩ := hI d z hi hne
    have hlt := (List.getElem?_eq_some_iff.1 hu).1
    rintro s rfl rfl
    dsimp only
    rw [show (s.st.cstates.headD [])[i.handle]? = some (i.kind.put st) from hu]
    dsimp only
    rw [i.kind.get_put]
    dsimp only
    have hr := hleft.reorder (hord s.total st.active)
    have hlen := (hord s.total st.active).length_eq
    refine verS_bind (J := { n, m, R, C := fun a => Within root a ∧ Meets equality value (tsum ts a), own }) (S := (· = .enable)) (T := fun _ => True)
      (by rintro v rfl; exact trivial) _ _ _ hd hl (verS_mono ?_ _ _ _ (Ver.toS' (J := { n, m, R, C := fun a => Within root a ∧ Meets equality value (tsum ts a), own })
      (sweeps_ver (J := { n, m, R, C := fun a => Within root a ∧ Meets equality value (tsum ts a) }) ho hv ht hd hl hr fun a hc => hc.2)))
    rintro ps d' z' ⟨⟨rfl, hend⟩, rfl⟩ k1 k2 k3
    rw [if_neg (by simp)]
    rintro s' rfl e'
    dsimp only
    rcases fold_roo k1 k2 ht (2 * st.active.length + 1) 0 _ _ (hr.sub k3) (by rw [hlen]; omega) with hfo | ⟨st', hfo, hl'⟩
    · rw [hfo]; exact ho
    rw [hfo]
    have key : (∀ t ∈ ts, Known s'.doms (.simple t.var)) → ∀ a, Within s'.doms a → Meets equality value (tsum ts a) := by
      intro hk a ha
      rw [hr.sum (k3 a ha)]
      exact hend (fun t h => hk t (hr.mem t h)) a ha
    refine ⟨⟨hz ▸ hlt, hown⟩, Enforced.intro (fun hkn a ha _ => key (fun t h => (known_scope hkn t h).sub k3) a ha) (fun _ hkn a ha _ => key (known_scope hkn) a ha) (by rintro ⟨⟩), hI' _ _ _ _ k3 hl' hlt hi⟩

/-- The terms are visited in some order. -/
def Inc.OK (i : Inc σ) : Prop := ∀ k us, (i.order k us).Perm us

/-- The handles of the constraint states. -/
def Owns (i : Option (Inc σ)) (h : Nat) : Prop := ∃ x, i = some x ∧ h = x.handle

def KeptAll (i : Option (Inc σ)) (ts : List Term) (d : Doms) (z : List σ) : Prop := ∀ x, i = some x → Kept x ts d z

theorem KeptAll.sub {i : Option (Inc σ)} {d d' : Doms} {z : List σ} (h : KeptAll i ts d z) (hs : ∀ a, Within d' a → Within d a) : KeptAll i ts d' z := fun x hx => (h x hx).sub hs

theorem KeptAll.only {i : Option (Inc σ)} {d : Doms} {z z' : List σ} (h : KeptAll i ts d z) (hz : ∀ k, Owns i k → z'[k]? = z[k]?) : KeptAll i ts d z' := fun x hx hne => by
  obtain ⟨st, h1, h2⟩ := h x hx hne
  exact ⟨st, (hz _ ⟨x, hx, rfl⟩).trans h1, h2⟩

/-- At the start nothing is left out. -/
theorem KeptAll.start {i : Option (Inc σ)} {d : Doms} {z : List σ} (h : ∀ x, i = some x → z[x.handle]? = some (x.kind.put ⟨ts, 0⟩)) : KeptAll i ts d z := fun x hx hne =>
  ⟨_, h x hx, hne, (by decide : InI64 0), [], by simp, by simp, fun a _ => rfl⟩

theorem pass_ver {i : Option (Inc σ)} {I : Doms → List σ → Prop} {own : Nat → Prop} (hi : ∀ x, i = some x → x.OK ∧ own x.handle) (hI : ∀ d z, I d z → KeptAll i ts d z)
    (hI' : ∀ x, i = some x → ∀ d d' z st, (∀ a, Within d' a → Within d a) → Left ts d' st → x.handle < z.length → I d z → I d' (z.set x.handle (x.kind.put st)))
    (hsub : ∀ d d' z, (∀ a, Within d' a → Within d a) → I d z → I d' z)
    (ho : R .overflow) (hv : InI64 value) (ht : Tidy n ts) {equality : Bool} (he : ts = [] → equality = true → value ≤ 0) :
    EnforcesS n m R root I own (fun a => Meets equality value (tsum ts a)) (scope ts) (pass (μ := μ) i equality ts value) := by
  cases i with
  | some x => exact incremental_ver (hi x rfl).1 (hi x rfl).2 (fun d z h => hI d z h x rfl) (hI' x rfl) hsub ho hv ht he
  | none =>
    intro d z hd hl hz hi
    have key : Enforces n m R root (fun a => Meets equality value (tsum ts a)) (scope ts) (propagate (σ := σ) (μ := μ) equality ts value) := by
      cases equality with
      | true => exact propagate_eq ho hv ht fun h => he h rfl
      | false => exact propagate_le ho hv ht
    exact verS_mono (fun ps d' z' h => ⟨h.1.1, h.2 ▸ hsub _ _ _ h.1.2 hi⟩) _ _ _
      (Ver.toS' (J := { n, m, R, C := fun a => Within root a ∧ Meets equality value (tsum ts a), own }) (ver_sub _ _ (key d hd hl)))

theorem KeptAll.set {x : Inc σ} {d : Doms} {z : List σ} {st : Fold} (h : Left ts d st) (hz : x.handle < z.length) : KeptAll (some x) ts d (z.set x.handle (x.kind.put st)) := by
  rintro _ ⟨⟩ _
  exact ⟨st, List.getElem?_set_self hz, h⟩

theorem KeptAll.set_other {i : Option (Inc σ)} {d : Doms} {z : List σ} {k : Nat} {v : σ} (h : KeptAll i ts d z) (hk : ¬ Owns i k) : KeptAll i ts d (z.set k v) := by
  refine h.only fun j hj => List.getElem?_set_ne ?_
  rintro rfl; exact hk hj

section
variable {I : Doms → List σ → Prop} {own : Nat → Prop} {P : Asg → Prop} {xs ys : List VarId} {f : Prog σ μ PState}

theorem EnforcesS.congr {P Q : Asg → Prop} (h : EnforcesS n m R root I own P xs f) (hc : ∀ a, P a ↔ Q a) : EnforcesS n m R root I own Q xs f := by
  have : P = Q := funext fun a => propext (hc a)
  exact this ▸ h

theorem EnforcesS.mono (h : EnforcesS n m R root I own P xs f) (hs : ∀ v ∈ xs.filterMap VarId.underlyingIndex, v ∈ ys.filterMap VarId.underlyingIndex) : EnforcesS n m R root I own P ys f := fun d z hd hl hz hi =>
  verS_mono (fun _ _ _ ⟨⟨e1, e2, e3⟩, hi'⟩ => ⟨⟨fun hf => e1 fun v hv => hf v (hs v hv), fun hp hf => e2 hp fun v hv => hf v (hs v hv), e3⟩, hi'⟩) _ _ _ (h d z hd hl hz hi)

theorem verS_lift {α β : Type} {J : Job} {T : β → Prop} {Q : β → Doms → List σ → Prop} {x : Chk α} {k : α → Prog σ μ β} {d : Doms} {z : List σ} {P : α → Prop} (ho : J.R .overflow) (h : RightOrOverflow x P)
    (hk : ∀ v, P v → (k v).VerS J T Q d z) : ((Prog.lift x).bind k).VerS J T Q d z := by
  rcases h with h | ⟨v, h, hv⟩
  · rw [h]; exact ho
  · rw [h]; exact hk v hv

theorem EnforcesS.lift {α : Type} {x : Chk α} {g : α → Prog σ μ PState} {T : α → Prop} (ho : R .overflow) (hx : RightOrOverflow x T)
    (h : ∀ v, T v → EnforcesS n m R root I own P xs (g v)) : EnforcesS n m R root I own P xs (do g (← Prog.lift x)) := fun d z hd hl hz hi => verS_lift ho hx fun v hv => h v hv d z hd hl hz hi

/-- A function without state. -/
theorem Enforces.toS (h : Enforces n m R root P xs f) (hsub : ∀ d d' z, (∀ a, Within d' a → Within d a) → I d z → I d' z) : EnforcesS n m R root I own P xs f := fun d z hd hl _ hi =>
  verS_mono (fun _ _ _ h => ⟨h.1.1, h.2 ▸ hsub _ _ _ h.1.2 hi⟩) _ _ _ (Ver.toS' (J := { n, m, R, C := fun a => Within root a ∧ P a, own }) (ver_sub _ _ (h d hd hl)))

end

theorem whenUndecidedInc_ver {i : Option (Inc σ)} (hi : ∀ x, i = some x → x.OK) (ho : R .overflow) (hv : InI64 value) (ht : Tidy n ts) {r : Reif} (hr : r.Valid n) (hm : r ≠ .mustHold)
    (he : (∃ c, r = .ifCond c ∨ r = .iffCond c) → ts = [] → value ≤ 0) :
    EnforcesS n m R root (KeptAll i ts) (Owns i) (fun a => r.holds (fun a => tsum ts a = value) a) (scope ts ++ r.vars) (whenUndecidedInc (μ := μ) i r ts value) := by
  intro d z hd hl hz hi'
  have old := (Enforces.toS (I := KeptAll i ts) (own := Owns i) (whenUndecided_enforces (σ := σ) (μ := μ) (m := m) (root := root) ho hv ht hr hm he) fun _ _ _ hs h => h.sub hs) d z hd hl hz hi'
  rintro s rfl rfl
  dsimp only
  cases e : r.test s.doms with
  | error x =>
    rcases reif_test_spec hd hl hr with h | ⟨v, h, _⟩ <;> rw [h] at e <;> cases e
    exact ho
  | ok e0 =>
    have ev := (reif_test_spec hd hl hr).value e
    cases e0 with
    | mustHold l =>
      have he' : ts = [] → true = true → value ≤ 0 := by
        intro h0 _
        cases r with
        | mustHold => exact absurd rfl hm
        | mustNotHold => cases e
        | ifCond c => exact he ⟨c, .inl rfl⟩ h0
        | notIf c =>
          simp only [Reif.test] at e
          obtain ⟨x, _, e⟩ := bind_ok e
          cases x <;> cases e
        | iffCond c => exact he ⟨c, .inr rfl⟩ h0
      have key := pass_ver (μ := μ) (m := m) (root := root) (I := KeptAll i ts) (own := Owns i) (equality := true) (fun x hx => ⟨hi x hx, x, hx, rfl⟩) (fun _ _ h => h)
        (fun x hx d d' z st hs hl hlt _ => hx ▸ KeptAll.set hl hlt) (fun _ _ _ hs h => h.sub hs) ho hv ht he' s.doms s.top hd hl hz hi'
      have key := verS_weaken (J := { n, m, R, C := fun a => Within root a ∧ Meets true value (tsum ts a), own := Owns i }) _ s.doms s.top (fun a ha (hh : Within root a ∧ r.holds (fun a => tsum ts a = value) a) => ⟨hh.1, (ev.2.2 _ a ha).1 hh.2⟩) key
      refine verS_mono ?_ _ _ _ (verS_frame _ _ _ hd hl key)
      rintro ps d' z' ⟨⟨⟨e1, e2, e3⟩, hi''⟩, _, _, hs, _⟩
      have sub : ∀ v ∈ (scope ts).filterMap VarId.underlyingIndex, v ∈ (scope ts ++ r.vars).filterMap VarId.underlyingIndex := fun v hv => by rw [List.filterMap_append]; exact List.mem_append_left _ hv
      exact ⟨⟨fun hf a ha hw => (ev.2.2 _ a (hs a ha)).2 (e1 (fun v hv => hf v (sub v hv)) a ha hw), fun hp hf a ha hw => (ev.2.2 _ a (hs a ha)).2 (e2 hp (fun v hv => hf v (sub v hv)) a ha hw),
        fun hp a ha hw => (ev.2.2 _ a (hs a ha)).2 (e3 hp a ha hw)⟩, hi''⟩
    | mustNotHold l => exact old
    | undecided c b1 b2 b3 => exact old
    | deactivated => exact old

variable {terms : List WTerm} {z0 : List σ}

/-- What is known about the constraint state for a direction when a constraint is posted. -/
def Fresh (z0 : List σ) (terms : List WTerm) (i : Option (Inc σ)) : Prop := ∀ x, i = some x → x.OK ∧ ∀ t, tidy terms = .ok t → z0[x.handle]? = some (x.kind.put ⟨t.1, 0⟩)

theorem served_mono {I : Doms → List σ → Prop} {own : Nat → Prop} {C : Asg → Prop} {xs ys : List VarId} {es : List (Item σ μ × (Asg → Prop))} (h : Served n m R root z0 I own C xs es) (hs : ∀ x ∈ xs, x ∈ ys) :
    Served n m R root z0 I own C ys es where
  items p hp := by
    have := h.items p hp
    obtain ⟨it, e⟩ := p
    cases it with
    | init pr f => exact this
    | prop f t => obtain ⟨zs, h1, h2⟩ := this; exact ⟨zs, fun y hy => hs y (h1 y hy), h2⟩
  together := h.together
  shrink := h.shrink
  only := h.only
  start := h.start

theorem inequalityInc_ok {i j : Option (Inc σ)} (ho : R .overflow) (hd : DomsOK root) (hl : root.length = n) (ht : TermsOK n terms) (hv : InI64 value) {r : Reif} (hr : r.Valid n)
    (hi : Fresh z0 terms i) (hj : ∀ nt, negate terms = .ok nt → Fresh z0 nt j) (hij : ∀ k, Owns i k → ¬ Owns j k) :
    RightOrOverflow (inequalityInc (μ := μ) i j terms value r root) (fun items => ∃ I es, es.map (·.1) = items ∧
      Served n m R root z0 I (fun k => Owns i k ∨ Owns j k) (fun a => r.holds (fun a => wsum terms a ≤ value) a) (about terms r) es) := by
  refine (reif_test_spec hd hl hr).bindEq fun e he _ => (tidy_roo ht).bindEq fun x ex hx => (negate_roo ht).bindEq fun nt ent hnt => (tidy_roo hnt.1).bindEq fun y ey hy => .pure ?_
  obtain ⟨tx, ix, vx, sx⟩ := hx
  obtain ⟨ty, iy, vy, sy⟩ := hy
  have same : ∀ v ∈ (scope y.1).filterMap VarId.underlyingIndex, v ∈ (scope x.1).filterMap VarId.underlyingIndex := by
    intro v hv
    obtain ⟨z, hz, e⟩ := List.mem_filterMap.1 hv
    obtain ⟨u, hu, rfl⟩ := List.mem_map.1 hz
    cases e
    have := same_vars (p := x.2) (q := y.2) ty (fun a => by rw [← sy a, ← sx a]; exact hnt.2.1 a) u hu
    obtain ⟨t, ht, e⟩ := List.mem_map.1 this
    exact List.mem_filterMap.2 ⟨.simple t.var, List.mem_map.2 ⟨t, ht, rfl⟩, by simp [VarId.underlyingIndex, e]⟩
  have hsub : ∀ d d' z, (∀ a, Within d' a → Within d a) → KeptAll i x.1 d z ∧ KeptAll j y.1 d z → KeptAll i x.1 d' z ∧ KeptAll j y.1 d' z := fun d d' z hs h => ⟨h.1.sub hs, h.2.sub hs⟩
  refine ⟨fun d z => KeptAll i x.1 d z ∧ KeptAll j y.1 d z, ?_⟩
  suffices h : ∃ es, es.map (·.1) = _ ∧ Served n m R root z0 (fun d z => KeptAll i x.1 d z ∧ KeptAll j y.1 d z) (fun k => Owns i k ∨ Owns j k) (fun a => r.holds (fun a => wsum terms a ≤ value) a) (scope x.1 ++ r.vars) es by
    obtain ⟨es, h1, h2⟩ := h
    exact ⟨es, h1, served_mono h2 (scope_sub vx)⟩
  refine dispatcher_served (n := n) (m := m) (z0 := z0) (I := fun d z => KeptAll i x.1 d z ∧ KeptAll j y.1 d z) (own := fun k => Owns i k ∨ Owns j k) (P := fun a => wsum terms a ≤ value) (xs := scope x.1)
    (hold := do pass i false x.1 (← Prog.lift (iAdd value x.2)))
    (notHold := do pass j false y.1 (← Prog.lift (do iSub (← iAdd (← iNeg value) y.2) 1))) (verdict := verdict (σ := σ) (μ := μ) x.1 value x.2) (t := { onBounds := x.1.map fun t => .simple t.var })
    ho hd hl hr hsub (fun d z z' hz h => ⟨h.1.only fun k hk => hz k (.inl hk), h.2.only fun k hk => hz k (.inr hk)⟩)
    (fun d => ⟨.start fun q hq => (hi q hq).2 x ex, .start fun q hq => (hj nt ent q hq).2 y ey⟩) ?_ ?_ ?_ ?_ rfl he
  · refine EnforcesS.lift ho (add_roo hv ix) fun v h => ?_
    refine EnforcesS.congr (pass_ver (fun q hq => ⟨(hi q hq).1, .inl ⟨q, hq, rfl⟩⟩) (fun _ _ h => h.1)
      (fun q hq d d' z st hs hl hlt h => ⟨hq ▸ KeptAll.set hl hlt, (h.2.sub hs).set_other (hij _ ⟨q, hq, rfl⟩)⟩) hsub ho h.2 tx (equality := false) (fun _ h => nomatch h)) fun a => ?_
    have := sx a; rw [meets_le, h.1]; omega
  · refine EnforcesS.lift (T := fun v => v = -value + y.2 - 1 ∧ InI64 v) ho ((neg_roo hv).bind fun p hp => (add_roo hp.2 iy).bind fun q hq => ?_) fun v h => ?_
    · rw [hp.1] at hq; rw [← hq.1]; exact sub_roo hq.2 (by decide)
    refine EnforcesS.mono (EnforcesS.congr (pass_ver (fun q hq => ⟨(hj nt ent q hq).1, .inr ⟨q, hq, rfl⟩⟩) (fun _ _ h => h.2)
      (fun q hq d d' z st hs hl hlt h => ⟨(h.1.sub hs).set_other fun h' => hij _ h' ⟨q, hq, rfl⟩, hq ▸ KeptAll.set hl hlt⟩) hsub ho h.2 ty (equality := false) (fun _ h => nomatch h)) fun a => ?_) same
    have := sy a; have := hnt.2.1 a; rw [meets_le, h.1]; omega
  · refine cast ?_ (verdict_judges (σ := σ) (μ := μ) (m := m) (root := root) ho hv ix tx)
    congr 1
    funext a
    have := sx a
    exact propext ⟨fun h => by omega, fun h => by omega⟩
  · intro z hz v hv
    exact ⟨z, .inr (.inl hz), hv⟩

/-- A propagator, with failing at once before it if it is useless. -/
theorem served_prop {C : Asg → Prop} {I : Doms → List σ → Prop} {own : Nat → Prop} {xs ys : List VarId} {f : Prog σ μ PState} {t : Triggers} {P : Asg → Prop} (hc : ∀ a, Within root a → (C a ↔ P a)) (hf : EnforcesS n m R root I own P ys f)
    (hy : ∀ y ∈ ys, y ∈ xs) (hw : Wakes t ys) (ht : t.refined = []) (hsub : ∀ d d' z, (∀ a, Within d' a → Within d a) → I d z → I d' z) (honly : ∀ d z z', (∀ h, own h → z'[h]? = z[h]?) → I d z → I d z') (hstart : ∀ d, I d z0) :
    Served n m R root z0 I own C xs [(Item.prop f t, P)] := by
  refine ⟨fun p hp => ?_, fun a ha => ?_, fun d d' z _ _ hs hi => hsub d d' z hs hi, honly, fun d _ _ _ => hstart d⟩
  · rw [List.mem_singleton.1 hp]; exact ⟨ys, hy, hf.serves hc hw ht⟩
  · rw [hc a ha]; simp

theorem served_ff {C : Asg → Prop} {I : Doms → List σ → Prop} {own : Nat → Prop} {xs ys : List VarId} {f : Prog σ μ PState} {t : Triggers} {P : Asg → Prop} (hc : ∀ a, Within root a → ¬ C a) (hf : EnforcesS n m R root I own P ys f)
    (hy : ∀ y ∈ ys, y ∈ xs) (hw : Wakes t ys) (ht : t.refined = []) (hsub : ∀ d d' z, (∀ a, Within d' a → Within d a) → I d z → I d' z) (honly : ∀ d z z', (∀ h, own h → z'[h]? = z[h]?) → I d z → I d z') (hstart : ∀ d, I d z0) :
    Served n m R root z0 I own C xs [(Item.init .simpleDefinition (.tell .ff), fun _ => False), (Item.prop f t, P)] := by
  refine ⟨fun p hp => ?_, fun a ha => ⟨fun h => absurd h (hc a ha), fun h => (h (_, fun _ => False) List.mem_cons_self).elim⟩, fun d d' z _ _ hs hi => hsub d d' z hs hi, honly, fun d _ _ _ => hstart d⟩
  simp only [List.mem_cons, List.not_mem_nil, or_false] at hp
  rcases hp with rfl | rfl
  · exact fun d _ _ => ver_tell_last trivial (fun a _ hC => absurd hC.2 (hc a hC.1)) fun d' _ _ h a ha _ => ((h a).1 ha).2
  · refine ⟨ys, hy, hw, by simp [ht], fun d z h1 h2 h3 h4 => ?_⟩
    exact verS_mono (fun _ _ _ h => ⟨h.1.when, h.2⟩) _ _ _ (verS_weaken (J := { n, m, R, C := fun a => Within root a ∧ P a, own }) f d z (fun a _ hh => absurd hh.2 (hc a hh.1)) (hf d z h1 h2 h3 h4))

theorem Posts.served {C : Asg → Prop} {xs : List VarId} {items : List (Item σ μ)} {own : Nat → Prop} (h : Posts n m R root C xs items) : ∃ I es, es.map (·.1) = items ∧ Served n m R root z0 I own C xs es := by
  obtain ⟨es, h1, h2, h3⟩ := h
  refine ⟨fun _ _ => True, es, h1, fun p hp => ?_, h3, fun _ _ _ _ _ _ _ => trivial, fun _ _ _ _ _ => trivial, fun _ _ _ _ => trivial⟩
  have := h2 p hp
  obtain ⟨it, e⟩ := p
  cases it with
  | init _ f => exact this
  | prop f t =>
    obtain ⟨ys, k1, k2⟩ := this
    refine ⟨ys, k1, k2.wakes, k2.refined, fun d z hd hl _ _ => ?_⟩
    exact verS_own (J := { n, m, R, C := fun a => Within root a ∧ C a }) (fun _ h => h.elim) f d z
      (verS_mono (fun _ _ _ hq => ⟨hq.1, trivial⟩) _ _ _ (Ver.toS (J := { n, m, R, C := fun a => Within root a ∧ C a }) (fun _ => id) f d z (k2.ver d hd hl)))

theorem equalityInc_ok {i : Option (Inc σ)} (ho : R .overflow) (hd : DomsOK root) (hl : root.length = n) (ht : TermsOK n terms) (hv : InI64 value) {r : Reif} (hr : r.Valid n)
    (hi : Fresh z0 terms i) (hx : (∃ c, r = .ifCond c ∨ r = .iffCond c) → ∃ a, value ≤ wsum terms a) :
    RightOrOverflow (equalityInc (μ := μ) i terms value r root) (fun items => ∃ I es, es.map (·.1) = items ∧
      Served n m R root z0 I (Owns i) (fun a => r.holds (fun a => wsum terms a = value) a) (about terms r) es) := by
  have old := equality_roo (σ := σ) (μ := μ) (m := m) ho hd hl ht hv hr hx
  have noState := fun (items : List (Item σ μ)) (h : Posts n m R root (fun a => r.holds (fun a => wsum terms a = value) a) (about terms r) items) => Posts.served (z0 := z0) (own := Owns i) h
  unfold equalityInc
  refine (reif_test_spec hd hl hr).bindEq fun e he ev => (tidy_roo ht).bindEq fun x ex hx' => ?_
  obtain ⟨tx, ix, vx, sx⟩ := hx'
  have sub := scope_sub (r := r) vx
  have sub' : ∀ y ∈ scope x.1, y ∈ about terms r := fun y hy => sub y (List.mem_append_left _ hy)
  have iff : ∀ a, wsum terms a = value ↔ tsum x.1 a = value + x.2 := fun a => by have := sx a; omega
  have hsub : ∀ d d' z, (∀ a, Within d' a → Within d a) → KeptAll i x.1 d z → KeptAll i x.1 d' z := fun _ _ _ hs h => h.sub hs
  have honly : ∀ d z z', (∀ h, Owns i h → z'[h]? = z[h]?) → KeptAll i x.1 d z → KeptAll i x.1 d z' := fun _ _ _ hz h => h.only hz
  have hstart : ∀ d, KeptAll i x.1 d z0 := fun d => .start fun q hq => (hi q hq).2 x ex
  have enf : ∀ {v : Int} {eq : Bool}, InI64 v → (x.1 = [] → eq = true → v ≤ 0) → EnforcesS n m R root (KeptAll i x.1) (Owns i) (fun a => Meets eq v (tsum x.1 a)) (scope x.1) (pass (μ := μ) i eq x.1 v) := fun h h0 =>
    pass_ver (fun q hq => ⟨(hi q hq).1, q, hq, rfl⟩) (fun _ _ h => h) (fun q hq d d' z st hs hl hlt _ => hq ▸ KeptAll.set hl hlt) hsub ho h tx h0
  cases e with
  | deactivated => exact old.mono noState
  | mustNotHold l => exact old.mono noState
  | mustHold l =>
    refine (constantIs_roo (ts := x.1) (modifier := x.2) hv).bind fun b hb => .pure ?_
    have hw := wakes_terms (ts := x.1) (terms := terms) (t := { onBounds := terms.map (·.2) }) vx (.inr rfl)
    have hC : ∀ a, Within root a → (r.holds (fun a => wsum terms a = value) a ↔ tsum x.1 a = value + x.2) := fun a ha => (ev.2.2 _ a ha).trans (iff a)
    by_cases hbad : b = some false
    · rw [if_pos hbad]
      have e0 : x.1 = [] := Classical.byContradiction fun h => by rw [hb.2 h] at hbad; cases hbad
      have ne : x.2 ≠ -value := by have := hb.1 e0; rw [this] at hbad; simpa using hbad
      refine ⟨KeptAll i x.1, _, rfl, served_ff (P := fun a => tsum x.1 a ≤ value + x.2) (ys := scope x.1) (fun a ha h => ?_) (EnforcesS.lift ho (add_roo hv ix) fun v h => ?_) sub' hw rfl hsub honly hstart⟩
      · have := (hC a ha).1 h
        rw [e0, tsum_nil] at this; omega
      · have key := Enforces.toS (I := KeptAll i x.1) (own := Owns i) (propagate_le (σ := σ) (μ := μ) (m := m) (root := root) ho h.2 tx) hsub
        rw [h.1] at key ⊢
        have e1 : pass (σ := σ) (μ := μ) i true x.1 (value + x.2) = propagate false x.1 (value + x.2) := by
          cases i with
          | none => simp only [pass, propagate]; rw [if_pos e0, if_pos e0]
          | some q => simp only [pass, incremental, propagate]; rw [if_pos e0, if_pos e0, if_pos e0]
        rw [e1]
        exact key
    · rw [if_neg hbad]
      refine ⟨KeptAll i x.1, _, rfl, served_prop (P := fun a => tsum x.1 a = value + x.2) (ys := scope x.1) hC (EnforcesS.lift ho (add_roo hv ix) fun v h => ?_) sub' hw rfl hsub honly hstart⟩
      rw [← h.1]
      refine enf (eq := true) h.2 fun e0 _ => ?_
      have : x.2 = -value := Classical.byContradiction fun h => hbad (by rw [hb.1 e0]; simp [h])
      omega
  | undecided c b1 b2 b3 =>
    refine (add_roo hv ix).bind fun v h => .pure ?_
    have hm : r ≠ .mustHold := by rintro rfl; cases he
    obtain ⟨_, _, hvars, _⟩ := ev
    refine ⟨KeptAll i x.1, _, rfl, served_prop (P := fun a => r.holds (fun a => tsum x.1 a = v) a) (ys := scope x.1 ++ r.vars) (fun a _ => ?_)
      (whenUndecidedInc_ver (fun q hq => (hi q hq).1) ho h.2 tx hr hm fun hc e0 => ?_) sub ?_ (addFor_refined _) hsub honly hstart⟩
    · have : (fun a => wsum terms a = value) = fun a => tsum x.1 a = v := funext fun a => propext (by rw [h.1]; exact iff a)
      rw [this]
    · obtain ⟨a, ha⟩ := hx hc
      have := sx a
      rw [e0, tsum_nil] at this; omega
    · intro z hz v hv
      rcases List.mem_append.1 hz with hz | hz
      · obtain ⟨y, hy, e⟩ := wakes_terms (ts := x.1) (terms := terms) (t := { onChange := terms.map (·.2) }) vx (.inl rfl) z hz v hv
        exact wakes_addFor (.cond c) hy e
      · rw [hvars, List.mem_singleton] at hz
        subst hz
        exact ⟨_, (wakes_cond c).elim .inl fun h => .inr (.inl h), hv⟩

end
end Gcs.Linear
