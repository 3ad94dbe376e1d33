import Verif.Lemmas.Cons.CircuitTail

/-!
# Posting Circuit
-/

namespace Gcs.Circuit
open IntervalSet AllDifferent Gac

section
variable {σ μ : Type} {n m : Nat} {R : Err → Prop} {root : Doms} {succ : List VarId} {C : Asg → Prop} {z0 : List σ}

/-- If all successors are fixed and everything is strongly connected, they form a tour. -/
theorem tour_of_strong {d : Doms} (hr : Rng succ d) (hk : ∀ x ∈ succ, Known d x) (hs : Strong (E succ d) succ.length) {a : Asg} (ha : Within d a) : Tour (succ.map (·.eval a)) := by
  have hp : ∀ x y, Path (E succ d) x y → ∃ k, it (fn succ a) k x = y := by
    intro x y h
    induction h with
    | here => exact ⟨0, rfl⟩
    | on e _ ih =>
      obtain ⟨x', hx', hp⟩ := e
      obtain ⟨k, hk'⟩ := ih
      refine ⟨k + 1, ?_⟩
      have := (hk x' (List.mem_of_getElem? hx')).poss ha hp
      show it (fn succ a) k (fn succ a _) = _
      rw [fn_eq hx', this]
      exact hk'
  refine (tour_iff (hr.vals ha)).2 ?_
  rw [List.length_map]
  refine ⟨fun i hi => ?_, fun i j hi hj => ?_⟩
  · have h1 := hr _ (List.getElem_mem hi) a ha
    have h2 := fn_cast hr ha (List.getElem?_eq_getElem hi)
    show fn succ a i < _
    omega
  · obtain ⟨k1, h1⟩ := hp _ _ (hs i hi).2
    obtain ⟨k2, h2⟩ := hp _ _ (hs j hj).1
    exact ⟨k1 + k2, by show it (fn succ a) _ _ = _; rw [it_add, h1, h2]⟩

/-- What the SCC algorithm relies on. -/
def SccInv (B : Kind σ (List VarId)) (h : Nat) (succ : List VarId) (d : Doms) (z : List σ) : Prop := Stored B h succ False d z ∧ Rng succ d

theorem sccTail_ver {B : Kind σ (List VarId)} {h fuel : Nat} {J : Job} (ho : J.R .overflow) (hdv : J.R .diverge) (hC : ∀ a, J.C a → Tour (succ.map (·.eval a))) (hv : ∀ x ∈ succ, x.Valid J.n) (hown : J.own h) (hm : h < J.m)
    {d : Doms} {z : List σ} (hd : DomsOK d) (hl : d.length = J.n) (hi : SccInv B h succ d z) :
    (sccTail B h fuel succ : Prog σ μ PState).VerS J (fun _ => True) (fun ps d' z' => ps = .enable ∧ (∀ a, Within d' a → Within d a) ∧ SccInv B h succ d' z') d z := by
  obtain ⟨⟨u, hu, h1⟩, hrng⟩ := hi
  have hlt := (List.getElem?_eq_some_iff.1 hu).1
  rintro s rfl rfl
  dsimp only
  rw [show (s.st.cstates.headD [])[h]? = some (B.put u) from hu]
  dsimp only
  rw [B.get_put]
  refine verS_ask (f := fun d => gather d (u.length + 1) 0 u []) ho (gather_roo hd (fun v hh => hl.symm ▸ hv v hh) (u.length + 1) 0 u [] h1 (by omega) (by omega) (fun j y hj => absurd hj (by omega))) fun r hr => ?_
  refine ⟨⟨hm, hown⟩, ?_⟩
  refine verS_bind (S := fun _ => False) (fun _ h => h.elim) _ _ _ hd hl (verS_mono (fun _ d' z' hq k1 k2 k3 => ?_) _ _ _
    (Ver.toS' (preventSmallCycles_ver (J := { J with own := fun _ => False }) ho hdv hC hv (fun x hx => hr.1.left x hx) hd hl hrng hr.2)))
  obtain ⟨hs, rfl⟩ := hq
  refine ⟨rfl, hs, ⟨r.1, ?_, ?_⟩, hrng.sub hs⟩
  · rw [List.getElem?_set_self hlt]
  · exact ⟨hr.1.left, by simp, by simpa using (List.nodup_append.1 hr.1.nodup).2.1, by simp, fun hf => hf.elim⟩

theorem sccProp_serves {B : Kind σ (List VarId)} {h fuel : Nat} (o : Options) (ho : R .overflow) (hdv : R .diverge) (hn : succ.Nodup) (hne : succ ≠ []) (hv : ∀ v ∈ succ, v.Valid n) :
    Serves n m R root (SccInv B h succ) (· = h) (sccProp (μ := μ) B h fuel o succ) { onChange := succ } (fun a => Tour (succ.map (·.eval a))) (fun a => Tour (succ.map (·.eval a))) succ where
  wakes := wakes_mem fun x hx => .inl hx
  refined := by simp
  ver d z hd hl hz hi := by
    have hm : h < m := by obtain ⟨⟨u, hu, _⟩, _⟩ := hi; rw [← hz]; exact (List.getElem?_eq_some_iff.1 hu).1
    refine vcStage_ver (J := { n, m, R, C := fun a => Within root a ∧ Tour (succ.map (·.eval a)), own := (· = h) }) (D := False) ho (fun a ha => tour_differ_vars hn ha.2) hv (fun h => h.elim) rfl hz hd hl hi.1 trivial
      fun d1 z1 hd1 hl1 hs1 hst ⟨u, _, _, hp⟩ => ?_
    rw [if_pos rfl]
    have hrng1 := hi.2.sub hs1
    refine verS_bind (S := fun _ => False) (fun _ h => h.elim) _ _ _ hd1 hl1 (verS_mono (fun _ d2 z2 hq hd2 hl2 hs2 => ?_) _ _ _
      (Ver.toS' (checkSccs_ver (J := { n, m, R, C := fun a => Within root a ∧ Tour (succ.map (·.eval a)), own := fun _ => False }) o ho (fun a ha => ha.2) hv (List.length_pos_iff.2 hne) hd1 hl1 hrng1)))
    obtain ⟨hq, rfl⟩ := hq
    refine verS_mono (fun ps d3 z3 h3 => ?_) _ _ _ (sccTail_ver (J := { n, m, R, C := fun a => Within root a ∧ Tour (succ.map (·.eval a)), own := (· = h) }) ho hdv (fun a ha => ha.2) hv rfl hm hd2 hl2 ⟨hst.sub hs2, hrng1.sub hs2⟩)
    obtain ⟨rfl, hs3, hi3⟩ := h3
    refine ⟨⟨fun hk a ha _ => ?_, fun _ e => (nomatch e), fun e => (nomatch e)⟩, hi3⟩
    obtain ⟨rfl, _⟩ := hp (known_all hk)
    exact tour_of_strong hrng1 (known_all hk) hq (hs2 a (hs3 a ha))

theorem noLoops_ver {J : Job} {d0 : Doms} (hv : ∀ x ∈ succ, x.Valid J.n) (hi : ∀ i : Nat, i < succ.length → InI64 (i : Int)) (hC : ∀ (a : Asg) (i : Nat) (x : VarId), J.C a → succ[i]? = some x → x.eval a ≠ i) :
    ∀ (i : Nat) (xs : List VarId) (d : Doms), DomsOK d → d.length = J.n → succ.drop i = xs → (∀ a, Within d a → Within d0 a) → (∀ (j : Nat) (x : VarId), j < i → succ[j]? = some x → ∀ a, Within d a → x.eval a ≠ j) →
    (noLoops i xs : Prog σ μ Unit).Ver J (fun _ => False) (fun _ d' => (∀ a, Within d' a → Within d0 a) ∧ ∀ (j : Nat) (x : VarId), succ[j]? = some x → ∀ a, Within d' a → x.eval a ≠ j) d
  | i, [], d, _, _, hx, hs, h => by
    have hlen : succ.length ≤ i := List.drop_eq_nil_iff.1 hx
    exact ⟨hs, fun j x hj => h j x (by have := (List.getElem?_eq_some_iff.1 hj).1; omega) hj⟩
  | i, x :: xs, d, hd, hl, hx, hs, h => by
    have hxi : succ[i]? = some x := by
      have := congrArg (·[0]?) hx
      simpa using this
    have hil := (List.getElem?_eq_some_iff.1 hxi).1
    refine ver_tell (.ne (hv x (List.mem_of_getElem? hxi)) (hi i hil)) (fun a _ hc => (Lit.holds_ne ..).2 (hC a i x hc hxi)) fun d' h1 h2 h3 => ?_
    refine noLoops_ver hv hi hC (i + 1) xs d' h1 h2 ?_ (fun a ha => hs a ((h3 a).1 ha).1) fun j y hj hy a ha => ?_
    · have := congrArg (·.drop 1) hx
      simpa [List.drop_drop] using this
    · by_cases e : j = i
      · subst e
        rw [hxi] at hy; cases hy
        exact (Lit.holds_ne ..).1 ((h3 a).1 ha).2
      · exact h j y (by omega) hy a ((h3 a).1 ha).1

/-- Tours of more than one node have no loops. -/
theorem tour_noLoop {a : Asg} (hn : 1 < succ.length) (ht : Tour (succ.map (·.eval a))) {i : Nat} {x : VarId} (hx : succ[i]? = some x) : x.eval a ≠ i := by
  intro e
  have hil := (List.getElem?_eq_some_iff.1 hx).1
  have := (tour_loop ht).cycle (len := 0) hil (by show fn succ a i = i; rw [fn_eq hx, e]; rfl)
  omega

theorem lowers_ok (ho : R .overflow) (hd : DomsOK root) : ∀ xs : List VarId, (∀ v ∈ xs, v.Valid root.length) → (∀ a, Within root a → C a → ∀ v ∈ xs, 0 ≤ v.eval a) →
    RightOrOverflow (lowers (σ := σ) (μ := μ) root xs) (Inits root.length m R root C (fun a => ∀ v ∈ xs, 0 ≤ v.eval a))
  | [], _, _ => .pure (Inits.nil fun a _ => by simp)
  | x :: xs, hv, hC => (lower_inits ho hd (hv x List.mem_cons_self) (by decide) fun a ha hc => hC a ha hc x List.mem_cons_self).bind fun is h1 =>
    (lowers_ok ho hd xs (fun v h => hv v (List.mem_cons_of_mem _ h)) fun a ha hc v h => hC a ha hc v (List.mem_cons_of_mem _ h)).bind fun js h2 => .pure (h1.append h2 fun a _ => by simp)

theorem uppers_ok (ho : R .overflow) (hd : DomsOK root) {k : Nat} (hk : 0 < k) : ∀ xs : List VarId, (∀ v ∈ xs, v.Valid root.length) → (∀ a, Within root a → C a → ∀ v ∈ xs, v.eval a < k) →
    RightOrOverflow (uppers (σ := σ) (μ := μ) root k xs) (fun is => Inits root.length m R root C (fun a => ∀ v ∈ xs, v.eval a < k) is ∧ (xs ≠ [] → InI64 ((k - 1 : Nat) : Int)))
  | [], _, _ => .pure ⟨Inits.nil fun a _ => by simp, fun h => absurd rfl h⟩
  | x :: xs, hv, hC => (ofSize_roo (k - 1)).bind fun hi hhi => by
    refine (upper_inits (m := m) (C := C) ho hd (hv x List.mem_cons_self) hhi.2 fun a ha hc => ?_).bind fun is h1 => ?_
    · have := hC a ha hc x List.mem_cons_self
      have := hhi.1
      omega
    · refine (uppers_ok ho hd hk xs (fun v h => hv v (List.mem_cons_of_mem _ h)) fun a ha hc v h => hC a ha hc v (List.mem_cons_of_mem _ h)).bind fun js h2 => .pure ⟨h1.append h2.1 fun a _ => ?_, fun _ => hhi.1 ▸ hhi.2⟩
      have := hhi.1
      rw [List.forall_mem_cons]
      exact and_congr (by omega) Iff.rfl

theorem install_ok {alg : Algorithm σ} {B : Kind σ (List VarId)} {h : Nat} {I : Doms → List σ → Prop} {own : Nat → Prop} {f : Prog σ μ PState} {t : Triggers} (hd : DomsOK root) (hv : ∀ v ∈ succ, v.Valid root.length) (ho : R .overflow)
    (hdup : Inverse.hasDup succ = false) (he : alg.item B h succ = .prop f t)
    (hs : (∀ i : Nat, i < succ.length → InI64 (i : Int)) → Serves root.length m R root I own f t (fun a => Tour (succ.map (·.eval a))) (fun a => Tour (succ.map (·.eval a))) succ)
    (h1 : ∀ d d' z, DomsOK d' → (∀ a, Within d' a → Within d a) → I d z → I d' z) (h2 : ∀ d z z', (∀ k, own k → z'[k]? = z[k]?) → I d z → I d z') (h3 : ∀ d, DomsOK d → Rng succ d → I d z0) :
    RightOrOverflow (install (σ := σ) (μ := μ) alg B h succ root) (fun items => ∃ I es, es.map (·.1) = items ∧ Served root.length m R root z0 I own (fun a => Tour (succ.map (·.eval a))) succ es) := by
  unfold install
  rw [hdup]
  simp only [Bool.false_eq_true, ↓reduceIte]
  have hpos : succ ≠ [] → 0 < succ.length := List.length_pos_iff.2
  have hCr : ∀ a : Asg, Tour (succ.map (·.eval a)) → ∀ v ∈ succ, 0 ≤ v.eval a ∧ v.eval a < succ.length := fun a ht v hv => by
    have := ht.1 _ (List.mem_map_of_mem (f := (·.eval a)) hv)
    rwa [List.length_map] at this
  refine (lowers_ok (σ := σ) (μ := μ) (m := m) (C := fun a => Tour (succ.map (·.eval a))) ho hd succ hv fun a _ ht v hv => (hCr a ht v hv).1).bind fun is his => ?_
  have hup : RightOrOverflow (uppers (σ := σ) (μ := μ) root succ.length succ) (fun js => Inits root.length m R root (fun a => Tour (succ.map (·.eval a))) (fun a => ∀ v ∈ succ, v.eval a < succ.length) js ∧
      (succ ≠ [] → InI64 ((succ.length - 1 : Nat) : Int))) := by
    by_cases e : succ = []
    · rw [e]; exact .pure ⟨Inits.nil fun a _ => by simp, fun h => absurd rfl h⟩
    · exact uppers_ok ho hd (hpos e) succ hv fun a _ ht v hv => (hCr a ht v hv).2
  refine hup.bind fun js hjs => .pure ?_
  obtain ⟨es, e1, e2, e3⟩ := (his.append hjs.1 (e := fun a => ∀ v ∈ succ, 0 ≤ v.eval a ∧ v.eval a < succ.length) fun a _ => ⟨fun h => ⟨fun v hv => (h v hv).1, fun v hv => (h v hv).2⟩, fun h v hv => ⟨h.1 v hv, h.2 v hv⟩⟩).out
  have hstart : ∀ d, (∀ a, Within d a → Within root a ∧ ∀ p ∈ es, p.2 a) → Rng succ d := fun d h x hx a ha => (e3 a (h a ha).1).1 (h a ha).2 x hx
  have hint : ∀ i : Nat, i < succ.length → InI64 (i : Int) := fun i hi' => by
    have := hjs.2 (by rintro rfl; cases hi')
    simp only [InI64, i64Min, i64Max] at this ⊢
    omega
  let last : Item σ μ × (Asg → Prop) := (alg.item B h succ, fun a => Tour (succ.map (·.eval a)))
  have hlast : last.1.Served root.length m R root I own (fun a => Tour (succ.map (·.eval a))) succ last.2 := by
    show (alg.item B h succ).Served _ _ _ _ _ _ _ _ _
    rw [he]; exact ⟨succ, fun _ h => h, hs hint⟩
  by_cases hn : succ.length > 1
  · rw [if_pos hn]
    let loops : Item σ μ × (Asg → Prop) := (Item.prop ((noLoops 0 succ).bind fun _ => .ret .disableUntilBacktrack) {}, fun a => ∀ (i : Nat) (x : VarId), succ[i]? = some x → x.eval a ≠ i)
    have hloops : loops.1.Served root.length m R root I own (fun a => Tour (succ.map (·.eval a))) succ loops.2 := by
      refine ⟨[], by simp, ⟨fun x hx => (nomatch hx), by simp, fun d z hd' hl hz hI => ?_⟩⟩
      refine verS_bind (S := fun _ => False) (fun _ h => h.elim) _ _ _ hd' hl (verS_mono (fun _ d' z' hq k1 k2 k3 => ?_) _ _ _
        (Ver.toS' (noLoops_ver (J := { n := root.length, m, R, C := fun a => Within root a ∧ Tour (succ.map (·.eval a)), own := fun _ => False }) (d0 := d) hv hint
          (fun a i x hc hx => tour_noLoop hn hc.2 hx) 0 succ d hd' hl rfl (fun _ h => h) fun j x hj => absurd hj (Nat.not_lt_zero _))))
      obtain ⟨⟨q1, q2⟩, rfl⟩ := hq
      exact ⟨⟨fun _ a ha _ i x hx => q2 i x hx a ha, fun _ _ _ a ha _ i x hx => q2 i x hx a ha, fun _ a ha _ i x hx => q2 i x hx a ha⟩, h1 d d' _ k1 k3 hI⟩
    refine ⟨I, es ++ [loops] ++ [last], by simp [e1, loops, last], ⟨fun p hp => ?_, fun a ha => ?_, fun d d' z hd' _ hs hI => h1 d d' z hd' hs hI, h2, fun d hd' _ hh => h3 d hd' (hstart d fun a ha => ⟨(hh a ha).1, fun p hp => ?_⟩)⟩⟩
    · simp only [List.mem_append, List.mem_singleton] at hp
      rcases hp with (hp | rfl) | rfl
      · exact (e2 p hp).2 _ _ _
      · exact hloops
      · exact hlast
    · rw [List.forall_mem_append, List.forall_mem_append, List.forall_mem_singleton, List.forall_mem_singleton, e3 a ha]
      exact ⟨fun ht => ⟨⟨hCr a ht, fun i x hx => tour_noLoop hn ht hx⟩, ht⟩, fun h => h.2⟩
    · exact (hh a ha).2 p (by simp [hp]) (e2 p hp).1
  · rw [if_neg hn]
    refine ⟨I, es ++ [last], by simp [e1, last], ⟨fun p hp => ?_, fun a ha => ?_, fun d d' z hd' _ hs hI => h1 d d' z hd' hs hI, h2, fun d hd' _ hh => h3 d hd' (hstart d fun a ha => ⟨(hh a ha).1, fun p hp => ?_⟩)⟩⟩
    · simp only [List.mem_append, List.mem_singleton] at hp
      rcases hp with hp | rfl
      · exact (e2 p hp).2 _ _ _
      · exact hlast
    · rw [List.forall_mem_append, List.forall_mem_singleton, e3 a ha]
      exact ⟨fun ht => ⟨hCr a ht, ht⟩, fun h => h.2⟩
    · exact (hh a ha).2 p (by simp [hp]) (e2 p hp).1

theorem dup_nodup : ∀ {succ : List VarId}, succ.Nodup → Inverse.hasDup succ = false
  | [], _ => rfl
  | v :: vs, h => by
    have h' := List.nodup_cons.1 h
    have ih := dup_nodup h'.2
    cases v <;> simp [Inverse.hasDup, ih, h'.1]

/-- What the check for duplicates leaves: only constants can be repeated. -/
theorem nodup_of : ∀ {succ : List VarId}, Inverse.hasDup succ = false → (succ.filter fun x => x.underlyingIndex.isNone).Nodup → succ.Nodup
  | [], _, _ => .nil
  | v :: vs, h, hk => by
    simp only [Inverse.hasDup, Bool.or_eq_false_iff] at h
    cases v with
    | const c =>
      rw [List.filter_cons_of_pos (by rfl), List.nodup_cons] at hk
      exact List.nodup_cons.2 ⟨fun hm => hk.1 (List.mem_filter.2 ⟨hm, rfl⟩), nodup_of h.2 hk.2⟩
    | simple i =>
      rw [List.filter_cons_of_neg (by simp [VarId.underlyingIndex])] at hk
      exact List.nodup_cons.2 ⟨of_decide_eq_false h.1, nodup_of h.2 hk⟩
    | view i b k =>
      rw [List.filter_cons_of_neg (by simp [VarId.underlyingIndex])] at hk
      exact List.nodup_cons.2 ⟨of_decide_eq_false h.1, nodup_of h.2 hk⟩

theorem scc_ok {B : Kind σ (List VarId)} {h fuel : Nat} (o : Options) (ho : R .overflow) (hdv : R .diverge) (hd : DomsOK root) (hv : ∀ v ∈ succ, v.Valid root.length) (hn : succ.Nodup) (hne : succ ≠ [])
    (hz : z0[h]? = some (B.put succ)) :
    RightOrOverflow (install (σ := σ) (μ := μ) (.scc o fuel) B h succ root) (fun items => ∃ I es, es.map (·.1) = items ∧ Served root.length m R root z0 I (· = h) (fun a => Tour (succ.map (·.eval a))) succ es) :=
  install_ok hd hv ho (dup_nodup hn) rfl (fun _ => sccProp_serves o ho hdv hn hne hv) (fun _ _ _ _ hs hI => ⟨hI.1.sub hs, hI.2.sub hs⟩) (fun _ _ _ hzz hI => ⟨stored_only hzz hI.1, hI.2⟩)
    fun _ _ hr => ⟨⟨succ, hz, fun _ h => h, by simp, by simpa using hn, by simp, fun hf => hf.elim⟩, hr⟩

end
end Gcs.Circuit
