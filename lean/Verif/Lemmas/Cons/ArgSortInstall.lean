import Verif.Lemmas.Cons.ArgSortProp
import Verif.Props.Hidden

/-!
# Posting ArgSort
-/

namespace Gcs.ArgSort
open IntervalSet

section
variable {σ μ : Type} {m : Nat} {R : Err → Prop} {root : Doms} {x p : List VarId} {y : List Nat} {off : Int} {old : Nat → List (Option Nat)} {z0 : List σ}

/-- What ArgSort maintains: `p` is the sorting permutation of `x`, and the variables `y` have the values in order. -/
def Holds (x p : List VarId) (off : Int) (y : List Nat) (a : Asg) : Prop :=
  ArgSorts off (x.map (·.eval a)) (p.map (·.eval a)) ∧ Channels x p (y.map VarId.simple) off a

theorem ranks_iff {a : Asg} (hlen : p.length = x.length) :
    ArgSorts off (x.map (·.eval a)) (p.map (·.eval a)) ↔ (∀ v ∈ p, off ≤ v.eval a ∧ v.eval a < off + x.length) ∧ (∀ k < x.length, Rank x p off k a) ∧ DifferExcept p [] a := by
  rw [argSorts_iff]
  constructor
  · intro h
    refine ⟨fun v hv => by simpa using h.range _ (List.mem_map_of_mem hv), fun k hk q hq hE => ?_, differExcept_nil.2 h.nodup⟩
    have := h.rank q.2 k (by rw [List.getElem?_map, List.mem_zipIdx_iff_getElem?.1 hq, ← hE]; rfl)
    rw [List.length_map] at this
    exact this.symm
  · rintro ⟨h1, h2, h3⟩
    refine ⟨by simp [hlen], fun v hv => ?_, differExcept_nil.1 h3, fun j k hj => ?_⟩
    · obtain ⟨w, hw, rfl⟩ := List.mem_map.1 hv
      simpa using h1 w hw
    · rw [List.getElem?_map, Option.map_eq_some_iff] at hj
      obtain ⟨v, hv, e⟩ := hj
      have hk : k < x.length := by have := h1 v (List.mem_of_getElem? hv); omega
      have := h2 k hk (v, j) (List.mem_zipIdx_iff_getElem?.2 hv) e
      rw [List.length_map]
      exact this.symm

theorem Holds.sorts {a : Asg} (h : Holds x p off y a) (hlen : p.length = x.length) (hy : y.length = x.length) : Sorts (x.map (·.eval a)) ((y.map VarId.simple).map (·.eval a)) := by
  refine h.1.sorts (by simp [hy]) fun j k hj => ?_
  rw [List.getElem?_map, Option.map_eq_some_iff] at hj
  obtain ⟨v, hv, e⟩ := hj
  have hjl := (List.getElem?_eq_some_iff.1 hv).1
  have hk : k < x.length := by have := ((ranks_iff hlen).1 h.1).1 v (List.mem_of_getElem? hv); omega
  have hyj : (y.map VarId.simple)[j]? = some (.simple (y[j]'(by omega))) := by rw [List.getElem?_map, List.getElem?_eq_getElem (by omega)]; rfl
  have := h.2 (v, .simple (y[j]'(by omega))) (List.mem_iff_getElem?.2 ⟨j, by rw [List.getElem?_zip_eq_some]; exact ⟨hv, hyj⟩⟩) k x[k] (List.getElem?_eq_getElem hk) e
  rw [List.getElem?_map, hyj, List.getElem?_map, List.getElem?_eq_getElem hk]
  simp only [Option.map_some, Option.some.injEq]
  exact this

theorem extremes_roo (hd : DomsOK root) : ∀ x : List VarId, (∀ v ∈ x, v.Valid root.length) → RightOrOverflow (extremes root x) (fun r => ∀ v ∈ x, ∀ a, Within root a → r.1 ≤ v.eval a ∧ v.eval a ≤ r.2)
  | [], _ => .pure fun _ h => nomatch h
  | [v], hv => (bounds_roo hd (hv v (by simp))).mono fun b hb w hw a ha => by
    rw [List.mem_singleton.1 hw]
    exact ⟨hb.1.2.le ha, hb.2.2.ge ha⟩
  | v :: w :: vs, hv => by
    refine (bounds_roo hd (hv v (by simp))).bind fun b hb => (extremes_roo hd (w :: vs) fun u hu => hv u (List.mem_cons_of_mem _ hu)).bind fun r hr => .pure fun u hu a ha => ?_
    show min b.1 r.1 ≤ _ ∧ _ ≤ max b.2 r.2
    rcases List.mem_cons.1 hu with rfl | hu
    · have h1 := hb.1.2.le ha
      have h2 := hb.2.2.ge ha
      omega
    · have := hr u hu a ha
      omega

/-- What the propagators rely on. -/
structure Relies (root : Doms) (x p : List VarId) (off : Int) (d : Doms) : Prop where
  sub : ∀ a, Within d a → Within root a
  inside : Inverse.Inside d off x.length p

theorem install_ok (ho : R .overflow) (hd : DomsOK root) (hoff : InI64 off) (hx : ∀ v ∈ x, v.Valid root.length) (hp : ∀ v ∈ p, v.Valid root.length) (hy : ∀ i ∈ y, i < root.length) (hold : ∀ k, Gac.Injective (old k))
    (hlen : p.length = x.length) (hyl : y.length = x.length) (hne : x ≠ []) (hin : ∀ v ∈ x, ∀ a, Within root a → Inner (v.eval a)) :
    RightOrOverflow (install (σ := σ) (μ := μ) x p off y old root) (fun items => ∃ I es, es.map (·.1) = items ∧ Served root.length m R root z0 I (fun _ => False) (Holds x p off y) (x ++ p) es) := by
  unfold install
  rw [if_neg (by simp [hlen]), if_neg hne]
  have hys : ∀ v ∈ y.map VarId.simple, v.Valid root.length := fun v hv => by
    obtain ⟨i, hi, rfl⟩ := List.mem_map.1 hv
    exact hy i hi
  refine (range_inits (m := m) (C := Holds x p off y) ho hd hoff p hp fun a _ hc => ((ranks_iff hlen).1 hc.1).1).bind fun is his => ?_
  refine (extremes_roo hd x hx).bind fun _ _ => (ofSize_roo x.length).bind fun K hK => (add_roo hoff hK.2).bind fun _ _ => ?_
  refine (Inverse.indices_roo hoff x.length).bind fun vals hvals => .pure ?_
  have sub : ∀ d d', (∀ a, Within d' a → Within d a) → Relies root x p off d → Relies root x p off d' := fun d d' h r => ⟨fun a ha => r.sub a (h a ha), r.inside.sub h⟩
  let J : Job := { n := root.length, m, R, C := fun a => Within root a ∧ Holds x p off y a }
  have s1 : Serves root.length m R root (fun d _ => Relies root x p off d) (fun _ => False) ((Sort.sortedness x (y.map VarId.simple)).bind fun _ => (pure PState.enable : Prog σ μ PState)) { onBounds := x ++ y.map VarId.simple } (Holds x p off y) (fun _ => True) [] := by
    refine Inverse.serves_of_ver (I := Relies root x p off) (fun z hz => nomatch hz) rfl sub fun d hd hl _ => ?_
    refine ver_seq (J := J) (S := fun _ => False) hd hl (fun _ h => h) (Sort.ver_sortedness ho hd hl (fun v hv => (List.mem_append.1 hv).elim (hx v) (hys v)) (by simp [hyl]) fun a _ hc => hc.2.sorts hlen hyl) fun _ d' _ _ _ _ => ?_
    exact Enforced.when (.intro (xs := []) (fun _ _ _ _ => trivial) (fun h => nomatch h) fun h => nomatch h)
  have s2 : Serves root.length m R root (fun d _ => Relies root x p off d) (fun _ => False) (channel (σ := σ) (μ := μ) x p (y.map VarId.simple) off) { onChange := p, onBounds := x ++ y.map VarId.simple } (Holds x p off y)
      (Channels x p (y.map VarId.simple) off) (x ++ p) := by
    refine Inverse.serves_of_ver (I := Relies root x p off) (wakes_mem fun z hz => (List.mem_append.1 hz).elim (fun h => .inr (.inl (List.mem_append_left _ h))) .inl) rfl sub fun d hd hl hi => ?_
    refine ver_seq (J := J) (S := fun _ => False) hd hl (fun _ h => h) (ver_channel ho hoff hx hp hys hd hl hi.inside fun a _ hc => hc.2.2) fun _ d' _ _ _ hq => ?_
    exact Enforced.when (.intro (fun hk a ha _ => hq hk a ha) (fun h => nomatch h) fun h => nomatch h)
  have s3 : Serves root.length m R root (fun d _ => Relies root x p off d) (fun _ => False) (rank (σ := σ) (μ := μ) x p off) { onChange := p, onBounds := x } (Holds x p off y) (fun a => ∀ k < x.length, Rank x p off k a) (x ++ p) := by
    refine Inverse.serves_of_ver (I := Relies root x p off) (wakes_mem fun z hz => (List.mem_append.1 hz).elim (fun h => .inr (.inl h)) .inl) rfl sub fun d hd hl hi => ?_
    refine ver_seq (J := J) (S := fun _ => False) hd hl (fun _ h => h) (ver_rank ho hoff hx hp hd hl (fun v hv u ⟨a, ha, e⟩ => e ▸ hin v hv a (hi.sub a ha)) fun a _ hc => ((ranks_iff hlen).1 hc.2.1).2.1) fun _ d' _ _ _ hq => ?_
    exact Enforced.when (.intro (fun hk a ha _ => hq (fun v hv => hk v (List.mem_append_left _ hv)) a ha) (fun h => nomatch h) fun h => nomatch h)
  have s4 : Serves root.length m R root (fun d _ => Relies root x p off d) (fun _ => False) (different (σ := σ) (μ := μ) p vals old) { onChange := p } (Holds x p off y) (DifferExcept p []) p := by
    refine Inverse.serves_of_ver (I := Relies root x p off) (wakes_mem fun z hz => .inl hz) rfl sub fun d hd hl hi => ?_
    refine ver_seq (J := J) (S := fun _ => False) hd hl (fun _ h => h) (AllDifferent.gac_vals ho hvals.1 hp hold (fun a hc => ?_) hd hl) fun _ d' _ _ _ hq => ?_
    · obtain ⟨h1, _, h2⟩ := (ranks_iff hlen).1 hc.2.1
      exact ⟨fun v hv => .inl (hvals.2 _ (h1 v hv).1 (h1 v hv).2), h2⟩
    · exact ⟨fun hk a ha _ => hq.known (known_all hk) ha, fun hD _ hk a ha _ => hq.known' hd (by simpa [Triggers.Distinct] using hD) (known_all hk) ha, fun h => nomatch h⟩
  have key := Inits.servedAll (z0 := z0) (I := Relies root x p off) (xs := x ++ p) (ps := [(Sort.propagator x (y.map VarId.simple), fun _ => True), (.prop (channel x p (y.map VarId.simple) off) { onChange := p, onBounds := x ++ y.map VarId.simple }, Channels x p (y.map VarId.simple) off),
    (.prop (rank x p off) { onChange := p, onBounds := x }, fun a => ∀ k < x.length, Rank x p off k a), (.prop (different p vals old) { onChange := p }, DifferExcept p [])]) his (fun q hq => ?_) (fun a _ => ?_) sub fun d _ _ hq => ?_
  · exact key
  · simp only [List.mem_cons, List.not_mem_nil, or_false] at hq
    rcases hq with rfl | rfl | rfl | rfl
    · exact ⟨_, _, [], rfl, fun _ h => (nomatch h), s1⟩
    · exact ⟨_, _, _, rfl, fun _ h => h, s2⟩
    · exact ⟨_, _, _, rfl, fun _ h => h, s3⟩
    · exact ⟨_, _, _, rfl, fun _ h => List.mem_append_right _ h, s4⟩
  · simp only [List.forall_mem_cons, List.not_mem_nil, false_implies, implies_true, and_true, true_and]
    rw [Holds, ranks_iff hlen]
    exact ⟨fun h => ⟨h.1.1, h.2, h.1.2.1, h.1.2.2⟩, fun h => ⟨⟨h.1, h.2.2.1, h.2.2.2⟩, h.2.1⟩⟩
  · exact ⟨fun a ha => (hq a ha).1, Inverse.inside_of fun a ha => (hq a ha).2⟩

/-- Variables for the sorted values are as `ArgSort` makes them: there is one for each element, with the bounds that are computed for them, and nothing else is one of them, or a view of one. -/
structure Allocated (root : Doms) (x p : List VarId) (y : List Nat) : Prop where
  length : y.length = x.length
  nodup : y.Nodup
  lt : ∀ i ∈ y, i < root.length
  off : ∀ v ∈ x ++ p, ∀ i, v.underlyingIndex = some i → i ∉ y
  values : ∀ r, extremes root x = .ok r → ∀ (i : Nat) d, i ∈ y → root[i]? = some d → ∀ v, Mem v d ↔ r.1 ≤ v ∧ v ≤ r.2

theorem eval_agree {v : VarId} {a b : Asg} (h : ∀ i, v.underlyingIndex = some i → a i = b i) : v.eval a = v.eval b := by
  cases v with
  | const c => rfl
  | simple i => exact h i rfl
  | view i ng k => simp only [VarId.eval]; rw [h i rfl]

theorem holds_agree {a b : Asg} (h : ∀ v ∈ x ++ p, v.eval a = v.eval b) (hy : ∀ i ∈ y, a i = b i) : Holds x p off y a ↔ Holds x p off y b := by
  have e1 : x.map (·.eval a) = x.map (·.eval b) := List.map_congr_left fun v hv => h v (List.mem_append_left _ hv)
  have e2 : p.map (·.eval a) = p.map (·.eval b) := List.map_congr_left fun v hv => h v (List.mem_append_right _ hv)
  have e3 : Channels x p (y.map VarId.simple) off a ↔ Channels x p (y.map VarId.simple) off b := by
    refine forall_congr' fun q => forall_congr' fun hq => forall_congr' fun k => forall_congr' fun xk => forall_congr' fun hk => ?_
    have hm := List.of_mem_zip hq
    obtain ⟨i, hi, e⟩ := List.mem_map.1 hm.2
    rw [h q.1 (List.mem_append_right _ hm.1), h xk (List.mem_append_left _ (List.mem_of_getElem? hk)), ← e]
    simp only [VarId.eval]
    rw [hy i hi]
  rw [Holds, Holds, e1, e2, e3]

/-- The values in order can be given to the variables for them. -/
theorem means (hal : Allocated root x p y) (hlen : p.length = x.length) (hd : DomsOK root) (hx : ∀ v ∈ x, v.Valid root.length) (hr : extremes root x ≠ .error .overflow) {all : Nat → Prop} (hall : ∀ i ∈ y, all i)
    (hoff : ∀ v ∈ x ++ p, ∀ i, v.underlyingIndex = some i → ¬ all i) (inst : Doms → Chk (List (Item σ μ))) :
    Means root (· ∈ y) all (Posted.mk inst (Holds x p off y) (x ++ p)) (fun a => ArgSorts off (x.map (·.eval a)) (p.map (·.eval a))) where
  ignores a b hab := holds_agree (fun v hv => eval_agree fun i hi => hab i fun h => hoff v hv i hi h.1) fun i hi => hab i fun h => h.2 hi
  iff a ha := by
    have agree : ∀ b : Asg, AgreeOff (· ∈ y) b a → ∀ v ∈ x ++ p, v.eval b = v.eval a := fun b hb v hv => eval_agree fun i hi => hb i (hal.off v hv i hi)
    constructor
    · intro h
      let val : Nat → Int := fun i => ((x.map (·.eval a)).getD (((p.map (·.eval a)).getD (y.idxOf i) 0) - off).toNat 0)
      have hb : AgreeOff (· ∈ y) (fun i => if i ∈ y then val i else a i) a := fun i hi => if_neg hi
      refine ⟨fun i => if i ∈ y then val i else a i, hb, fun i d hi => ?_, ?_, ?_⟩
      · dsimp only
        split
        · rename_i hiy
          obtain ⟨r, e, hrr⟩ := (extremes_roo hd x hx).resolve_left hr
          rw [hal.values r e i d hiy hi]
          have hj : y.idxOf i < p.length := by rw [hlen, ← hal.length]; exact List.idxOf_lt_length_iff.2 hiy
          have hrg := ((ranks_iff hlen).1 h).1 _ (List.getElem_mem hj)
          have e1 : (p.map (·.eval a)).getD (y.idxOf i) 0 = p[y.idxOf i].eval a := getD_map (List.getElem?_eq_getElem hj)
          have hk : (p[y.idxOf i].eval a - off).toNat < x.length := by omega
          have e2 : val i = x[(p[y.idxOf i].eval a - off).toNat].eval a := by
            show (x.map (·.eval a)).getD _ 0 = _
            rw [e1]
            exact getD_map (List.getElem?_eq_getElem hk)
          rw [e2]
          exact hrr _ (List.getElem_mem hk) a ha
        · exact ha i d hi
      · have e1 : x.map (·.eval fun i => if i ∈ y then val i else a i) = x.map (·.eval a) := List.map_congr_left fun v hv => agree _ hb v (List.mem_append_left _ hv)
        have e2 : p.map (·.eval fun i => if i ∈ y then val i else a i) = p.map (·.eval a) := List.map_congr_left fun v hv => agree _ hb v (List.mem_append_right _ hv)
        rw [e1, e2]; exact h
      · intro q hq k xk hk hE
        obtain ⟨j, hj⟩ := List.mem_iff_getElem?.1 hq
        obtain ⟨h1, h2⟩ := List.getElem?_zip_eq_some.1 hj
        have hm := List.of_mem_zip hq
        rw [agree _ hb q.1 (List.mem_append_right _ hm.1)] at hE
        rw [agree _ hb xk (List.mem_append_left _ (List.mem_of_getElem? hk))]
        rw [List.getElem?_map, Option.map_eq_some_iff] at h2
        obtain ⟨i, hi, e⟩ := h2
        rw [← e]
        have hiy := List.mem_of_getElem? hi
        show (if i ∈ y then val i else a i) = _
        rw [if_pos hiy]
        have hidx : y.idxOf i = j := by
          have hjl := (List.getElem?_eq_some_iff.1 hi)
          rw [← hjl.2]
          exact hal.nodup.idxOf_getElem j hjl.1
        show (x.map (·.eval a)).getD _ 0 = _
        rw [hidx, getD_map h1, hE]
        rw [show (off + (k : Int) - off).toNat = k by omega]
        exact getD_map hk
    · rintro ⟨b, h1, _, h3⟩
      have e1 : x.map (·.eval b) = x.map (·.eval a) := List.map_congr_left fun v hv => agree b h1 v (List.mem_append_left _ hv)
      have e2 : p.map (·.eval b) = p.map (·.eval a) := List.map_congr_left fun v hv => agree b h1 v (List.mem_append_right _ hv)
      have := h3.1
      rwa [e1, e2] at this

end
end Gcs.ArgSort
