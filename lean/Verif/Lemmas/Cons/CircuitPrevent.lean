import Verif.Lemmas.Cons.CircuitInstall
import Verif.Lemmas.Cons.Element

/-!
# Keeping chains from closing too early
-/

namespace Gcs.Circuit
open IntervalSet AllDifferent Gac

/-- No two successors are the same. -/
def Differs (succ : List VarId) (a : Asg) : Prop := ∀ x ∈ succ, ∀ y ∈ succ, x ≠ y → x.eval a ≠ y.eval a

/-- The chains of an assignment that have been put together, the successors of the nodes in `c.unspliced` being left out. -/
structure Open (succ : List VarId) (c : Chains) (a : Asg) : Prop where
  some : c.unspliced ≠ []
  chain : ∀ i ∈ c.unspliced, it (fn succ a) (c.len (c.orig i)) (c.orig i) = i
  inner : ∀ i ∈ c.unspliced, ∀ m < c.len (c.orig i), it (fn succ a) m (c.orig i) ∉ c.unspliced
  dest : ∀ i ∈ c.unspliced, c.dest (c.orig i) = i
  first : ∀ y < succ.length, (∀ i < succ.length, i ∉ c.unspliced → fn succ a i ≠ y) → ∃ i ∈ c.unspliced, c.orig i = y

/-- What is known about an assignment. -/
def GoodAt (succ : List VarId) (c : Chains) (a : Asg) : Prop := Open succ c a ∨ (c.unspliced = [] ∧ Tour (succ.map (·.eval a))) ∨ ¬ Differs succ a

structure Good (succ : List VarId) (c : Chains) (d : Doms) : Prop where
  orig : ∀ i < succ.length, c.orig i < succ.length
  dest : ∀ i < succ.length, c.dest i < succ.length
  nodup : c.unspliced.Nodup
  lt : ∀ i ∈ c.unspliced, i < succ.length
  fixed : ∀ i < succ.length, i ∉ c.unspliced → At succ d i
  good : ∀ a, Within d a → GoodAt succ c a
  rng : Rng succ d

theorem At.sub {succ : List VarId} {d d' : Doms} {i : Nat} (h : At succ d i) (hs : ∀ a, Within d' a → Within d a) : At succ d' i := by
  obtain ⟨x, hx, hk⟩ := h
  exact ⟨x, hx, hk.sub hs⟩

theorem Good.sub {succ : List VarId} {c : Chains} {d d' : Doms} (h : Good succ c d) (hs : ∀ a, Within d' a → Within d a) : Good succ c d' :=
  ⟨h.orig, h.dest, h.nodup, h.lt, fun i hi hu => (h.fixed i hi hu).sub hs, fun a ha => h.good a (hs a ha), h.rng.sub hs⟩

theorem Good.init {succ : List VarId} {d : Doms} (hr : Rng succ d) : Good succ (Chains.init succ.length) d where
  orig _ hi := hi
  dest _ hi := hi
  nodup := List.nodup_range
  lt i hi := List.mem_range.1 hi
  fixed i hi hu := absurd (List.mem_range.2 hi) hu
  rng := hr
  good a ha := by
    by_cases e : succ = []
    · subst e
      exact .inr (.inl ⟨rfl, fun v hv => (by simp at hv), fun i j hi => (by simp at hi)⟩)
    · refine .inl ⟨?_, fun i _ => rfl, fun i _ m hm => absurd hm (Nat.not_lt_zero _), fun i _ => rfl, fun y hy _ => ⟨y, List.mem_range.2 hy, rfl⟩⟩
      exact List.ne_nil_of_mem (List.mem_range.2 (List.length_pos_iff.2 e))

section
variable {succ : List VarId} {c : Chains} {a : Asg}

/-- Chains do not come back to their start. -/
theorem Open.noReturn (h : Open succ c a) {i : Nat} (hi : i ∈ c.unspliced) {m : Nat} (h0 : 0 < m) (hm : m ≤ c.len (c.orig i)) : it (fn succ a) m (c.orig i) ≠ c.orig i := by
  intro e
  have h1 := it_add (f := fn succ a) m (c.len (c.orig i) - m) (c.orig i)
  rw [e, show m + (c.len (c.orig i) - m) = c.len (c.orig i) by omega, h.chain i hi] at h1
  exact h.inner i hi (c.len (c.orig i) - m) (by omega) (h1 ▸ hi)

/-- The nodes on a chain are different, so there are no more of them than nodes. -/
theorem Open.distinct (h : Open succ c a) {i : Nat} (hi : i ∈ c.unspliced) : ∀ m1 m2, m1 < m2 → m2 ≤ c.len (c.orig i) → it (fn succ a) m1 (c.orig i) ≠ it (fn succ a) m2 (c.orig i) := by
  intro m1 m2 h1 h2 e
  have e1 := it_add (f := fn succ a) m2 (c.len (c.orig i) - m2) (c.orig i)
  have e2 := it_add (f := fn succ a) m1 (c.len (c.orig i) - m2) (c.orig i)
  rw [e] at e2
  rw [show m2 + (c.len (c.orig i) - m2) = c.len (c.orig i) by omega, h.chain i hi] at e1
  rw [← e1] at e2
  exact h.inner i hi _ (by omega) (e2 ▸ hi)

theorem fn_lt {d : Doms} (hr : Rng succ d) (ha : Within d a) {i : Nat} (hi : i < succ.length) : fn succ a i < succ.length := by
  have h1 := hr _ (List.getElem_mem hi) a ha
  have h2 := fn_cast hr ha (List.getElem?_eq_getElem hi)
  omega

theorem it_lt {d : Doms} (hr : Rng succ d) (ha : Within d a) {i : Nat} (hi : i < succ.length) : ∀ m, it (fn succ a) m i < succ.length
  | 0 => hi
  | m + 1 => by rw [it_succ]; exact fn_lt hr ha (it_lt hr ha hi m)

/-- A chain that has all nodes and is closed. -/
theorem Open.whole {d : Doms} (h : Open succ c a) (hr : Rng succ d) (ha : Within d a) {i : Nat} (hi : i ∈ c.unspliced) (hil : i < succ.length) (ho : c.orig i < succ.length) (hc : fn succ a i = c.orig i) (hn : succ.length ≤ c.len (c.orig i) + 1) :
    (∀ k ∈ c.unspliced, k < succ.length → k = i) ∧ Tour (succ.map (·.eval a)) := by
  have hnd : ((List.range (c.len (c.orig i) + 1)).map fun m => it (fn succ a) m (c.orig i)).Nodup := by
    rw [List.nodup_iff_pairwise_ne, List.pairwise_map]
    refine List.Pairwise.imp_of_mem (R := (· < ·)) (fun {m1 m2} h1 h2 h12 => ?_) List.pairwise_lt_range
    rw [List.mem_range] at h1 h2
    exact h.distinct hi m1 m2 h12 (by omega)
  have hall : ∀ y < succ.length, ∃ m ≤ c.len (c.orig i), it (fn succ a) m (c.orig i) = y := by
    intro y hy
    apply Classical.byContradiction
    intro hno
    have := length_le_of_subset (y :: (List.range (c.len (c.orig i) + 1)).map fun m => it (fn succ a) m (c.orig i)) (List.range succ.length) (List.nodup_cons.2 ⟨fun hm => by
        obtain ⟨m, hm, e⟩ := List.mem_map.1 hm
        rw [List.mem_range] at hm
        exact hno ⟨m, by omega, e⟩, hnd⟩) fun z hz => by
      rcases List.mem_cons.1 hz with rfl | hz
      · exact List.mem_range.2 hy
      · obtain ⟨m, _, rfl⟩ := List.mem_map.1 hz
        exact List.mem_range.2 (it_lt hr ha ho m)
    simp only [List.length_cons, List.length_map, List.length_range] at this
    omega
  constructor
  · intro k hk hkl
    obtain ⟨m, hm, e⟩ := hall k hkl
    by_cases hlt : m < c.len (c.orig i)
    · exact absurd (e ▸ hk) (h.inner i hi m hlt)
    · rw [show m = c.len (c.orig i) by omega, h.chain i hi] at e
      exact e.symm
  · refine (tour_iff (hr.vals ha)).2 ?_
    rw [List.length_map]
    have hback : ∀ m ≤ c.len (c.orig i), it (fn succ a) (c.len (c.orig i) - m + 1) (it (fn succ a) m (c.orig i)) = c.orig i := by
      intro m hm
      rw [← it_add, show m + (c.len (c.orig i) - m + 1) = c.len (c.orig i) + 1 by omega, it_succ, h.chain i hi, hc]
    refine ⟨fun y hy => fn_lt hr ha hy, fun y z hy hz => ?_⟩
    obtain ⟨m1, h1, e1⟩ := hall y hy
    obtain ⟨m2, h2, e2⟩ := hall z hz
    refine ⟨c.len (c.orig i) - m1 + 1 + m2, ?_⟩
    show it (fn succ a) _ _ = _
    rw [it_add, ← e1, hback m1 h1, e2]

/-- What `splice` makes of the chains. -/
def joined (c : Chains) (i j : Nat) (us : List Nat) : Chains :=
  { dest := put c.dest (c.orig i) (c.dest j), orig := put c.orig (c.dest j) (c.orig i), len := put c.len (c.orig i) (c.len (c.orig i) + 1 + c.len j), unspliced := us }

/-- A predecessor of two. -/
theorem clash_at (hn : succ.Nodup) {d : Doms} (hr : Rng succ d) (ha : Within d a) {i i' : Nat} (hi : i < succ.length) (hi' : i' < succ.length) (hne : i ≠ i') (e : fn succ a i = fn succ a i') : ¬ Differs succ a := by
  intro hD
  refine hD _ (List.getElem_mem hi) _ (List.getElem_mem hi') (fun e' => hne ((List.getElem_inj hn).1 e')) ?_
  have h1 := fn_cast hr ha (List.getElem?_eq_getElem hi)
  have h2 := fn_cast hr ha (List.getElem?_eq_getElem hi')
  omega

/-- Joining two chains. -/
theorem Open.join {d : Doms} (h : Open succ c a) (hn : succ.Nodup) (hr : Rng succ d) (ha : Within d a) (hD : Differs succ a) (hnd : c.unspliced.Nodup) {i j : Nat} {us : List Nat} (hp : c.unspliced.Perm (i :: us)) (hil : i < succ.length)
    (hij : fn succ a i = j) (hj : j ≠ c.orig i) : c.dest j ∈ us ∧ Open succ (joined c i j us) a := by
  have hi : i ∈ c.unspliced := hp.mem_iff.2 List.mem_cons_self
  have hius : i ∉ us := (List.nodup_cons.1 (hp.nodup_iff.1 hnd)).1
  have hjl : j < succ.length := hij ▸ fn_lt hr ha hil
  have hus : ∀ k, k ∈ us ↔ k ∈ c.unspliced ∧ k ≠ i := fun k => by
    rw [hp.mem_iff, List.mem_cons]
    constructor
    · exact fun hk => ⟨.inr hk, fun e => hius (e ▸ hk)⟩
    · rintro ⟨rfl | hk, hne⟩
      · exact absurd rfl hne
      · exact hk
  obtain ⟨e, he, heo⟩ := h.first j hjl fun i' hi' hu hf => clash_at hn hr ha hil hi' (fun e => hu (e ▸ hi)) (hij.trans hf.symm) hD
  have hei : e ≠ i := by rintro rfl; exact hj heo.symm
  have hdj : c.dest j = e := by rw [← heo]; exact h.dest e he
  have heu : e ∈ us := (hus e).2 ⟨he, hei⟩
  have hoe : (joined c i j us).orig e = c.orig i := by simp only [joined, hdj]; exact put_same _ _ _
  have hlo : (joined c i j us).len (c.orig i) = c.len (c.orig i) + 1 + c.len j := put_same _ _ _
  have hdo : (joined c i j us).dest (c.orig i) = e := by simp only [joined, hdj]; exact put_same _ _ _
  have hother : ∀ k ∈ us, k ≠ e → (joined c i j us).orig k = c.orig k ∧ c.orig k ≠ c.orig i := fun k hk hke => by
    refine ⟨by simp only [joined, hdj]; exact put_ne _ _ hke, fun e' => ?_⟩
    have := h.dest k ((hus k).1 hk).1
    rw [e', h.dest i hi] at this
    exact ((hus k).1 hk).2 this.symm
  have hmid : it (fn succ a) (c.len (c.orig i) + 1) (c.orig i) = j := by rw [it_succ, h.chain i hi, hij]
  refine ⟨hdj ▸ heu, List.ne_nil_of_mem heu, fun k hk => ?_, fun k hk m hm => ?_, fun k hk => ?_, fun y hy hyf => ?_⟩
  · by_cases hke : k = e
    · subst hke
      rw [hoe, hlo, it_add, hmid, ← heo]
      exact h.chain k he
    · obtain ⟨h1, h2⟩ := hother k hk hke
      rw [h1, show (joined c i j us).len (c.orig k) = c.len (c.orig k) from put_ne _ _ h2]
      exact h.chain k ((hus k).1 hk).1
  · show _ ∉ us
    by_cases hke : k = e
    · subst hke
      rw [hoe] at hm ⊢
      rw [hlo] at hm
      intro hin
      have hin' := (hus _).1 hin
      by_cases h1 : m < c.len (c.orig i)
      · exact h.inner i hi m h1 hin'.1
      · by_cases h2 : m = c.len (c.orig i)
        · rw [h2, h.chain i hi] at hin'
          exact hin'.2 rfl
        · rw [show m = c.len (c.orig i) + 1 + (m - c.len (c.orig i) - 1) by omega, it_add, hmid, ← heo] at hin'
          exact h.inner k he _ (by rw [heo]; omega) hin'.1
    · obtain ⟨h1, h2⟩ := hother k hk hke
      rw [h1] at hm ⊢
      rw [show (joined c i j us).len (c.orig k) = c.len (c.orig k) from put_ne _ _ h2] at hm
      exact fun hin => h.inner k ((hus k).1 hk).1 m hm ((hus _).1 hin).1
  · by_cases hke : k = e
    · subst hke; rw [hoe, hdo]
    · obtain ⟨h1, h2⟩ := hother k hk hke
      rw [h1, show (joined c i j us).dest (c.orig k) = c.dest (c.orig k) from put_ne _ _ h2]
      exact h.dest k ((hus k).1 hk).1
  · obtain ⟨k, hk, hko⟩ := h.first y hy fun i' hi' hu => hyf i' hi' fun hin => hu ((hus i').1 hin).1
    by_cases hki : k = i
    · subst hki
      exact ⟨e, heu, hoe.trans hko⟩
    · have hku : k ∈ us := (hus k).2 ⟨hk, hki⟩
      by_cases hke : k = e
      · subst hke
        exact absurd (hij.trans (heo.symm.trans hko)) (hyf i hil hius)
      · exact ⟨k, hku, (hother k hku hke).1.trans hko⟩

end

section
variable {σ μ : Type} {J : Job} {succ : List VarId} {D : Prop}

/-- Changing one successor so that it is still not fixed does not fix others, if they are of different variables. -/
theorem stays_open (hD : (succ.filterMap VarId.underlyingIndex).Nodup) {e : Nat} {x : VarId} (hx : succ[e]? = some x) {d d' : Doms} (hd' : DomsOK d') {P : Int → Prop} (h : ∀ b, Within d' b ↔ Within d b ∧ P (x.eval b)) (ho : ¬ Known d' x) :
    ∀ y ∈ succ, Known d' y → Known d y := by
  intro y hy hk
  obtain ⟨q, hq⟩ := List.mem_iff_getElem?.1 hy
  have hne : q ≠ e := by rintro rfl; rw [hx] at hq; cases hq; exact ho hk
  refine Element.Known.of_apart hd' h ?_ hk
  rcases Nat.lt_or_gt_of_ne hne with h' | h'
  · exact Table.nodup_apart hD q e y x hq hx h'
  · exact Table.apart_symm (Table.nodup_apart hD e q x y hx hq h')

theorem splice_ver (ho : J.R .overflow) (hC : ∀ a, J.C a → Tour (succ.map (·.eval a))) (hv : ∀ x ∈ succ, x.Valid J.n) (hint : ∀ i : Nat, i < succ.length → InI64 (i : Int)) (hn : succ.Nodup)
    (hD : D → (succ.filterMap VarId.underlyingIndex).Nodup) {d : Doms} (hd : DomsOK d) (hl : d.length = J.n) {c : Chains} (h : Good succ c d) {i j : Nat} {us : List Nat} (hp : c.unspliced.Perm (i :: us))
    (hjl : j < succ.length) (hat : At succ d i) (hij : ∀ a, Within d a → fn succ a i = j) :
    (splice succ { c with unspliced := us } i j : Prog σ μ (Chains × Bool)).Ver J (fun _ => False)
      (fun r d' => Good succ r.1 d' ∧ r.1.unspliced = us ∧ (D → r.2 = false → ∀ x ∈ succ, Known d' x → Known d x)) d := by
  have hi : i ∈ c.unspliced := hp.mem_iff.2 List.mem_cons_self
  have hil := h.lt i hi
  have hus : ∀ k, k ∉ us → k ≠ i → k ∉ c.unspliced := fun k h1 h2 hk => by
    rcases List.mem_cons.1 (hp.mem_iff.1 hk) with e | e
    · exact h2 e
    · exact h1 e
  have hnd := List.nodup_cons.1 (hp.nodup_iff.1 h.nodup)
  have hlt : ∀ k ∈ us, k < succ.length := fun k hk => h.lt k (hp.mem_iff.2 (List.mem_cons_of_mem _ hk))
  have hfix : ∀ k < succ.length, k ∉ us → At succ d k := fun k hk hku => by
    by_cases e : k = i
    · subst e; exact hat
    · exact h.fixed k hk (hus k hku e)
  have hopen : ∀ a, Within d a → Differs succ a → Open succ c a := fun a ha hDf => by
    rcases h.good a ha with g | ⟨g, _⟩ | g
    · exact g
    · exact absurd (g ▸ hi) (by simp)
    · exact absurd hDf g
  have hdf : ∀ a, J.C a → Differs succ a := fun a hc => tour_differ_vars hn (hC a hc)
  have hol := h.orig i hil
  unfold splice
  dsimp only
  by_cases hj : j = c.orig i
  · rw [if_pos hj]
    by_cases hlen : c.len (c.orig i) + 1 < succ.length
    · rw [if_pos hlen]
      intro a ha hc
      have hO := hopen a ha (hdf a hc)
      have := (tour_loop (hC a hc)).cycle (len := c.len (c.orig i)) hol (by rw [it_succ, hO.chain i hi, hij a ha, hj])
      omega
    · rw [if_neg hlen]
      refine ⟨⟨h.orig, h.dest, hnd.2, hlt, hfix, fun a ha => ?_, h.rng⟩, rfl, fun _ _ _ _ hk => hk⟩
      by_cases hDf : Differs succ a
      · obtain ⟨h1, h2⟩ := (hopen a ha hDf).whole h.rng ha hi hil hol (by rw [hij a ha, hj]) (by omega)
        refine .inr (.inl ⟨List.eq_nil_iff_forall_not_mem.2 fun k hk => ?_, h2⟩)
        have := h1 k (hp.mem_iff.2 (List.mem_cons_of_mem _ hk)) (hlt k hk)
        exact hnd.1 (this ▸ hk)
      · exact .inr (.inr hDf)
  · rw [if_neg hj]
    have hel := h.dest j hjl
    have hx : succ[c.dest j]? = some succ[c.dest j] := List.getElem?_eq_getElem hel
    have hxv := hv _ (List.getElem_mem hel)
    have hgood : Good succ (joined c i j us) d := by
      refine ⟨fun k hk => ?_, fun k hk => ?_, hnd.2, hlt, hfix, fun a ha => ?_, h.rng⟩
      · by_cases e : k = c.dest j
        · subst e; simp only [joined]; rw [put_same]; exact hol
        · simp only [joined]; rw [put_ne _ _ e]; exact h.orig k hk
      · by_cases e : k = c.orig i
        · subst e; simp only [joined]; rw [put_same]; exact hel
        · simp only [joined]; rw [put_ne _ _ e]; exact h.dest k hk
      · by_cases hDf : Differs succ a
        · exact .inl ((hopen a ha hDf).join hn h.rng ha hDf h.nodup hp hil (hij a ha) hj).2
        · exact .inr (.inr hDf)
    have hch : ∀ a, Within d a → J.C a → (it (fn succ a) (c.len (c.orig i) + 1 + c.len j + 1) (c.orig i) = (succ[c.dest j].eval a).toNat) ∧ ∀ m, 0 < m → m ≤ c.len (c.orig i) + 1 + c.len j → it (fn succ a) m (c.orig i) ≠ c.orig i := by
      intro a ha hc
      obtain ⟨he, hJ⟩ := (hopen a ha (hdf a hc)).join hn h.rng ha (hdf a hc) h.nodup hp hil (hij a ha) hj
      have e1 : (joined c i j us).orig (c.dest j) = c.orig i := put_same _ _ _
      have e2 : (joined c i j us).len (c.orig i) = c.len (c.orig i) + 1 + c.len j := put_same _ _ _
      have h1 := hJ.chain (c.dest j) he
      rw [e1, e2] at h1
      refine ⟨by rw [it_succ, h1, fn_eq hx], fun m h0 hm => ?_⟩
      have h2 := hJ.noReturn (i := c.dest j) he (m := m) h0
      rw [e1, e2] at h2
      exact h2 hm
    refine ver_lift (x := vecAt succ (c.dest j)) (P := fun y => y = succ[c.dest j]) ho (.inr ⟨_, vecAt_get hx, rfl⟩) fun y hy => ?_
    subst hy
    split
    · rename_i hlen
      refine ver_tell (.ne hxv (hint _ hol)) (fun a ha hc => ?_) fun d' h1 h2 h3 => ?_
      · rw [Lit.holds_ne]
        intro e
        have := (tour_loop (hC a hc)).cycle (len := c.len (c.orig i) + 1 + c.len j) hol (by rw [(hch a ha hc).1, e]; rfl)
        omega
      · have hs : ∀ a, Within d' a → Within d a := fun a ha => ((h3 a).1 ha).1
        refine ver_ask (f := (optionalSingleValue · succ[c.dest j])) ho (single_pin h1 (by rw [h2]; exact hxv)) fun r hr => ?_
        refine ⟨hgood.sub hs, rfl, fun hDD hf => ?_⟩
        refine stays_open (hD hDD) hx h1 (P := fun w => w ≠ (c.orig i : Int)) (fun b => by rw [h3 b, Lit.holds_ne]) fun hK => ?_
        obtain ⟨a, ha⟩ := exists_within h1
        have := (hr (succ[c.dest j].eval a)).1.2 (hK.pinned ha)
        rw [this] at hf
        cases hf
    · rename_i hlen
      refine ver_tell (.eq hxv (hint _ hol)) (fun a ha hc => ?_) fun d' h1 h2 h3 => ?_
      · rw [Lit.holds_eq]
        have := (tour_loop (hC a hc)).close (len := c.len (c.orig i) + 1 + c.len j) hol (hch a ha hc).2 (by omega)
        rw [(hch a ha hc).1] at this
        have hrg := h.rng _ (List.getElem_mem hel) a ha
        omega
      · exact ⟨hgood.sub fun a ha => ((h3 a).1 ha).1, rfl, fun _ hf => (nomatch hf)⟩

/-- What a sweep leaves. -/
structure Swept (succ : List VarId) (D : Prop) (c : Chains) (d : Doms) (fixed : Bool) (c' : Chains) (fixed' : Bool) (d' : Doms) : Prop where
  good : Good succ c' d'
  le : c'.unspliced.length ≤ c.unspliced.length
  less : fixed' = true → fixed = true ∨ c'.unspliced.length < c.unspliced.length
  kept : fixed' = false → fixed = false
  calm : D → fixed' = false → ∀ x ∈ succ, Known d' x → Known d x

theorem Swept.trans {c c1 c2 : Chains} {d d1 d2 : Doms} {f f1 f2 : Bool} (h : Swept succ D c d f c1 f1 d1) (h' : Swept succ D c1 d1 f1 c2 f2 d2) : Swept succ D c d f c2 f2 d2 where
  good := h'.good
  le := Nat.le_trans h'.le h.le
  less e := by
    have := h.le
    have := h'.le
    rcases h'.less e with e' | e'
    · rcases h.less e' with e'' | e''
      · exact .inl e''
      · exact .inr (by omega)
    · exact .inr (by omega)
  kept e := h.kept (h'.kept e)
  calm hD e x hx hk := h.calm hD (h'.kept e) x hx (h'.calm hD e x hx hk)

theorem sweep_ver (ho : J.R .overflow) (hC : ∀ a, J.C a → Tour (succ.map (·.eval a))) (hv : ∀ x ∈ succ, x.Valid J.n) (hint : ∀ i : Nat, i < succ.length → InI64 (i : Int)) (hn : succ.Nodup)
    (hD : D → (succ.filterMap VarId.underlyingIndex).Nodup) : ∀ (f k : Nat) (c : Chains) (progress fixed : Bool) (d : Doms), DomsOK d → d.length = J.n → Good succ c d → k ≤ c.unspliced.length → c.unspliced.length < f + k →
    (progress = false → ∀ (m i : Nat), m < k → c.unspliced[m]? = some i → ¬ At succ d i) →
    (sweep succ f k c progress fixed : Prog σ μ (Chains × Bool × Bool)).Ver J (fun _ => False)
      (fun r d' => Swept succ D c d fixed r.1 r.2.2 d' ∧ (r.2.1 = true → progress = true ∨ r.1.unspliced.length < c.unspliced.length) ∧ (r.2.1 = false → ∀ i ∈ r.1.unspliced, ¬ At succ d' i)) d
  | 0, k, c, _, _, _, _, _, _, h1, h2, _ => absurd h2 (by omega)
  | f + 1, k, c, progress, fixed, d, hd, hl, h, h1, h2, h3 => by
    rw [sweep]
    cases hk : c.unspliced[k]? with
    | none =>
      refine ⟨⟨h, Nat.le_refl _, fun e => .inl e, id, fun _ _ _ _ hk => hk⟩, fun e => .inl e, fun e i hi => ?_⟩
      replace hi : i ∈ c.unspliced := hi
      obtain ⟨m, hm⟩ := List.mem_iff_getElem?.1 hi
      have hml := (List.getElem?_eq_some_iff.1 hm).1
      have := List.getElem?_eq_none_iff.1 hk
      exact h3 e m i (by omega) hm
    | some i =>
      dsimp only
      have hkl := (List.getElem?_eq_some_iff.1 hk).1
      have hil := h.lt i (List.mem_of_getElem? hk)
      have hx : succ[i]? = some succ[i] := List.getElem?_eq_getElem hil
      refine ver_lift (x := vecAt succ i) (P := fun y => y = succ[i]) ho (.inr ⟨_, vecAt_get hx, rfl⟩) fun y hy => ?_
      subst hy
      refine ver_ask (f := (optionalSingleValue · succ[i])) ho (single_pin hd (by rw [hl]; exact hv _ (List.getElem_mem hil))) fun r hr => ?_
      cases r with
      | none =>
        refine sweep_ver ho hC hv hint hn hD f (k + 1) c progress fixed d hd hl h hkl (by omega) fun e m i' hm hi' => ?_
        by_cases hmk : m = k
        · subst hmk
          rw [hk] at hi'; cases hi'
          rintro ⟨x, hx', hK⟩
          rw [hx] at hx'; cases hx'
          obtain ⟨a, ha⟩ := exists_within hd
          exact nomatch (hr (succ[i].eval a)).1.2 (hK.pinned ha)
        · exact h3 e m i' (by omega) hi'
      | some v =>
        have hpin := (hr v).1.1 rfl
        obtain ⟨a0, ha0⟩ := exists_within hd
        have hrg := h.rng _ (List.getElem_mem hil) a0 ha0
        rw [hpin a0 ha0] at hrg
        refine ver_lift (x := toNode succ.length v) (P := fun y => y = v.toNat) ho (.inr ⟨_, toNode_roo hrg, rfl⟩) fun y hy => ?_
        subst hy
        have hjl : v.toNat < succ.length := by omega
        have hp := takeOut_perm hk
        have hpl := hp.length_eq
        simp only [List.length_cons] at hpl
        refine ver_bind (S := fun _ => False) (fun _ h => h.elim) _ _ hd hl (ver_mono (fun r d' hq k1 k2 k3 => ?_) _ _
          (splice_ver (J := J) (c := c) (i := i) (j := v.toNat) (us := takeOut c.unspliced k) ho hC hv hint hn hD hd hl h hp hjl ⟨_, hx, fun a b ha hb => (hpin a ha).trans (hpin b hb).symm⟩ fun a ha => by rw [fn_eq hx, hpin a ha]))
        obtain ⟨g1, g2, g3⟩ := hq
        have hlen : r.1.unspliced.length + 1 = c.unspliced.length := by rw [g2]; exact hpl.symm
        have hle : r.1.unspliced.length ≤ c.unspliced.length := by omega
        have hlt : r.1.unspliced.length < c.unspliced.length := by omega
        refine ver_mono (fun r' d'' ⟨q1, q2, q3⟩ => ⟨Swept.trans ⟨g1, hle, fun _ => .inr hlt, fun e => ?_, fun hDD e => ?_⟩ q1, fun _ => .inr (Nat.lt_of_le_of_lt q1.le hlt), q3⟩) _ _
          (sweep_ver ho hC hv hint hn hD f k r.1 true (fixed || r.2) d' k1 k2 g1 (by omega) (by omega) fun e => (nomatch e))
        · exact (Bool.or_eq_false_iff.1 e).1
        · exact g3 hDD (Bool.or_eq_false_iff.1 e).2

theorem sweeps_ver (ho : J.R .overflow) (hC : ∀ a, J.C a → Tour (succ.map (·.eval a))) (hv : ∀ x ∈ succ, x.Valid J.n) (hint : ∀ i : Nat, i < succ.length → InI64 (i : Int)) (hn : succ.Nodup)
    (hD : D → (succ.filterMap VarId.underlyingIndex).Nodup) : ∀ (f : Nat) (c : Chains) (fixed : Bool) (d : Doms), DomsOK d → d.length = J.n → Good succ c d → c.unspliced.length < f →
    (sweeps succ f c fixed : Prog σ μ (Chains × Bool)).Ver J (fun _ => False) (fun r d' => Swept succ D c d fixed r.1 r.2 d' ∧ ∀ i ∈ r.1.unspliced, ¬ At succ d' i) d
  | 0, _, _, _, _, _, _, h => absurd h (Nat.not_lt_zero _)
  | f + 1, c, fixed, d, hd, hl, h, hf => by
    refine ver_bind (S := fun _ => False) (fun _ h => h.elim) _ _ hd hl (ver_mono (fun r d' hq k1 k2 k3 => ?_) _ _
      (sweep_ver (D := D) ho hC hv hint hn hD (c.unspliced.length + 1) 0 c false fixed d hd hl h (Nat.zero_le _) (by omega) fun _ m i hm => absurd hm (Nat.not_lt_zero _)))
    obtain ⟨q1, q2, q3⟩ := hq
    cases e : r.2.1 with
    | true =>
      rw [if_pos rfl]
      have hlt : r.1.unspliced.length < c.unspliced.length := (q2 e).elim (fun e' => (nomatch e')) id
      exact ver_mono (fun r' d'' hq => ⟨q1.trans hq.1, hq.2⟩) _ _ (sweeps_ver ho hC hv hint hn hD f r.1 r.2.2 d' k1 k2 q1.good (by omega))
    | false =>
      rw [if_neg (by simp)]
      exact ⟨q1, q3 e⟩

/-- What is left in the end. -/
structure Settled (succ : List VarId) (D : Prop) (d : Doms) (u : List VarId) (c : Chains) (d' : Doms) : Prop where
  inv : Inv succ True d' u []
  good : Good succ c d'
  unknown : ∀ i ∈ c.unspliced, ¬ At succ d' i
  before : (∀ x ∈ succ, Known d x) → ∀ a, Within d' a → Differs succ a
  after : D → (∀ x ∈ succ, Known d' x) → ∀ a, Within d' a → Differs succ a

theorem Settled.tour {d d' : Doms} {u : List VarId} {c : Chains} (h : Settled succ D d u c d') (hk : ∀ x ∈ succ, Known d' x) {a : Asg} (ha : Within d' a) (hDf : Differs succ a) : Tour (succ.map (·.eval a)) := by
  rcases h.good.good a ha with g | ⟨_, g⟩ | g
  · obtain ⟨i, hi⟩ := List.exists_mem_of_ne_nil _ g.some
    have hil := h.good.lt i hi
    exact absurd ⟨_, List.getElem?_eq_getElem hil, hk _ (List.getElem_mem hil)⟩ (h.unknown i hi)
  · exact g
  · exact absurd hDf g

theorem alternate_ver (ho : J.R .overflow) (hC : ∀ a, J.C a → Tour (succ.map (·.eval a))) (hv : ∀ x ∈ succ, x.Valid J.n) (hint : ∀ i : Nat, i < succ.length → InI64 (i : Int)) (hn : succ.Nodup)
    (hD : D → (succ.filterMap VarId.underlyingIndex).Nodup) : ∀ (f : Nat) (u : List VarId) (c : Chains) (d : Doms), DomsOK d → d.length = J.n → Inv succ True d u [] → Good succ c d → c.unspliced.length < f →
    (alternate succ f u c : Prog σ μ (Option (List VarId × Chains))).Ver J (· = none) (fun r d' => ∃ q, r = some q ∧ Settled succ D d q.1 q.2 d') d
  | 0, _, _, _, _, _, _, _, h => absurd h (Nat.not_lt_zero _)
  | f + 1, u, c, d, hd, hl, hu, h, hf => by
    refine ver_bind (S := (· = none)) (fun v e => by subst e; exact rfl) _ _ hd hl (ver_mono (fun r d1 hq k1 k2 k3 => ?_) _ _ (pass_ver (D := D) ho (fun a hc => tour_differ_vars hn (hC a hc)) hv hD hd hl hu))
    obtain ⟨u', rfl, p1, p2, p3⟩ := hq
    refine ver_bind (S := fun _ => False) (fun _ h => h.elim) _ _ k1 k2 (ver_mono (fun r d2 hq m1 m2 m3 => ?_) _ _ (sweeps_ver (D := D) ho hC hv hint hn hD (c.unspliced.length + 1) c false d1 k1 k2 (h.sub k3) (by omega)))
    obtain ⟨q1, q2⟩ := hq
    cases e : r.2 with
    | true =>
      rw [if_pos rfl]
      have hlt : r.1.unspliced.length < c.unspliced.length := (q1.less e).elim (fun e' => (nomatch e')) id
      refine ver_mono (fun r' d3 ⟨q, hr, hS⟩ => ⟨q, hr, ⟨hS.inv, hS.good, hS.unknown, fun hk => hS.before fun x hx => (hk x hx).sub fun a ha => k3 a (m3 a ha), hS.after⟩⟩) _ _
        (alternate_ver ho hC hv hint hn hD f u' r.1 d2 m1 m2 (p1.sub m3) q1.good (by omega))
    | false =>
      rw [if_neg (by simp)]
      refine ⟨_, rfl, ⟨p1.sub m3, q1.good, q2, fun hk a ha => ?_, fun hDD hk a ha => ?_⟩⟩
      · obtain ⟨rfl, rfl⟩ := p3 hk
        exact p1.finished trivial (m3 a ha)
      · have : u' = [] := List.eq_nil_iff_forall_not_mem.2 fun x hx => p2 hDD x hx (q1.calm hDD e x (p1.left x hx) (hk x (p1.left x hx)))
        subst this
        exact p1.finished trivial (m3 a ha)

/-- What the algorithm relies on. -/
def PrevInv (B : Kind σ (List VarId)) (h : Nat) (K : Kind σ Chains) (hc : Nat) (succ : List VarId) (d : Doms) (z : List σ) : Prop :=
  Stored B h succ True d z ∧ ∃ c, z[hc]? = some (K.put c) ∧ Good succ c d

theorem distinct_inst {t : Triggers} (ht : t.onInstantiated = succ) (hD : t.Distinct) : (succ.filterMap VarId.underlyingIndex).Nodup := by
  unfold Triggers.Distinct at hD
  rw [ht] at hD
  simp only [List.filterMap_append, List.nodup_append] at hD
  exact hD.1.2.1

theorem preventProp_serves {n m : Nat} {R : Err → Prop} {root : Doms} {B : Kind σ (List VarId)} {h : Nat} {K : Kind σ Chains} {hc : Nat} (hne : h ≠ hc) (ho : R .overflow) (hn : succ.Nodup) (hv : ∀ v ∈ succ, v.Valid n)
    (hint : ∀ i : Nat, i < succ.length → InI64 (i : Int)) :
    Serves n m R root (PrevInv B h K hc succ) (fun k => k = h ∨ k = hc) (preventProp (μ := μ) B h K hc succ) { onInstantiated := succ } (fun a => Tour (succ.map (·.eval a))) (fun a => Tour (succ.map (·.eval a))) succ where
  wakes := wakes_mem fun x hx => .inr (.inr hx)
  refined := by simp
  ver d z hd hl hz hi := by
    obtain ⟨⟨u, hu, hinv⟩, c, hcz, hgood⟩ := hi
    have hlt := (List.getElem?_eq_some_iff.1 hu).1
    have hclt := (List.getElem?_eq_some_iff.1 hcz).1
    rintro s rfl rfl
    dsimp only
    rw [show (s.st.cstates.headD [])[h]? = some (B.put u) from hu]
    dsimp only
    rw [B.get_put]
    intro s' hs' ht'
    dsimp only
    rw [show (s'.st.cstates.headD [])[hc]? = some (K.put c) from by rw [show s'.st.cstates.headD [] = s.top from ht']; exact hcz]
    dsimp only
    rw [K.get_put]
    dsimp only
    refine verS_bind (S := (· = none)) (fun v e => by subst e; exact trivial) _ _ _ hd hl (verS_mono (fun r d' z' hq k1 k2 k3 => ?_) _ _ _
      (verS_own (J := { n, m, R, C := fun a => Within root a ∧ Tour (succ.map (·.eval a)), own := fun _ => False }) (own := fun k => k = h ∨ k = hc) (fun _ hh => hh.elim) _ _ _
        (Ver.toS (J := { n, m, R, C := fun a => Within root a ∧ Tour (succ.map (·.eval a)), own := fun _ => False }) (fun _ => id) _ _ _
          (alternate_ver (J := { n, m, R, C := fun a => Within root a ∧ Tour (succ.map (·.eval a)), own := fun _ => False }) (D := ({ onInstantiated := succ } : Triggers).Distinct) ho (fun a ha => ha.2) hv hint hn
            (fun hD => distinct_inst rfl hD) _ u c _ hd hl hinv hgood (Nat.lt_succ_self _)))))
    obtain ⟨⟨q, rfl, hS⟩, rfl⟩ := hq
    refine ⟨⟨hz ▸ hlt, .inl rfl⟩, ⟨hz ▸ hclt, .inr rfl⟩, ⟨fun hk a ha _ => ?_, fun hDD _ hk a ha _ => ?_, fun e => (nomatch e)⟩, ⟨q.1, ?_, hS.inv⟩, q.2, ?_, hS.good⟩
    · exact hS.tour (fun x hx => (known_all hk x hx).sub k3) ha (hS.before (known_all hk) a ha)
    · exact hS.tour (known_all hk) ha (hS.after hDD (known_all hk) a ha)
    · rw [List.getElem?_set_ne (Ne.symm hne), List.getElem?_set_self hlt]
    · rw [List.getElem?_set_self (by rw [List.length_set]; exact hclt)]

theorem prevent_ok {m : Nat} {R : Err → Prop} {root : Doms} {z0 : List σ} {B : Kind σ (List VarId)} {h : Nat} {K : Kind σ Chains} {hc : Nat} (hne : h ≠ hc) (ho : R .overflow) (hd : DomsOK root) (hv : ∀ v ∈ succ, v.Valid root.length)
    (hn : succ.Nodup) (hz : z0[h]? = some (B.put succ)) (hzc : z0[hc]? = some (K.put (Chains.init succ.length))) :
    RightOrOverflow (install (σ := σ) (μ := μ) (.prevent K hc) B h succ root) (fun items => ∃ I es, es.map (·.1) = items ∧ Served root.length m R root z0 I (fun k => k = h ∨ k = hc) (fun a => Tour (succ.map (·.eval a))) succ es) :=
  install_ok hd hv ho (dup_nodup hn) rfl (fun hint => preventProp_serves hne ho hn hv hint)
    (fun _ _ _ _ hs hI => by obtain ⟨h1, c, h2, h3⟩ := hI; exact ⟨h1.sub hs, c, h2, h3.sub hs⟩)
    (fun _ _ _ hzz hI => by
      obtain ⟨⟨u, hu, h1⟩, c, h2, h3⟩ := hI
      exact ⟨⟨u, (hzz h (.inl rfl)).trans hu, h1⟩, c, (hzz hc (.inr rfl)).trans h2, h3⟩)
    fun _ _ hr => ⟨⟨succ, hz, fun _ h => h, by simp, by simpa using hn, by simp, fun _ x hx => .inl hx⟩, _, hzc, Good.init hr⟩

end
end Gcs.Circuit
