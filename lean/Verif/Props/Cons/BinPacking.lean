import Verif.Lemmas.Cons.BinPackingInstall
import Verif.Spec.BinPacking
import Verif.Props.Cons.Run
import Verif.Props.Stateful

/-!
# C59: BinPacking
-/

namespace Gcs
open IntervalSet

section
variable {σ μ : Type} {m : Nat} {R : Err → Prop} {root : Doms} {items loads : List VarId} {sizes capacities : List Int} {z0 : List σ} {mode : BinPacking.Mode}

theorem put_binLoad {a : Asg} {b : Int} : ∀ (items : List VarId) (sizes : List Int), BinPacking.put b a (items.zip sizes) = binLoad (items.map (·.eval a)) sizes b
  | [], _ => by simp [BinPacking.put, binLoad]
  | _ :: _, [] => by simp [BinPacking.put, binLoad]
  | x :: items, s :: sizes => by
    have ih := put_binLoad (a := a) (b := b) items sizes
    unfold binLoad at ih ⊢
    rw [List.zip_cons_cons, BinPacking.put, ih, List.map_cons, List.zip_cons_cons, List.filter_cons]
    split
    · rename_i h; rw [if_pos (decide_eq_true h), List.map_cons, List.sum_cons]
    · rename_i h; rw [if_neg (by simpa using h), Int.zero_add]

/-- What is wrong with the items of a BinPacking with `n` bins (gcs/constraints/bin_packing/bin_packing.hh:50-62). -/
def BadItems (items : List VarId) (sizes : List Int) (n : Nat) (root : Doms) : Prop :=
  items.length ≠ sizes.length ∨ (∃ s ∈ sizes, s < 0) ∨ n = 0 ∨ ∃ x ∈ items, ∃ a, Within root a ∧ ¬ (0 ≤ x.eval a ∧ x.eval a < n)

theorem bins_right {bins : List BinPacking.Cap} {C : Asg → Prop} {about : List VarId} (ho : R .overflow) (hd : DomsOK root) (hv : ∀ x ∈ items, x.Valid root.length) (hs : ∀ s ∈ sizes, InI64 s) (hq : ∀ t, .inl t ∈ bins → t.Valid root.length) (hb : InI64 bins.length)
    (ha : ∀ x ∈ items, x ∈ about) (hC : BinPacking.Accepted items sizes bins root → ∀ a, Within root a → (C a ↔ BinPacking.Means (items.zip sizes) bins a)) :
    (Posted.mk (BinPacking.install (σ := σ) (μ := μ) mode items sizes bins) C about).Serves root.length m R root z0 (fun _ => False) ∧
    ∀ e, BinPacking.install (σ := σ) (μ := μ) mode items sizes bins root = .error e → e = .overflow ∨ (e = .invalidProblem ∧ ¬ BinPacking.Accepted items sizes bins root) ∨ (e = .ub ∧ mode ≠ .bc ∧ i64Max < sizes.sum) := by
  by_cases acc : BinPacking.Accepted items sizes bins root
  · by_cases hsum : mode ≠ .bc → sizes.sum ≤ i64Max
    · have key := BinPacking.install_ok (σ := σ) (μ := μ) (m := m) (R := R) (z0 := z0) ho hd hv hs hq hb acc hsum
      refine ⟨fun is h => ?_, fun e h => ?_⟩
      · have h : BinPacking.install (σ := σ) (μ := μ) mode items sizes bins root = .ok is := h
        rcases key with k | ⟨_, k, I, es, he, hk⟩
        · rw [k] at h; cases h
        · rw [k] at h; cases h
          exact ⟨I, es, he, (hk.about ha).congr (hC acc)⟩
      · rcases key with k | ⟨_, k, _⟩
        · rw [k] at h; cases h; exact .inl rfl
        · rw [k] at h; cases h
    · have hm : mode ≠ .bc := fun e => hsum fun h => absurd e h
      have hgt : i64Max < sizes.sum := Int.not_le.1 fun h => hsum fun _ => h
      have e2 : (items.zip sizes).map (·.2) = sizes := List.map_snd_zip (Nat.le_of_eq acc.len.symm)
      have bad : BinPacking.install (σ := σ) (μ := μ) mode items sizes bins root = .error .overflow ∨ BinPacking.install (σ := σ) (μ := μ) mode items sizes bins root = .error .ub := by
        unfold BinPacking.install
        rcases BinPacking.refused_roo (sizes := sizes) hd hv hq with e | ⟨b, e, hb⟩
        · left; rw [e]; rfl
        · right
          have : b = false := by
            cases b with
            | false => rfl
            | true => exact absurd acc (hb.1 rfl)
          subst this
          rw [e, BinPacking.graphs, if_neg hm, BinPacking.dags_ub (fun p hp => acc.sizes _ (List.of_mem_zip (a := p.1) (b := p.2) hp).2) acc.some (by rw [e2]; exact hgt)]
          rfl
      refine ⟨fun is h => ?_, fun e h => ?_⟩
      · have h : BinPacking.install (σ := σ) (μ := μ) mode items sizes bins root = .ok is := h
        rcases bad with k | k <;> (rw [k] at h; cases h)
      · rcases bad with k | k
        · rw [k] at h; cases h; exact .inl rfl
        · rw [k] at h; cases h; exact .inr (.inr ⟨rfl, hm, hgt⟩)
  · have bad : BinPacking.install (σ := σ) (μ := μ) mode items sizes bins root = .error .overflow ∨ BinPacking.install (σ := σ) (μ := μ) mode items sizes bins root = .error .invalidProblem := by
      unfold BinPacking.install
      rcases BinPacking.refused_roo (sizes := sizes) hd hv hq with e | ⟨b, e, hb⟩
      · left; rw [e]; rfl
      · right; rw [e, hb.2 acc]; rfl
    refine ⟨fun is h => ?_, fun e h => ?_⟩
    · have h : BinPacking.install (σ := σ) (μ := μ) mode items sizes bins root = .ok is := h
      rcases bad with k | k <;> (rw [k] at h; cases h)
    · rcases bad with k | k
      · rw [k] at h; cases h; exact .inl rfl
      · rw [k] at h; cases h; exact .inr (.inl ⟨rfl, acc⟩)

theorem mem_zipIdx_iff {α : Type} {l : List α} {q : α × Nat} : q ∈ l.zipIdx ↔ l[q.2]? = some q.1 := by
  obtain ⟨x, i⟩ := q
  exact List.mem_zipIdx_iff_getElem?

theorem not_bad {bins : List BinPacking.Cap} (h : ¬ BinPacking.Accepted items sizes bins root) : BadItems items sizes bins.length root ∨ (∃ t, .inl t ∈ bins ∧ ∃ a, Within root a ∧ t.eval a < 0) ∨ ∃ c, .inr c ∈ bins ∧ c < 0 := by
  refine Classical.byContradiction fun hn => h ⟨?_, ?_, ?_, ?_, ?_, ?_⟩
  · exact Classical.byContradiction fun k => hn (.inl (.inl k))
  · exact fun s hs => Int.not_lt.1 fun k => hn (.inl (.inr (.inl ⟨s, hs, k⟩)))
  · exact fun k => hn (.inl (.inr (.inr (.inl (by rw [k]; rfl)))))
  · exact fun x hx a ha => Classical.byContradiction fun k => hn (.inl (.inr (.inr (.inr ⟨x, hx, a, ha, k⟩))))
  · exact fun t ht a ha => Int.not_lt.1 fun k => hn (.inr (.inl ⟨t, ht, a, ha, k⟩))
  · exact fun c hc => Int.not_lt.1 fun k => hn (.inr (.inr ⟨c, hc, k⟩))

/-- C59: `BinPacking(items, sizes, loads)`, with either consistency and either proof strategy: what is installed is right, whatever is repeated and whatever the domains are. It keeps no constraint state. Posting throws only if the
arguments are not as they have to be, or something is not a 64-bit integer; it has undefined behaviour only if the sum of sizes is not a 64-bit integer, and the consistency is GAC. -/
theorem binPacking_loads_right_partial (ho : R .overflow) (hd : DomsOK root) (hv : ∀ x ∈ items ++ loads, x.Valid root.length) (hs : ∀ s ∈ sizes, InI64 s) (hb : InI64 loads.length) :
    (Posted.mk (BinPacking.installLoads (σ := σ) (μ := μ) mode items sizes loads) (fun a => BinsLoaded (items.map (·.eval a)) sizes (loads.map (·.eval a))) (items ++ loads)).Serves root.length m R root z0 (fun _ => False) ∧
    ∀ e, BinPacking.installLoads (σ := σ) (μ := μ) mode items sizes loads root = .error e →
      e = .overflow ∨ (e = .invalidProblem ∧ (BadItems items sizes loads.length root ∨ ∃ t ∈ loads, ∃ a, Within root a ∧ t.eval a < 0)) ∨ (e = .ub ∧ mode ≠ .bc ∧ i64Max < sizes.sum) := by
  have hmem : ∀ t, (.inl t : BinPacking.Cap) ∈ loads.map .inl → t ∈ loads := fun t h => by
    obtain ⟨t', h1, h2⟩ := List.mem_map.1 h
    cases h2; exact h1
  obtain ⟨h1, h2⟩ := bins_right (σ := σ) (μ := μ) (m := m) (R := R) (z0 := z0) (mode := mode) (items := items) (sizes := sizes) (bins := loads.map .inl) (C := fun a => BinsLoaded (items.map (·.eval a)) sizes (loads.map (·.eval a))) (about := items ++ loads) ho hd (fun x hx => hv x (List.mem_append_left _ hx)) hs
    (fun t ht => hv t (List.mem_append_right _ (hmem t ht))) (by rw [List.length_map]; exact hb) (fun x hx => List.mem_append_left _ hx) fun acc a ha => by
      constructor
      · rintro ⟨_, h⟩ ⟨q, b⟩ hq
        have hq := mem_zipIdx_iff.1 hq
        rw [List.getElem?_map] at hq
        obtain ⟨t, ht, e⟩ := Option.map_eq_some_iff.1 hq
        cases e
        show t.eval a = BinPacking.put b a (items.zip sizes)
        rw [put_binLoad]
        exact (h b _ (by rw [List.getElem?_map, show loads[b]? = some t from ht]; rfl)).symm
      · refine fun h => ⟨fun x hx => ?_, fun b t ht => ?_⟩
        · obtain ⟨x', hx', rfl⟩ := List.mem_map.1 hx
          have := acc.items x' hx' a ha
          rw [List.length_map] at this ⊢
          exact this
        · rw [List.getElem?_map] at ht
          obtain ⟨t', ht', rfl⟩ := Option.map_eq_some_iff.1 ht
          have : t'.eval a = BinPacking.put b a (items.zip sizes) := h (.inl t', b) (mem_zipIdx_iff.2 (by show (loads.map Sum.inl)[b]? = _; rw [List.getElem?_map, ht']; rfl))
          rw [this, put_binLoad]
  refine ⟨h1, fun e he => ?_⟩
  rcases h2 e he with h | ⟨h, k⟩ | h
  · exact .inl h
  · refine .inr (.inl ⟨h, ?_⟩)
    rcases not_bad k with k | ⟨t, k1, k2⟩ | ⟨c, k1, _⟩
    · rw [List.length_map] at k; exact .inl k
    · exact .inr ⟨t, hmem t k1, k2⟩
    · obtain ⟨_, _, k⟩ := List.mem_map.1 k1; cases k
  · exact .inr (.inr h)

/-- C59: the same for `BinPacking(items, sizes, capacities)`. -/
theorem binPacking_capacities_right_partial (ho : R .overflow) (hd : DomsOK root) (hv : ∀ x ∈ items, x.Valid root.length) (hs : ∀ s ∈ sizes, InI64 s) (hb : InI64 capacities.length) :
    (Posted.mk (BinPacking.installCapacities (σ := σ) (μ := μ) mode items sizes capacities) (fun a => BinsFit (items.map (·.eval a)) sizes capacities) items).Serves root.length m R root z0 (fun _ => False) ∧
    ∀ e, BinPacking.installCapacities (σ := σ) (μ := μ) mode items sizes capacities root = .error e →
      e = .overflow ∨ (e = .invalidProblem ∧ (BadItems items sizes capacities.length root ∨ ∃ c ∈ capacities, c < 0)) ∨ (e = .ub ∧ mode ≠ .bc ∧ i64Max < sizes.sum) := by
  have hmem : ∀ c, (.inr c : BinPacking.Cap) ∈ capacities.map .inr → c ∈ capacities := fun t h => by
    obtain ⟨t', h1, h2⟩ := List.mem_map.1 h
    cases h2; exact h1
  have hno : ∀ t, (.inl t : BinPacking.Cap) ∉ capacities.map .inr := fun t h => by
    obtain ⟨_, _, k⟩ := List.mem_map.1 h; cases k
  obtain ⟨h1, h2⟩ := bins_right (σ := σ) (μ := μ) (m := m) (R := R) (z0 := z0) (mode := mode) (items := items) (sizes := sizes) (bins := capacities.map .inr) (C := fun a => BinsFit (items.map (·.eval a)) sizes capacities) (about := items) ho hd hv hs
    (fun t ht => absurd ht (hno t)) (by rw [List.length_map]; exact hb) (fun _ h => h) fun acc a ha => by
      constructor
      · rintro ⟨_, h⟩ ⟨q, b⟩ hq
        have hq := mem_zipIdx_iff.1 hq
        rw [List.getElem?_map] at hq
        obtain ⟨c, hc, e⟩ := Option.map_eq_some_iff.1 hq
        cases e
        show BinPacking.put b a (items.zip sizes) ≤ c
        rw [put_binLoad]
        exact h b c hc
      · refine fun h => ⟨fun x hx => ?_, fun b c hc => ?_⟩
        · obtain ⟨x', hx', rfl⟩ := List.mem_map.1 hx
          have := acc.items x' hx' a ha
          rw [List.length_map] at this
          exact this
        · have : BinPacking.put b a (items.zip sizes) ≤ c := h (.inr c, b) (mem_zipIdx_iff.2 (by show (capacities.map Sum.inr)[b]? = _; rw [List.getElem?_map, hc]; rfl))
          rw [← put_binLoad]; exact this
  refine ⟨h1, fun e he => ?_⟩
  rcases h2 e he with h | ⟨h, k⟩ | h
  · exact .inl h
  · refine .inr (.inl ⟨h, ?_⟩)
    rcases not_bad k with k | ⟨t, k1, k2⟩ | ⟨c, k1, k2⟩
    · rw [List.length_map] at k; exact .inl k
    · exact absurd k1 (hno t)
    · exact .inr ⟨c, hmem c k1, k2⟩
  · exact .inr (.inr h)

/-- C59: what is accepted is as it has to be. -/
theorem binPacking_refuses {is : List (Item σ μ)} {bins : List BinPacking.Cap} (hd : DomsOK root) (hv : ∀ x ∈ items, x.Valid root.length) (hq : ∀ t, .inl t ∈ bins → t.Valid root.length) (h : BinPacking.install mode items sizes bins root = .ok is) :
    ¬ BadItems items sizes bins.length root ∧ (∀ t, .inl t ∈ bins → ∀ a, Within root a → 0 ≤ t.eval a) ∧ ∀ c, .inr c ∈ bins → 0 ≤ c := by
  have acc : BinPacking.Accepted items sizes bins root := Classical.byContradiction fun hn => by
    unfold BinPacking.install at h
    rcases BinPacking.refused_roo (sizes := sizes) hd hv hq with e | ⟨b, e, hb⟩
    · rw [e] at h; cases h
    · rw [e, hb.2 hn] at h; cases h
  refine ⟨?_, acc.loads, acc.capacities⟩
  rintro (k | ⟨s, hs, k⟩ | k | ⟨x, hx, a, ha, k⟩)
  · exact k acc.len
  · have := acc.sizes s hs; omega
  · exact acc.some (List.eq_nil_of_length_eq_zero k)
  · exact k (acc.items x hx a ha)

/-- C59: if the sum of sizes is not a 64-bit integer, posting has undefined behaviour (signed overflow) with the default consistency, with either strategy; bounds consistency throws while solving. -/
theorem binPacking_total_ub : ∃ (root : Doms) (items : List VarId) (sizes capacities : List Int), DomsOK root ∧ (∀ s ∈ sizes, InI64 s) ∧
    (BinPacking.installCapacities (σ := Unit) (μ := Unit) .perCall items sizes capacities root).map List.length = .error .ub ∧ (BinPacking.installCapacities (σ := Unit) (μ := Unit) .upfront items sizes capacities root).map List.length = .error .ub ∧
    Run.thrown root [BinPacking.installCapacities .bc items sizes capacities] = some .overflow :=
  ⟨[[(0, 1)], [(0, 1)]], [.simple 0, .simple 1], [1, i64Max], [5, 5], by decide +kernel, by decide +kernel, by decide +kernel, by decide +kernel, by decide +kernel⟩

/-! ## The sweep -/

theorem flagged_of {d : Doms} {b : Int} {fs : List (Bool × Bool)} (hd : DomsOK d) (hv : ∀ x ∈ items, x.Valid d.length) (hb : InI64 b) (h : AllDifferent.mapAll (BinPacking.flags d b) items = .ok fs) :
    fs.length = items.length ∧ ∀ (i : Nat) x f, items[i]? = some x → fs[i]? = some f → BinPacking.Flagged d b x f := by
  rcases AllDifferent.mapAll_roo (P := BinPacking.Flagged d b) items (fun x hx => BinPacking.flags_roo hd (hv x hx) hb) with e | ⟨r, e, hr⟩
  · rw [e] at h; cases h
  · rw [e] at h; cases h; exact hr

/-- C59: with the default strategy, what is kept for a bin from one call to the next is not restored on backtracking. Whatever the domains were in the calls before, as long as they were within those at the time of posting, it is
the same after a call as if it had been made anew. And nothing is ever pruned: bounds are not used, so that there is always support. -/
theorem binPacking_sweep_idle {b cap : Int} {gs fs : List (Bool × Bool)} {layers : List (List Int)} {history : List (List (Bool × Bool))} (hd : DomsOK root) (hv : ∀ x ∈ items, x.Valid root.length) (hb : InI64 b) (hlen : items.length = sizes.length) (hs : ∀ s ∈ sizes, 0 ≤ s)
    (hcap : BinPacking.total sizes 0 = .ok cap) (hgs : AllDifferent.mapAll (BinPacking.flags root b) items = .ok gs) (hdag : BinPacking.dag cap (gs.zip sizes) [0] = .ok layers)
    (hh : ∀ h ∈ fs :: history, ∃ d, DomsOK d ∧ d.length = root.length ∧ (∀ a, Within d a → Within root a) ∧ AllDifferent.mapAll (BinPacking.flags d b) items = .ok h) :
    BinPacking.sweep layers sizes fs (history.foldl (fun sc h => (BinPacking.sweep layers sizes h sc).1) (BinPacking.fresh items.length)) = BinPacking.sweep layers sizes fs (BinPacking.fresh items.length) ∧
    (BinPacking.sweep layers sizes fs (BinPacking.fresh items.length)).2 = [] := by
  obtain ⟨g1, g2⟩ := flagged_of hd hv hb hgs
  have hcap' : cap = sizes.sum ∧ cap ≤ i64Max := by
    rcases BinPacking.total_spec sizes 0 hs (Int.le_refl _) (by decide) with ⟨h1, h2⟩ | ⟨_, h2⟩
    · rw [h2] at hcap; cases hcap; exact ⟨Int.zero_add _, h1⟩
    · rw [h2] at hcap; cases hcap
  have hgl : gs.length = sizes.length := g1.trans hlen
  have hn : ∀ p ∈ gs.zip sizes, 0 ≤ p.2 := fun p hp => hs _ (List.of_mem_zip (a := p.1) (b := p.2) hp).2
  have hsum := BinPacking.sizes_sum gs sizes hgl
  have hnn := BinPacking.sizesOf_nonneg hn
  have hmin : i64Min ≤ cap := by
    have : i64Min ≤ 0 := by decide
    omega
  obtain ⟨ls, e, hcl, _⟩ := BinPacking.dag_ok (cap := cap) ⟨hmin, hcap'.2⟩ (gs.zip sizes) [0] hn (fun w hw => by rw [List.mem_singleton.1 hw]; omega)
  rw [hdag] at e; cases e
  obtain ⟨hat, hll⟩ := hcl.at hgl (by simp)
  have facts : ∀ h ∈ fs :: history, h.length = items.length ∧ ∀ i, i < h.length → BinPacking.Fewer (h.getD i (false, false)) (gs.getD i (false, false)) ∧ ((h.getD i (false, false)).1 = true ∨ (h.getD i (false, false)).2 = true) := fun h hm => by
    obtain ⟨d, d1, d2, d3, d4⟩ := hh h hm
    obtain ⟨f1, f2⟩ := flagged_of d1 (fun x hx => d2.symm ▸ hv x hx) hb d4
    refine ⟨f1, fun i hi => ?_⟩
    have hi1 : i < items.length := by omega
    have hi2 : i < gs.length := by omega
    have k1 := f2 i _ _ (List.getElem?_eq_getElem hi1) (List.getElem?_eq_getElem hi)
    have k2 := g2 i _ _ (List.getElem?_eq_getElem hi1) (List.getElem?_eq_getElem hi2)
    have e1 : h.getD i (false, false) = h[i] := by simp [hi]
    have e2 : gs.getD i (false, false) = gs[i] := by simp [hi2]
    rw [e1, e2]
    exact ⟨k1.fewer k2 d3, k1.some d1⟩
  have one : ∀ h ∈ fs :: history, ∀ sc, BinPacking.Sound ([0] :: ls) sizes items.length sc → BinPacking.Sound ([0] :: ls) sizes items.length (BinPacking.sweep ([0] :: ls) sizes h sc).1 := fun h hm sc hsc => by
    have hl := (facts h hm).1
    have := BinPacking.sweep_state (fs := h) (by rw [hll]; omega) (by omega) (hl.symm ▸ hsc)
    exact .inr ⟨by rw [this.2.1]; exact hl, this.2.1.symm ▸ this.2.2.1, this.2.1.symm ▸ this.2.2.2⟩
  have all : ∀ (hist : List (List (Bool × Bool))) sc, (∀ h ∈ hist, h ∈ fs :: history) → BinPacking.Sound ([0] :: ls) sizes items.length sc → BinPacking.Sound ([0] :: ls) sizes items.length (hist.foldl (fun sc h => (BinPacking.sweep ([0] :: ls) sizes h sc).1) sc) := fun hist => by
    induction hist with
    | nil => exact fun sc _ h => h
    | cons h hist ih => exact fun sc hm hsc => ih _ (fun h' k => hm h' (List.mem_cons_of_mem _ k)) (one h (hm h List.mem_cons_self) sc hsc)
  have fin := all history (BinPacking.fresh items.length) (fun h hm => List.mem_cons_of_mem _ hm) (.inl rfl)
  generalize history.foldl (fun sc h => (BinPacking.sweep ([0] :: ls) sizes h sc).1) (BinPacking.fresh items.length) = sc at fin ⊢
  obtain ⟨fl, ff⟩ := facts fs List.mem_cons_self
  have idle : ∀ sc, BinPacking.Sound ([0] :: ls) sizes items.length sc → (BinPacking.sweep ([0] :: ls) sizes fs sc).2 = [] := fun sc hsc =>
    BinPacking.sweep_prunes (gs := gs) (by rw [hll]; omega) (by omega) (fl.symm ▸ hsc) (by omega) hat ff
  refine ⟨Prod.ext ?_ ((idle sc fin).trans (idle _ (.inl rfl)).symm), idle _ (.inl rfl)⟩
  have s1 := BinPacking.sweep_state (fs := fs) (by rw [hll]; omega) (by omega) (fl.symm ▸ fin)
  have s2 := BinPacking.sweep_state (fs := fs) (layers := [0] :: ls) (sizes := sizes) (sc := BinPacking.fresh items.length) (by rw [hll]; omega) (by omega) (.inl rfl)
  generalize (BinPacking.sweep ([0] :: ls) sizes fs sc).1 = x at s1 ⊢
  generalize (BinPacking.sweep ([0] :: ls) sizes fs (BinPacking.fresh items.length)).1 = y at s2 ⊢
  obtain ⟨xf, xb, xp, xw⟩ := x
  obtain ⟨yf, yb, yp, yw⟩ := y
  obtain ⟨a1, a2, a3, a4⟩ := s1
  obtain ⟨b1, b2, b3, b4⟩ := s2
  have e1 : xf = yf := a3.unique b3
  subst e1
  have e2 : xb = yb := a4.unique b4
  cases a1; cases b1; cases a2; cases b2; subst e2; rfl

end

namespace BinPacking.Demo

/-- What a call leaves of the domains. -/
def after (mode : Mode) (root : Doms) (items : List VarId) (sizes : List Int) (bins : List Cap) : Option Doms :=
  match graphs mode (items.zip sizes) bins root with
  | .ok ds => (runProg ⟨0, []⟩ (propagate (σ := Unit) (μ := Unit) mode (items.zip sizes) bins ds) (Sys.start root [] () (Run.setup root []).watches)).toOption.map fun p => p.2.doms
  | .error _ => none

/-- C59: the two strategies do not draw the same inferences. With sizes 3, 2 and 2, a load of 4 cannot have the first item, which is found out by the one that is not the default. The default one leaves it in the domain: it is not
consistent for the bin, and does no more than bounds consistency. -/
theorem binPacking_strategies_differ : after .upfront [[(0, 1)], [(0, 1)], [(0, 1)], [(4, 4)], [(0, 9)]] [.simple 0, .simple 1, .simple 2] [3, 2, 2] [.inl (.simple 3), .inl (.simple 4)] = some [[(1, 1)], [(0, 1)], [(0, 1)], [(4, 4)], [(3, 3), (5, 5), (7, 7)]] ∧
    after .perCall [[(0, 1)], [(0, 1)], [(0, 1)], [(4, 4)], [(0, 9)]] [.simple 0, .simple 1, .simple 2] [3, 2, 2] [.inl (.simple 3), .inl (.simple 4)] = some [[(0, 1)], [(0, 1)], [(0, 1)], [(4, 4)], [(0, 7)]] ∧
    after .bc [[(0, 1)], [(0, 1)], [(0, 1)], [(4, 4)], [(0, 9)]] [.simple 0, .simple 1, .simple 2] [3, 2, 2] [.inl (.simple 3), .inl (.simple 4)] = some [[(0, 1)], [(0, 1)], [(0, 1)], [(4, 4)], [(0, 7)]] ∧
    ¬ ∃ x y : Int, (0 ≤ x ∧ x ≤ 1) ∧ (0 ≤ y ∧ y ≤ 1) ∧ binLoad [0, x, y] [3, 2, 2] 0 = 4 := by
  refine ⟨by decide +kernel, by decide +kernel, by decide +kernel, fun ⟨x, y, hx, hy, h⟩ => ?_⟩
  have h1 : x = 0 ∨ x = 1 := by omega
  have h2 : y = 0 ∨ y = 1 := by omega
  rcases h1 with rfl | rfl <;> rcases h2 with rfl | rfl <;> revert h <;> decide

/-- Three items, one of them a view, and one given twice. -/
def root : Doms := [[(0, 2)], [(0, 1)], [(3, 8)], [(0, 5)], [(0, 4)]]
def items : List VarId := [.simple 0, .view 1 false 1, .simple 0, .simple 1]
def sizes : List Int := [2, 3, 1, 4]
def loads : List VarId := [.simple 2, .simple 3, .view 4 false 1]

example (mode : Mode) : (Posted.mk (installLoads (μ := Unit) mode items sizes loads) (fun a => BinsLoaded (items.map (·.eval a)) sizes (loads.map (·.eval a))) (items ++ loads)).Serves 5 0 (· = .overflow) root ([] : List Unit) (fun _ => False) :=
  (binPacking_loads_right_partial (R := (· = .overflow)) (root := root) (items := items) (loads := loads) (sizes := sizes) rfl (by decide +kernel) (by decide +kernel) (by decide +kernel) (by decide)).1
example (mode : Mode) : (Posted.mk (installCapacities (μ := Unit) mode items sizes [7, 7, 7]) (fun a => BinsFit (items.map (·.eval a)) sizes [7, 7, 7]) items).Serves 5 0 (· = .overflow) root ([] : List Unit) (fun _ => False) :=
  (binPacking_capacities_right_partial (R := (· = .overflow)) (root := root) (items := items) (sizes := sizes) rfl (by decide +kernel) (by decide +kernel) (by decide +kernel) (by decide)).1

/-- The solutions, the same in all modes. -/
example (mode : Mode) : Run.run root [installLoads mode items sizes loads] = some ([[[(2, 2)], [(0, 0)], [(4, 4)], [(3, 3)], [(2, 2)]], [[(0, 0)], [(1, 1)], [(3, 3)], [(4, 4)], [(2, 2)]]], true) := by cases mode <;> decide +kernel
example (mode : Mode) : Run.run [[(0, 2)], [(0, 1)]] [installCapacities mode items sizes [5, 5, 5]] = some ([[[(2, 2)], [(0, 0)]], [[(0, 0)], [(1, 1)]]], true) := by cases mode <;> decide +kernel

/-- Negative sizes, items that may be elsewhere, and no bins at all are refused. -/
example (mode : Mode) : (installCapacities (σ := Unit) (μ := Unit) mode [.simple 0] [-1] [1, 1, 1] root).map List.length = .error .invalidProblem := by cases mode <;> decide +kernel
example (mode : Mode) : (installCapacities (σ := Unit) (μ := Unit) mode [.simple 0] [1] [1, 1] root).map List.length = .error .invalidProblem := by cases mode <;> decide +kernel
example (mode : Mode) : (installCapacities (σ := Unit) (μ := Unit) mode [] [] [] root).map List.length = .error .invalidProblem := by cases mode <;> decide +kernel
example (mode : Mode) : (installLoads (σ := Unit) (μ := Unit) mode [.simple 1] [1] [.simple 2, .view 4 false (-1)] root).map List.length = .error .invalidProblem := by cases mode <;> decide +kernel

/-- A history of calls: deeper, and back again. -/
def before : List Doms := [[[(0, 2)], [(0, 1)]], [[(1, 1)], [(0, 1)]], [[(1, 1)], [(1, 1)]], [[(0, 2)], [(0, 0)]]]
def now : Doms := [[(0, 2)], [(1, 1)]]
def flagsIn (d : Doms) : List (Bool × Bool) := (AllDifferent.mapAll (flags d 1) [.simple 0, .simple 1]).toOption.getD []

example : before.map flagsIn = [[(true, true), (true, true)], [(true, false), (true, true)], [(true, false), (true, false)], [(true, true), (false, true)]] ∧ flagsIn now = [(true, true), (true, false)] ∧
    dag 5 ((flagsIn [[(0, 2)], [(0, 1)]]).zip [2, 3]) [0] = .ok [[0], [0, 2], [0, 2, 3, 5]] := by decide +kernel

example : (sweep [[0], [0, 2], [0, 2, 3, 5]] [2, 3] (flagsIn now) ((before.map flagsIn).foldl (fun sc h => (sweep [[0], [0, 2], [0, 2, 3, 5]] [2, 3] h sc).1) (fresh 2))).2 = [] := by
  have hs : ∀ d, d ∈ now :: before → DomsOK d ∧ d.length = 2 ∧ (∀ a, Within d a → Within [[(0, 2)], [(0, 1)]] a) ∧ AllDifferent.mapAll (flags d 1) [.simple 0, .simple 1] = .ok (flagsIn d) := fun d hd => by
    have e1 : ∀ d ∈ now :: before, DomsOK d ∧ d.length = 2 ∧ AllDifferent.mapAll (flags d 1) [.simple 0, .simple 1] = .ok (flagsIn d) ∧ ∀ p ∈ d.zip [(0, 2), (0, 1)], ∀ r ∈ p.1, p.2.1 ≤ r.1 ∧ r.2 ≤ p.2.2 := by decide +kernel
    obtain ⟨k1, k2, k3, k4⟩ := e1 d hd
    refine ⟨k1, k2, fun a ha i s hs => ?_, k3⟩
    have hi : i < 2 := (List.getElem?_eq_some_iff.1 hs).1
    obtain ⟨r, hr, h1, h2⟩ := ha i d[i] (List.getElem?_eq_getElem (k2 ▸ hi))
    have := k4 (d[i], [(0, 2), (0, 1)][i]) (List.mem_of_getElem? (i := i) (List.getElem?_zip_eq_some.2 ⟨List.getElem?_eq_getElem (k2 ▸ hi), List.getElem?_eq_getElem hi⟩)) r hr
    rcases i with _ | _ | i
    · cases hs; exact ⟨(0, 2), List.mem_cons_self, Int.le_trans this.1 h1, Int.le_trans h2 this.2⟩
    · cases hs; exact ⟨(0, 1), List.mem_cons_self, Int.le_trans this.1 h1, Int.le_trans h2 this.2⟩
    · omega
  have := binPacking_sweep_idle (root := [[(0, 2)], [(0, 1)]]) (items := [.simple 0, .simple 1]) (sizes := [2, 3]) (b := 1) (cap := 5) (gs := flagsIn [[(0, 2)], [(0, 1)]]) (layers := [[0], [0, 2], [0, 2, 3, 5]]) (fs := flagsIn now) (history := before.map flagsIn) (by decide +kernel) (by decide) (by decide) rfl (by decide)
    (by decide +kernel) (by decide +kernel) (by decide +kernel) fun h hm => by
      rcases List.mem_cons.1 hm with rfl | hm
      · exact ⟨now, (hs now List.mem_cons_self)⟩
      · obtain ⟨d, hd, rfl⟩ := List.mem_map.1 hm
        exact ⟨d, hs d (List.mem_cons_of_mem _ hd)⟩
  have h2 := this.1
  rw [show (2 : Nat) = ([.simple 0, .simple 1] : List VarId).length from rfl, h2]
  exact this.2

end BinPacking.Demo
end Gcs
