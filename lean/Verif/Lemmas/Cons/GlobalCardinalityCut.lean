import Verif.Lemmas.Cons.GlobalCardinalityNet

/-!
# Why there is no feasible flow, and which values have no support
-/

namespace Gcs.GlobalCardinality.Gac
open IntervalSet Flow
open Gcs.Gac (put Scc Reach)
open Classical

/-! ## The flow on an edge -/

section
variable {d : Doms} {vars : List VarId} {cover : List (Int × VarId)} {closed : Bool}

theorem zipIdx_pairwise {α : Type} (xs : List α) : xs.zipIdx.Pairwise fun p q => p.2 ≠ q.2 := by
  have : (xs.zipIdx.map (·.2)).Nodup := by rw [List.zipIdx_map_snd]; exact List.nodup_range'
  exact List.pairwise_map.1 this

def Apart (e e' : Orig) : Prop := ¬ (e.src = e'.src ∧ e.dst = e'.dst)

theorem netw_unique : (netw d vars cover closed).Pairwise Apart := by
  have hX : ∀ e ∈ cover.zipIdx.flatMap (vEdges d vars cover.length), (∃ j < cover.length, (e.src = 0 ∧ e.dst = valueNode j) ∨ (e.src = valueNode j ∧ ∃ i, e.dst = varNode cover.length i)) := by
    intro e he
    obtain ⟨p, hp, he⟩ := List.mem_flatMap.1 he
    refine ⟨p.2, (snd_zipIdx hp).1, ?_⟩
    rcases List.mem_cons.1 he with rfl | he
    · exact .inl ⟨rfl, rfl⟩
    · obtain ⟨q, _, rfl⟩ := List.mem_map.1 he
      exact .inr ⟨rfl, q.2, rfl⟩
  have hY : ∀ e ∈ (if closed then [] else oEdges d vars (cover.map (·.1))), (e.src = 0 ∧ e.dst = dummyNode cover.length) ∨ e.src = dummyNode cover.length ∧ ∃ i, e.dst = varNode cover.length i := by
    intro e he
    cases closed with
    | true => exact nomatch he
    | false =>
      rcases List.mem_cons.1 he with rfl | he
      · exact .inl ⟨rfl, by rw [List.length_map]⟩
      · obtain ⟨q, _, rfl⟩ := List.mem_map.1 he
        exact .inr ⟨by rw [List.length_map], q.2, by rw [List.length_map]⟩
  have hZ : ∀ e ∈ sEdges cover.length vars.length, ∃ i, e.src = varNode cover.length i ∧ e.dst = 1 := by
    intro e he
    obtain ⟨i, _, rfl⟩ := List.mem_map.1 he
    exact ⟨i, rfl, rfl⟩
  have hstar : ∀ {u : Nat} {qs : List (VarId × Nat)}, qs.Pairwise (fun p q => p.2 ≠ q.2) → (qs.map fun q => (⟨u, varNode cover.length q.2, 0, 1⟩ : Orig)).Pairwise Apart := fun h =>
    List.pairwise_map.2 (h.imp fun hne h' => hne (by have := h'.2; simp only [varNode] at this; omega))
  rw [netw]
  refine List.pairwise_append.2 ⟨List.pairwise_append.2 ⟨List.pairwise_append.2 ⟨?_, ?_, fun e he e' he' h => ?_⟩, ?_, fun e he e' he' h => ?_⟩, by simp, fun e he e' he' h => ?_⟩
  · refine List.pairwise_flatMap.2 ⟨fun p hp => List.pairwise_cons.2 ⟨fun e he h => ?_, hstar ((zipIdx_pairwise vars).filter _)⟩, (zipIdx_pairwise cover).imp fun hne e he e' he' h => ?_⟩
    · obtain ⟨q, _, rfl⟩ := List.mem_map.1 he
      have := h.1
      simp only [valueNode] at this; omega
    · have k : ∀ {p : (Int × VarId) × Nat} {e}, e ∈ vEdges d vars cover.length p → (e.src = 0 ∧ e.dst = valueNode p.2) ∨ e.src = valueNode p.2 := fun he => by
        rcases List.mem_cons.1 he with rfl | he
        · exact .inl ⟨rfl, rfl⟩
        · obtain ⟨q, _, rfl⟩ := List.mem_map.1 he
          exact .inr rfl
      have h1 := k he; have h2 := k he'; have h3 := h.1; have h4 := h.2
      simp only [valueNode] at h1 h2
      omega
  · cases closed with
    | true => exact .nil
    | false =>
      refine List.pairwise_cons.2 ⟨fun e he h => ?_, ?_⟩
      · obtain ⟨q, _, rfl⟩ := List.mem_map.1 he
        have := h.1
        simp only [dummyNode] at this; omega
      · rw [List.length_map]
        exact hstar ((zipIdx_pairwise vars).filter _)
  · obtain ⟨j, hj, h1 | ⟨h1, _⟩⟩ := hX e he <;> rcases hY e' he' with h2 | ⟨h2, _⟩ <;> have h3 := h.1 <;> have h4 := h.2 <;> simp only [valueNode, dummyNode] at h1 h2 <;> omega
  · exact List.pairwise_map.2 ((List.nodup_range (n := vars.length)).imp fun hne h => hne (by have := h.1; simp only [varNode] at this; omega))
  · obtain ⟨i, h1, h2⟩ := hZ e' he'
    have h3 := h.1; have h4 := h.2
    simp only [varNode] at h1
    rcases List.mem_append.1 he with he | he
    · obtain ⟨j, hj, h5 | ⟨h5, _⟩⟩ := hX e he <;> simp only [valueNode] at h5 <;> omega
    · rcases hY e he with h5 | ⟨h5, _⟩ <;> simp only [dummyNode] at h5 <;> omega
  · rw [List.mem_singleton.1 he'] at h
    have h3 := h.1; have h4 := h.2
    dsimp only at h3 h4
    rcases List.mem_append.1 he with he | he
    · rcases List.mem_append.1 he with he | he
      · obtain ⟨j, hj, h5 | ⟨h5, _⟩⟩ := hX e he <;> simp only [valueNode] at h5 <;> omega
      · rcases hY e he with h5 | ⟨h5, _⟩ <;> simp only [dummyNode] at h5 <;> omega
    · obtain ⟨i, h1, h2⟩ := hZ e he
      simp only [varNode] at h1; omega

theorem flowOn_mem {es : List Orig} {fl : List Int} {u v : Nat} {f : Int} (h : flowOn es fl u v = some f) : ∃ e, (e, f) ∈ es.zip fl ∧ e.src = u ∧ e.dst = v := by
  obtain ⟨p, hp, rfl⟩ := Option.map_eq_some_iff.1 h
  have := List.find?_some hp
  simp only [decide_eq_true_eq] at this
  exact ⟨p.1, List.mem_of_find?_eq_some hp, this⟩

theorem flowOn_eq : ∀ {es : List Orig} {fl : List Int}, es.Pairwise Apart → ∀ {e : Orig} {f : Int}, (e, f) ∈ es.zip fl → flowOn es fl e.src e.dst = some f
  | [], _, _, e, f, h => by simp at h
  | _ :: _, [], _, e, f, h => by simp at h
  | x :: es, y :: fl, hp, e, f, h => by
    have hp' := List.pairwise_cons.1 hp
    rw [List.zip_cons_cons] at h
    rw [flowOn, List.zip_cons_cons, List.find?_cons]
    rcases List.mem_cons.1 h with h | h
    · cases h; simp
    · have : ¬ (x.src = e.src ∧ x.dst = e.dst) := hp'.1 e (List.of_mem_zip h).1
      rw [decide_eq_false this]
      exact flowOn_eq hp'.2 h

theorem flowOn_none {es : List Orig} {fl : List Int} {u v : Nat} (hl : fl.length = es.length) (h : flowOn es fl u v = none) : ∀ e ∈ es, ¬ (e.src = u ∧ e.dst = v) := by
  intro e he
  obtain ⟨k, hk, rfl⟩ := List.mem_iff_getElem.1 he
  have := List.find?_eq_none.1 (Option.map_eq_none_iff.1 h) (es[k], fl[k]'(by omega)) (by
    rw [List.mem_iff_getElem]
    exact ⟨k, by rw [List.length_zip]; omega, by rw [List.getElem_zip]⟩)
  simpa using this

/-- `flow` -/
def fv (es : List Orig) (fl : List Int) (u v : Nat) : Int := (flowOn es fl u v).getD 0

theorem fv_mem {es : List Orig} {fl : List Int} (hp : es.Pairwise Apart) {p : Orig × Int} (h : p ∈ es.zip fl) : fv es fl p.1.src p.1.dst = p.2 := by
  rw [fv, flowOn_eq hp h]; rfl

theorem fv_edge {es : List Orig} {fl : List Int} (hl : fl.length = es.length) {e : Orig} (he : e ∈ es) (hp : es.Pairwise Apart) : (e, fv es fl e.src e.dst) ∈ es.zip fl := by
  obtain ⟨k, hk, rfl⟩ := List.mem_iff_getElem.1 he
  have hm : (es[k], fl[k]'(by omega)) ∈ es.zip fl := by
    rw [List.mem_iff_getElem]
    exact ⟨k, by rw [List.length_zip]; omega, by rw [List.getElem_zip]⟩
  rw [fv_mem hp hm]; exact hm

theorem fv_zero {es : List Orig} {fl : List Int} {u v : Nat} (h : ∀ e ∈ es, ¬ (e.src = u ∧ e.dst = v)) : fv es fl u v = 0 := by
  rw [fv]
  cases hf : flowOn es fl u v with
  | none => rfl
  | some f =>
    obtain ⟨e, he, hs, hd⟩ := flowOn_mem hf
    exact absurd ⟨hs, hd⟩ (h e (List.of_mem_zip he).1)

theorem sum_fv {es : List Orig} {fl : List Int} (hl : fl.length = es.length) (hp : es.Pairwise Apart) (w : Nat → Int) :
    ((es.zip fl).map fun p => p.2 * (w p.1.dst - w p.1.src)).sum = (es.map fun e => fv es fl e.src e.dst * (w e.dst - w e.src)).sum := by
  have hfst : (es.zip fl).map (·.1) = es := List.map_fst_zip (by omega)
  have : es.map (fun e => fv es fl e.src e.dst * (w e.dst - w e.src)) = ((es.zip fl).map (·.1)).map fun e => fv es fl e.src e.dst * (w e.dst - w e.src) := by rw [hfst]
  rw [this, List.map_map]
  refine sum_congr fun p hp' => ?_
  simp only [Function.comp, fv_mem hp hp']

/-! ## Sums over the network -/

theorem edge_assign {e : Orig} (he : e ∈ netw d vars cover closed) {j i : Nat} (hj : j < cover.length) (hs : e.src = valueNode j) (hd : e.dst = varNode cover.length i) :
    ∃ p x, cover[j]? = some p ∧ vars[i]? = some x ∧ Poss d x p.1 ∧ e.lo = 0 ∧ e.hi = 1 := by
  simp only [valueNode, varNode] at hs hd
  rcases mem_netw.1 he with ⟨p, j', hj', rfl⟩ | ⟨p, j', x, i', hj', hx, hp, rfl⟩ | ⟨_, rfl⟩ | ⟨_, x, i', hx, hp, rfl⟩ | ⟨i', hi, rfl⟩ | rfl
  all_goals simp only [valueNode, varNode, dummyNode] at hs hd
  · omega
  · obtain rfl : j' = j := by omega
    obtain rfl : i' = i := by omega
    exact ⟨p, x, hj', hx, hp, rfl, rfl⟩
  · omega
  · omega
  · omega
  · omega

theorem edge_dummy {e : Orig} (he : e ∈ netw d vars cover closed) {i : Nat} (hs : e.src = dummyNode cover.length) (hd : e.dst = varNode cover.length i) :
    closed = false ∧ ∃ x, vars[i]? = some x ∧ ¬ Confined d (cover.map (·.1)) x ∧ e.lo = 0 ∧ e.hi = 1 := by
  simp only [dummyNode, varNode] at hs hd
  rcases mem_netw.1 he with ⟨p, j', hj', rfl⟩ | ⟨p, j', x, i', hj', hx, hp, rfl⟩ | ⟨_, rfl⟩ | ⟨h, x, i', hx, hp, rfl⟩ | ⟨i', hi, rfl⟩ | rfl
  all_goals simp only [valueNode, varNode, dummyNode] at hs hd
  · omega
  · have := lt_of_get hj'; omega
  · omega
  · obtain rfl : i' = i := by omega
    exact ⟨h, x, hx, hp, rfl, rfl⟩
  · omega
  · omega

theorem edge_other {e : Orig} (he : e ∈ netw d vars cover closed) (hs : e.src = 0) (hd : e.dst = dummyNode cover.length) : closed = false ∧ e.lo = 0 ∧ e.hi = (vars.length : Int) + 1 := by
  simp only [dummyNode] at hd
  rcases mem_netw.1 he with ⟨p, j', hj', rfl⟩ | ⟨p, j', x, i', hj', hx, hp, rfl⟩ | ⟨h, rfl⟩ | ⟨_, x, i', hx, hp, rfl⟩ | ⟨i', hi, rfl⟩ | rfl
  all_goals simp only [valueNode, varNode, dummyNode] at hs hd
  · have := lt_of_get hj'; omega
  · omega
  · exact ⟨h, rfl, rfl⟩
  · omega
  · omega
  · omega

theorem netw_sum (G : Nat → Nat → Int) (hG : ∀ u v, (∀ e ∈ netw d vars cover closed, ¬ (e.src = u ∧ e.dst = v)) → G u v = 0) (w : Nat → Int) :
    ((netw d vars cover closed).map fun e => G e.src e.dst * (w e.dst - w e.src)).sum =
      (cover.zipIdx.map fun p => G 0 (valueNode p.2) * (w (valueNode p.2) - w 0) + (vars.zipIdx.map fun q => G (valueNode p.2) (varNode cover.length q.2) * (w (varNode cover.length q.2) - w (valueNode p.2))).sum).sum +
      (G 0 (dummyNode cover.length) * (w (dummyNode cover.length) - w 0) + (vars.zipIdx.map fun q => G (dummyNode cover.length) (varNode cover.length q.2) * (w (varNode cover.length q.2) - w (dummyNode cover.length))).sum) +
      (vars.zipIdx.map fun q => G (varNode cover.length q.2) 1 * (w 1 - w (varNode cover.length q.2))).sum + G 1 0 * (w 0 - w 1) := by
  have h1 : ∀ p ∈ cover.zipIdx, ((vEdges d vars cover.length p).map fun e => G e.src e.dst * (w e.dst - w e.src)).sum =
      G 0 (valueNode p.2) * (w (valueNode p.2) - w 0) + (vars.zipIdx.map fun q => G (valueNode p.2) (varNode cover.length q.2) * (w (varNode cover.length q.2) - w (valueNode p.2))).sum := by
    intro p hp
    obtain ⟨hj, hj', _⟩ := snd_zipIdx hp
    rw [vEdges, List.map_cons, List.sum_cons, List.map_map, sum_filter]
    congr 1
    refine sum_congr fun q hq => ?_
    simp only [decide_eq_true_eq, Function.comp]
    split
    · rfl
    · rename_i hn
      rw [hG _ _ fun e he h => by
        obtain ⟨p', x', e1, e2, e3, _⟩ := edge_assign he hj h.1 h.2
        rw [hj'] at e1; cases e1
        rw [(snd_zipIdx hq).2.1] at e2; cases e2
        exact hn e3, Int.zero_mul]
  have h2 : ((if closed then [] else oEdges d vars (cover.map (·.1))).map fun e => G e.src e.dst * (w e.dst - w e.src)).sum =
      G 0 (dummyNode cover.length) * (w (dummyNode cover.length) - w 0) + (vars.zipIdx.map fun q => G (dummyNode cover.length) (varNode cover.length q.2) * (w (varNode cover.length q.2) - w (dummyNode cover.length))).sum := by
    cases closed with
    | true =>
      rw [hG 0 (dummyNode cover.length) fun e he h => Bool.false_ne_true (edge_other he h.1 h.2).1.symm, sum_zero (l := vars.zipIdx) fun q _ => by
        rw [hG (dummyNode cover.length) _ fun e he h => Bool.false_ne_true (edge_dummy he h.1 h.2).1.symm, Int.zero_mul]]
      simp
    | false =>
      rw [if_neg (by simp), oEdges, List.length_map, List.map_cons, List.sum_cons, List.map_map, sum_filter]
      congr 1
      refine sum_congr fun q hq => ?_
      simp only [decide_eq_true_eq, Function.comp]
      split
      · rfl
      · rename_i hn
        rw [hG _ _ fun e he h => by
          obtain ⟨_, x', e2, e3, _⟩ := edge_dummy he h.1 h.2
          rw [(snd_zipIdx hq).2.1] at e2; cases e2
          exact hn e3, Int.zero_mul]
  have h3 : ((sEdges cover.length vars.length).map fun e => G e.src e.dst * (w e.dst - w e.src)).sum = (vars.zipIdx.map fun q => G (varNode cover.length q.2) 1 * (w 1 - w (varNode cover.length q.2))).sum := by
    rw [sum_index fun i => G (varNode cover.length i) 1 * (w 1 - w (varNode cover.length i)), sEdges, List.map_map]
    rfl
  rw [netw, List.map_append, List.map_append, List.map_append, List.sum_append, List.sum_append, List.sum_append, sum_flatMap, sum_congr h1, h2, h3]
  simp only [List.map_cons, List.map_nil, List.sum_cons, List.sum_nil, Int.add_zero]

/-! ## The excess of a node -/

theorem excess_nonneg {es : List Orig} {v : Nat} (h0 : ∀ e ∈ es, 0 ≤ e.lo) (h : ∀ e ∈ es, e.src = v → e.lo = 0) : 0 ≤ excess es v :=
  sum_nonneg fun e he => by have := h0 e he; have := h e he; split <;> split <;> omega

theorem excess_nonpos {es : List Orig} {v : Nat} (h0 : ∀ e ∈ es, 0 ≤ e.lo) (h : ∀ e ∈ es, e.dst = v → e.lo = 0) : excess es v ≤ 0 := by
  have := sum_nonneg (l := es) (f := fun e => (if e.src = v then e.lo else 0) - (if e.dst = v then e.lo else 0)) fun e he => by have := h0 e he; have := h e he; split <;> split <;> omega
  rw [sum_sub] at this
  rw [excess, sum_sub]; omega

theorem netw_lo {e : Orig} (he : e ∈ netw d vars cover closed) : 0 ≤ e.lo := by
  rcases mem_netw.1 he with ⟨p, j', hj', rfl⟩ | ⟨p, j', x, i', hj', hx, hp, rfl⟩ | ⟨h, rfl⟩ | ⟨_, x, i', hx, hp, rfl⟩ | ⟨i', hi, rfl⟩ | rfl
  · dsimp only; split <;> omega
  all_goals dsimp only; omega

theorem excess_sign : excess (netw d vars cover closed) 0 ≤ 0 ∧ 0 ≤ excess (netw d vars cover closed) 1 ∧ (∀ j < cover.length, 0 ≤ excess (netw d vars cover closed) (valueNode j)) ∧
    excess (netw d vars cover closed) (dummyNode cover.length) ≤ 0 ∧ 0 ≤ excess (netw d vars cover closed) (dummyNode cover.length) ∧ ∀ i, excess (netw d vars cover closed) (varNode cover.length i) ≤ 0 := by
  refine ⟨excess_nonpos (fun e => netw_lo) fun e he h => ?_, excess_nonneg (fun e => netw_lo) fun e he h => ?_, fun j hj => excess_nonneg (fun e => netw_lo) fun e he h => ?_,
    excess_nonpos (fun e => netw_lo) fun e he h => ?_, excess_nonneg (fun e => netw_lo) fun e he h => ?_, fun i => excess_nonpos (fun e => netw_lo) fun e he h => ?_⟩
  all_goals
    rcases mem_netw.1 he with ⟨p, j', hj', rfl⟩ | ⟨p, j', x, i', hj', hx, hp, rfl⟩ | ⟨_, rfl⟩ | ⟨_, x, i', hx, hp, rfl⟩ | ⟨i', hi, rfl⟩ | rfl
    · have := lt_of_get hj'; simp only [valueNode, dummyNode, varNode] at h; omega
    · rfl
    · rfl
    · rfl
    · simp only [valueNode, dummyNode, varNode] at h; omega
    · rfl

end
/-! ## What is known of the flow when there is no feasible one -/

section
variable {d : Doms} {vars : List VarId} {cover : List (Int × VarId)} {closed : Bool} {fl : List Int} {miss : Nat → Int} {Q : Nat → Prop}

theorem range_ge_one {n : Nat} {f : Nat → Int} (h0 : ∀ k < n, 0 ≤ f k) {j : Nat} (hj : j < n) : f j ≤ ((List.range n).map f).sum := by
  have := sum_nonneg (l := List.range n) (f := fun k => f k - (if j = k then f j else 0)) fun k hk => by
    have := h0 k (List.mem_range.1 hk)
    split
    · rename_i h; subst h; omega
    · omega
  rw [sum_sub, sum_single, if_pos hj] at this; omega

theorem range_ge_two {n : Nat} {f : Nat → Int} (h0 : ∀ k < n, 0 ≤ f k) {j j' : Nat} (hj : j < n) (hj' : j' < n) (hne : j ≠ j') : f j + f j' ≤ ((List.range n).map f).sum := by
  have := sum_nonneg (l := List.range n) (f := fun k => f k - (if j = k then f j else 0) - (if j' = k then f j' else 0)) fun k hk => by
    have := h0 k (List.mem_range.1 hk)
    by_cases h : j = k
    · subst h; rw [if_pos rfl, if_neg (by omega)]; omega
    · rw [if_neg h]
      split
      · rename_i h; subst h; omega
      · omega
  rw [sum_sub, sum_sub, sum_single, sum_single, if_pos hj, if_pos hj'] at this; omega

theorem range_zero {n : Nat} {f : Nat → Int} (h0 : ∀ k < n, f k = 0) : ((List.range n).map f).sum = 0 := sum_zero fun k hk => h0 k (List.mem_range.1 hk)

abbrev nodes (vars : List VarId) (cover : List (Int × VarId)) : Nat := 2 + cover.length + 1 + vars.length

variable (hP : Partial (netw d vars cover closed) fl (nodes vars cover) miss Q)
include hP

local notation "F" => fv (netw d vars cover closed) fl

theorem flow_eq (w : Nat → Int) :
    (cover.zipIdx.map fun p => F 0 (valueNode p.2) * (w (valueNode p.2) - w 0) + (vars.zipIdx.map fun q => F (valueNode p.2) (varNode cover.length q.2) * (w (varNode cover.length q.2) - w (valueNode p.2))).sum).sum +
      (F 0 (dummyNode cover.length) * (w (dummyNode cover.length) - w 0) + (vars.zipIdx.map fun q => F (dummyNode cover.length) (varNode cover.length q.2) * (w (varNode cover.length q.2) - w (dummyNode cover.length))).sum) +
      (vars.zipIdx.map fun q => w 1 - w (varNode cover.length q.2)).sum + F 1 0 * (w 0 - w 1) = ((List.range (nodes vars cover)).map fun v => w v * miss v).sum := by
  rw [← hP.even w, sum_fv hP.len netw_unique, netw_sum F (fun u v h => fv_zero h) w]
  congr 2
  refine sum_congr fun q hq => ?_
  have hm := fv_edge hP.len (mem_netw.2 (.inr (.inr (.inr (.inr (.inl ⟨q.2, (snd_zipIdx hq).1, rfl⟩)))))) netw_unique
  have := hP.between _ hm
  dsimp only at this
  rw [show F (varNode cover.length q.2) 1 = 1 by omega, Int.one_mul]

theorem weigh {v : Nat} (hv : v < nodes vars cover) : ((List.range (nodes vars cover)).map fun u => (if u = v then 1 else 0) * miss u).sum = miss v := by
  rw [sum_congr (g := fun u => if v = u then miss v else 0) fun u _ => ?_, sum_single, if_pos hv]
  by_cases h : u = v
  · subst h; simp
  · rw [if_neg h, if_neg (Ne.symm h), Int.zero_mul]

theorem eq_sink : miss 1 = vars.length - F 1 0 := by
  have h := flow_eq hP fun u => if u = 1 then 1 else 0
  rw [weigh hP (by simp only [nodes]; omega)] at h
  have e1 : ∀ j, (valueNode j = 1) = False := fun j => by simp only [valueNode, eq_iff_iff, iff_false]; omega
  have e2 : ∀ j, (dummyNode j = 1) = False := fun j => by simp only [dummyNode, eq_iff_iff, iff_false]; omega
  have e3 : ∀ j i, (varNode j i = 1) = False := fun j i => by simp only [varNode, eq_iff_iff, iff_false]; omega
  simp only [e1, e2, e3, ↓reduceIte, Nat.zero_ne_one, Int.sub_self, Int.mul_zero] at h
  rw [sum_zero (l := vars.zipIdx) (f := fun _ => 0) fun _ _ => rfl, sum_zero (l := cover.zipIdx) (f := fun _ => 0 + 0) fun _ _ => rfl, sum_congr (l := vars.zipIdx) (f := fun _ => 1 - 0) (g := fun _ => (1 : Int)) fun _ _ => rfl, sum_zipIdx (fun _ => 1) vars 0, ← len_sum] at h
  omega

theorem eq_value {j : Nat} (hj : j < cover.length) : miss (valueNode j) = F 0 (valueNode j) - (vars.zipIdx.map fun q => F (valueNode j) (varNode cover.length q.2)).sum := by
  have h := flow_eq hP fun u => if u = valueNode j then 1 else 0
  rw [weigh hP (by simp only [nodes, valueNode]; omega)] at h
  have e0 : (0 = valueNode j) = False := by simp only [valueNode, eq_iff_iff, iff_false]; omega
  have e1 : (1 = valueNode j) = False := by simp only [valueNode, eq_iff_iff, iff_false]; omega
  have e2 : (dummyNode cover.length = valueNode j) = False := by simp only [valueNode, dummyNode, eq_iff_iff, iff_false]; omega
  have e3 : ∀ i, (varNode cover.length i = valueNode j) = False := fun i => by simp only [valueNode, varNode, eq_iff_iff, iff_false]; omega
  have e4 : ∀ k, (valueNode k = valueNode j) = (j = k) := fun k => by simp only [valueNode, eq_iff_iff]; omega
  simp only [e0, e1, e2, e3, e4, ↓reduceIte, Int.sub_self, Int.mul_zero] at h
  rw [sum_zero (l := vars.zipIdx) (f := fun _ => 0) fun _ _ => rfl] at h
  rw [← h, sum_index fun k => F 0 (valueNode k) * ((if j = k then 1 else 0) - 0) + (vars.zipIdx.map fun q => F (valueNode k) (varNode cover.length q.2) * (0 - if j = k then 1 else 0)).sum,
    sum_congr (g := fun k => if j = k then F 0 (valueNode j) - (vars.zipIdx.map fun q => F (valueNode j) (varNode cover.length q.2)).sum else 0) fun k _ => ?_, sum_single, if_pos hj]
  · omega
  · by_cases hk : j = k
    · subst hk
      simp only [↓reduceIte]
      rw [sum_mul]; omega
    · simp only [hk, ↓reduceIte, Int.sub_self, Int.mul_zero]
      rw [sum_zero fun _ _ => rfl]; rfl

theorem eq_dummy : miss (dummyNode cover.length) = F 0 (dummyNode cover.length) - (vars.zipIdx.map fun q => F (dummyNode cover.length) (varNode cover.length q.2)).sum := by
  have h := flow_eq hP fun u => if u = dummyNode cover.length then 1 else 0
  rw [weigh hP (by simp only [nodes, dummyNode]; omega)] at h
  have e0 : (0 = dummyNode cover.length) = False := by simp only [dummyNode, eq_iff_iff, iff_false]; omega
  have e1 : (1 = dummyNode cover.length) = False := by simp only [dummyNode, eq_iff_iff, iff_false]; omega
  have e3 : ∀ i, (varNode cover.length i = dummyNode cover.length) = False := fun i => by simp only [dummyNode, varNode, eq_iff_iff, iff_false]; omega
  have e4 : ∀ p ∈ cover.zipIdx, F 0 (valueNode p.2) * ((if valueNode p.2 = dummyNode cover.length then 1 else 0) - (if 0 = dummyNode cover.length then 1 else 0)) +
      (vars.zipIdx.map fun q => F (valueNode p.2) (varNode cover.length q.2) * ((if varNode cover.length q.2 = dummyNode cover.length then 1 else 0) - (if valueNode p.2 = dummyNode cover.length then 1 else 0))).sum = 0 := fun p hp => by
    have := (snd_zipIdx hp).1
    have e5 : (valueNode p.2 = dummyNode cover.length) = False := by simp only [valueNode, dummyNode, eq_iff_iff, iff_false]; omega
    simp only [e0, e3, e5, ↓reduceIte, Int.sub_self, Int.mul_zero]
    rw [sum_zero fun _ _ => rfl]; rfl
  rw [sum_zero e4] at h
  simp only [e0, e1, e3, ↓reduceIte, Int.sub_self, Int.mul_zero] at h
  rw [sum_mul, sum_zero (l := vars.zipIdx) (f := fun _ => 0) fun _ _ => rfl] at h
  omega

theorem eq_var {i : Nat} (hi : i < vars.length) :
    miss (varNode cover.length i) = (cover.zipIdx.map fun p => F (valueNode p.2) (varNode cover.length i)).sum + F (dummyNode cover.length) (varNode cover.length i) - 1 := by
  have h := flow_eq hP fun u => if u = varNode cover.length i then 1 else 0
  rw [weigh hP (by simp only [nodes, varNode]; omega)] at h
  have e0 : (0 = varNode cover.length i) = False := by simp only [varNode, eq_iff_iff, iff_false]; omega
  have e1 : (1 = varNode cover.length i) = False := by simp only [varNode, eq_iff_iff, iff_false]; omega
  have e2 : (dummyNode cover.length = varNode cover.length i) = False := by simp only [varNode, dummyNode, eq_iff_iff, iff_false]; omega
  have e3 : ∀ k, (varNode cover.length k = varNode cover.length i) = (i = k) := fun k => by simp only [varNode, eq_iff_iff]; omega
  have pick : ∀ (G : Nat → Int), (vars.zipIdx.map fun q => G q.2 * ((if i = q.2 then 1 else 0) - 0)).sum = G i := fun G => by
    rw [sum_index fun k => G k * ((if i = k then 1 else 0) - 0), sum_congr (g := fun k => if i = k then G i else 0) fun k _ => ?_, sum_single, if_pos hi]
    by_cases hk : i = k
    · subst hk; simp
    · simp [hk]
  have e4 : ∀ p ∈ cover.zipIdx, F 0 (valueNode p.2) * ((if valueNode p.2 = varNode cover.length i then 1 else 0) - (if 0 = varNode cover.length i then 1 else 0)) +
      (vars.zipIdx.map fun q => F (valueNode p.2) (varNode cover.length q.2) * ((if varNode cover.length q.2 = varNode cover.length i then 1 else 0) - (if valueNode p.2 = varNode cover.length i then 1 else 0))).sum =
      F (valueNode p.2) (varNode cover.length i) := fun p hp => by
    have := (snd_zipIdx hp).1
    have e5 : (valueNode p.2 = varNode cover.length i) = False := by simp only [valueNode, varNode, eq_iff_iff, iff_false]; omega
    simp only [e0, e3, e5, ↓reduceIte, Int.sub_self, Int.mul_zero]
    rw [pick fun k => F (valueNode p.2) (varNode cover.length k)]; omega
  have e6 : (vars.zipIdx.map fun q => (0 : Int) - if i = q.2 then 1 else 0).sum = -1 := by
    rw [sum_index fun k => (0 : Int) - if i = k then 1 else 0, sum_sub, sum_single, if_pos hi, sum_zero fun _ _ => rfl]; rfl
  rw [sum_congr e4] at h
  simp only [e0, e1, e2, e3, ↓reduceIte, Int.sub_self, Int.mul_zero] at h
  rw [e6, pick fun k => F (dummyNode cover.length) (varNode cover.length k)] at h
  omega

theorem fv_nonneg (u v : Nat) : 0 ≤ F u v := by
  rw [fv]
  cases h : flowOn (netw d vars cover closed) fl u v with
  | none => exact Int.le_refl _
  | some f =>
    obtain ⟨e, he, _⟩ := flowOn_mem h
    have h1 := hP.between _ he
    have h2 := netw_lo (List.of_mem_zip he).1
    dsimp only [Option.getD] at *; omega

theorem fv_le_one {j i : Nat} (hj : j < cover.length) : F (valueNode j) (varNode cover.length i) ≤ 1 := by
  rw [fv]
  cases h : flowOn (netw d vars cover closed) fl (valueNode j) (varNode cover.length i) with
  | none => exact Int.le_of_lt Int.zero_lt_one
  | some f =>
    obtain ⟨e, he, hs, hd⟩ := flowOn_mem h
    obtain ⟨_, _, _, _, _, _, hhi⟩ := edge_assign (List.of_mem_zip he).1 hj hs hd
    have h1 := hP.between _ he
    dsimp only [Option.getD] at *; omega

theorem fv_dummy_le {i : Nat} : F (dummyNode cover.length) (varNode cover.length i) ≤ 1 := by
  rw [fv]
  cases h : flowOn (netw d vars cover closed) fl (dummyNode cover.length) (varNode cover.length i) with
  | none => exact Int.le_of_lt Int.zero_lt_one
  | some f =>
    obtain ⟨e, he, hs, hd⟩ := flowOn_mem h
    obtain ⟨_, _, _, _, _, hhi⟩ := edge_dummy (List.of_mem_zip he).1 hs hd
    have h1 := hP.between _ he
    dsimp only [Option.getD] at *; omega

omit hP in
theorem flowOn_one {u v : Nat} : flowOn (netw d vars cover closed) fl u v = some 1 ↔ F u v = 1 := by
  rw [fv]
  cases flowOn (netw d vars cover closed) fl u v with
  | none => simp
  | some f => simp

theorem var_nonpos {i : Nat} (hi : i < vars.length) : miss (varNode cover.length i) ≤ 0 := hP.neg _ (by simp only [nodes, varNode]; omega) (excess_sign.2.2.2.2.2 i)

theorem value_nonneg {j : Nat} (hj : j < cover.length) : 0 ≤ miss (valueNode j) := hP.pos _ (by simp only [nodes, valueNode]; omega) (excess_sign.2.2.1 j hj)

theorem dummy_zero : miss (dummyNode cover.length) = 0 := by
  have h1 := hP.pos (dummyNode cover.length) (by simp only [nodes, dummyNode]; omega) excess_sign.2.2.2.2.1
  have h2 := hP.neg (dummyNode cover.length) (by simp only [nodes, dummyNode]; omega) excess_sign.2.2.2.1
  omega

/-- A variable has at most one value. -/
theorem one_value {i j : Nat} (hi : i < vars.length) (hj : j < cover.length) (h : F (valueNode j) (varNode cover.length i) = 1) :
    (∀ j' < cover.length, F (valueNode j') (varNode cover.length i) = 1 → j' = j) ∧ F (dummyNode cover.length) (varNode cover.length i) = 0 ∧ miss (varNode cover.length i) = 0 := by
  have e := eq_var hP hi
  have hn := var_nonpos hP hi
  rw [sum_index fun k => F (valueNode k) (varNode cover.length i)] at e
  have hd := fv_nonneg hP (dummyNode cover.length) (varNode cover.length i)
  have h1 := range_ge_one (f := fun k => F (valueNode k) (varNode cover.length i)) (fun k _ => fv_nonneg hP _ _) hj
  refine ⟨fun j' hj' h' => Classical.byContradiction fun hne => ?_, by omega, by omega⟩
  have := range_ge_two (f := fun k => F (valueNode k) (varNode cover.length i)) (fun k _ => fv_nonneg hP _ _) hj hj' (Ne.symm hne)
  omega

theorem forth_edge {u v : Nat} {lo hi : Int} (he : (⟨u, v, lo, hi⟩ : Orig) ∈ netw d vars cover closed) (hq : Q u) (hf : F u v < hi) : Q v := hP.forth _ (fv_edge hP.len he netw_unique) hq hf
theorem back_edge {u v : Nat} {lo hi : Int} (he : (⟨u, v, lo, hi⟩ : Orig) ∈ netw d vars cover closed) (hq : Q v) (hf : lo < F u v) : Q u := hP.back _ (fv_edge hP.len he netw_unique) hq hf
theorem between_edge {u v : Nat} {lo hi : Int} (he : (⟨u, v, lo, hi⟩ : Orig) ∈ netw d vars cover closed) : lo ≤ F u v ∧ F u v ≤ hi := hP.between _ (fv_edge hP.len he netw_unique)

omit hP in
theorem mem_assign {p : Int × VarId} {j : Nat} {x : VarId} {i : Nat} (hj : cover[j]? = some p) (hx : vars[i]? = some x) (h : Poss d x p.1) : (⟨valueNode j, varNode cover.length i, 0, 1⟩ : Orig) ∈ netw d vars cover closed :=
  mem_netw.2 (.inr (.inl ⟨p, j, x, i, hj, hx, h, rfl⟩))

omit hP in
/-- Something flows only where there is an edge. -/
theorem assign_of_pos {j i : Nat} (hj : j < cover.length) (h : F (valueNode j) (varNode cover.length i) ≠ 0) : ∃ p x, cover[j]? = some p ∧ vars[i]? = some x ∧ Poss d x p.1 := by
  refine Classical.byContradiction fun hn => h (fv_zero fun e he h' => hn ?_)
  obtain ⟨p, x, h1, h2, h3, _⟩ := edge_assign he hj h'.1 h'.2
  exact ⟨p, x, h1, h2, h3⟩

/-! ## Counting -/

omit hP in
/-- The weight of the nodes in two sets. -/
theorem weight_ex (m : Nat) (a b : Nat → Bool) : ∃ w : Nat → Int, w 0 = 0 ∧ w 1 = 0 ∧ (∀ j < m, w (valueNode j) = if b j then 1 else 0) ∧ w (dummyNode m) = 0 ∧ ∀ i, w (varNode m i) = if a i then 1 else 0 := by
  refine ⟨fun v => if v < 2 then 0 else if v < 2 + m then (if b (v - 2) then 1 else 0) else if v = 2 + m then 0 else if a (v - (2 + m + 1)) then 1 else 0, by simp, by simp, fun j hj => ?_, ?_, fun i => ?_⟩
  · simp only [valueNode]
    rw [if_neg (by omega), if_pos (by omega), show 2 + j - 2 = j by omega]
  · dsimp only [dummyNode]
    rw [if_neg (by omega), if_neg (by omega), if_pos rfl]
  · simp only [varNode]
    rw [if_neg (by omega), if_neg (by omega), if_neg (by omega), show 2 + m + 1 + i - (2 + m + 1) = i by omega]

omit hP in
theorem nodes_cases {v : Nat} (hv : v < nodes vars cover) : v = 0 ∨ v = 1 ∨ (∃ j < cover.length, v = valueNode j) ∨ v = dummyNode cover.length ∨ ∃ i < vars.length, v = varNode cover.length i := by
  simp only [nodes, valueNode, dummyNode, varNode] at *
  by_cases h0 : v = 0
  · exact .inl h0
  by_cases h1 : v = 1
  · exact .inr (.inl h1)
  by_cases h2 : v < 2 + cover.length
  · exact .inr (.inr (.inl ⟨v - 2, by omega, by omega⟩))
  by_cases h3 : v = 2 + cover.length
  · exact .inr (.inr (.inr (.inl h3)))
  · exact .inr (.inr (.inr (.inr ⟨v - (2 + cover.length + 1), by omega, by omega⟩)))

theorem flow_weight {a b : Nat → Bool} {w : Nat → Int} (w0 : w 0 = 0) (w1 : w 1 = 0) (wv : ∀ j < cover.length, w (valueNode j) = if b j then 1 else 0) (wd : w (dummyNode cover.length) = 0) (wi : ∀ i, w (varNode cover.length i) = if a i then 1 else 0) :
    (cover.zipIdx.map fun p => F 0 (valueNode p.2) * (if b p.2 then 1 else 0) + (vars.zipIdx.map fun q => F (valueNode p.2) (varNode cover.length q.2) * ((if a q.2 then 1 else 0) - (if b p.2 then 1 else 0))).sum).sum +
      (vars.zipIdx.map fun q => F (dummyNode cover.length) (varNode cover.length q.2) * (if a q.2 then 1 else 0)).sum -
      (vars.zipIdx.map fun q => if a q.2 then (1 : Int) else 0).sum = ((List.range (nodes vars cover)).map fun v => w v * miss v).sum := by
  rw [← flow_eq hP w, w0, w1, wd, sum_congr (l := cover.zipIdx) (g := fun p => F 0 (valueNode p.2) * (w (valueNode p.2) - 0) +
    (vars.zipIdx.map fun q => F (valueNode p.2) (varNode cover.length q.2) * (w (varNode cover.length q.2) - w (valueNode p.2))).sum) fun p hp => ?_,
    sum_congr (l := vars.zipIdx) (f := fun q => F (dummyNode cover.length) (varNode cover.length q.2) * (if a q.2 then 1 else 0)) (g := fun q => F (dummyNode cover.length) (varNode cover.length q.2) * (w (varNode cover.length q.2) - 0)) fun q _ => ?_]
  · have : (vars.zipIdx.map fun q => 0 - w (varNode cover.length q.2)).sum = 0 - (vars.zipIdx.map fun q => if a q.2 then (1 : Int) else 0).sum := by
      rw [sum_sub, sum_zero fun _ _ => rfl, sum_congr fun q _ => wi q.2]
    rw [this, Int.sub_self, Int.mul_zero, Int.mul_zero]; omega
  · rw [wi, Int.sub_zero]
  · rw [wv _ (snd_zipIdx hp).1, Int.sub_zero]
    congr 1
    exact sum_congr fun q _ => by rw [wi]

/-- Full values whose variables are in the set, and another variable: more variables than there is room for. -/
theorem cap_count {a b : Nat → Bool} {i0 : Nat} (hi0 : i0 < vars.length) (ha0 : a i0 = true) (hm : miss (varNode cover.length i0) < 0) (hS : Q 0) (hb : ∀ j < cover.length, b j = true → ¬ Q (valueNode j))
    (hab : ∀ j < cover.length, b j = true → ∀ i < vars.length, F (valueNode j) (varNode cover.length i) = 1 → a i = true) :
    (cover.zipIdx.map fun p => if b p.2 then (bd d p.1.2).2 else 0).sum + 1 ≤ (vars.zipIdx.map fun q => if a q.2 then (1 : Int) else 0).sum := by
  obtain ⟨w, w0, w1, wv, wd, wi⟩ := weight_ex cover.length a b
  have h := flow_weight hP w0 w1 wv wd wi
  have hr : ((List.range (nodes vars cover)).map fun v => w v * miss v).sum ≤ -1 := by
    have hlt : varNode cover.length i0 < nodes vars cover := by simp only [nodes, varNode]; omega
    have hz : ∀ v < nodes vars cover, 0 ≤ - (w v * miss v) := by
      intro v hv
      rcases nodes_cases hv with rfl | rfl | ⟨j, hj, rfl⟩ | rfl | ⟨i, hi, rfl⟩
      · rw [w0]; omega
      · rw [w1]; omega
      · rw [wv j hj]
        split
        · rename_i hbj
          have : ¬ 0 < miss (valueNode j) := fun h => hb j hj hbj (hP.inside _ hv h)
          omega
        · omega
      · rw [wd]; omega
      · have := var_nonpos hP hi
        rw [wi]; split <;> omega
    have := range_ge_one hz hlt
    rw [wi, if_pos ha0, sum_congr (g := fun v => 0 - w v * miss v) fun v _ => by omega, sum_sub, sum_zero (f := fun _ => 0) fun _ _ => rfl] at this
    omega
  have hl : (cover.zipIdx.map fun p => if b p.2 then (bd d p.1.2).2 else 0).sum ≤
      (cover.zipIdx.map fun p => F 0 (valueNode p.2) * (if b p.2 then 1 else 0) + (vars.zipIdx.map fun q => F (valueNode p.2) (varNode cover.length q.2) * ((if a q.2 then 1 else 0) - (if b p.2 then 1 else 0))).sum).sum := by
    refine sum_le fun p hp => ?_
    obtain ⟨hj, hj', _⟩ := snd_zipIdx hp
    by_cases hbj : b p.2 = true
    · simp only [hbj, ↓reduceIte]
      have he : (⟨0, valueNode p.2, _, (bd d p.1.2).2⟩ : Orig) ∈ netw d vars cover closed := mem_netw.2 (.inl ⟨p.1, p.2, hj', rfl⟩)
      have h1 := between_edge hP he
      have h2 : ¬ F 0 (valueNode p.2) < (bd d p.1.2).2 := fun h => hb _ hj hbj (forth_edge hP he hS h)
      rw [sum_zero fun q hq => ?_]
      · omega
      · have hi := (snd_zipIdx hq).1
        by_cases hf : F (valueNode p.2) (varNode cover.length q.2) = 1
        · rw [hab _ hj hbj _ hi hf]; simp
        · have h3 := fv_nonneg hP (valueNode p.2) (varNode cover.length q.2)
          have h4 := fv_le_one hP (i := q.2) hj
          rw [show F (valueNode p.2) (varNode cover.length q.2) = 0 by omega, Int.zero_mul]
    · simp only [hbj, Bool.false_eq_true, ↓reduceIte, Int.mul_zero, Int.zero_add]
      refine sum_nonneg fun q _ => ?_
      have h3 := fv_nonneg hP (valueNode p.2) (varNode cover.length q.2)
      split <;> omega
  have hd : 0 ≤ (vars.zipIdx.map fun q => F (dummyNode cover.length) (varNode cover.length q.2) * (if a q.2 then 1 else 0)).sum := sum_nonneg fun q _ => by
    have h3 := fv_nonneg hP (dummyNode cover.length) (varNode cover.length q.2)
    split <;> omega
  omega

/-- Values with no more than they need, one of them with less, that have all variables of the set: too few of these. -/
theorem dem_count {a b : Nat → Bool} {u : Nat} (hu : u < cover.length) (hbu : b u = true) (hm : 0 < miss (valueNode u)) (hS : ¬ Q 0) (hb : ∀ j < cover.length, b j = true → Q (valueNode j))
    (hlo : ∀ p ∈ cover, 0 ≤ (bd d p.2).1)
    (hab : ∀ i < vars.length, a i = true → (∀ j < cover.length, F (valueNode j) (varNode cover.length i) = 1 → b j = true) ∧ F (dummyNode cover.length) (varNode cover.length i) = 0 ∧ 0 ≤ miss (varNode cover.length i)) :
    (vars.zipIdx.map fun q => if a q.2 then (1 : Int) else 0).sum + 1 ≤ (cover.zipIdx.map fun p => if b p.2 then (bd d p.1.2).1 else 0).sum := by
  obtain ⟨w, w0, w1, wv, wd, wi⟩ := weight_ex cover.length a b
  have h := flow_weight hP w0 w1 wv wd wi
  have hr : 1 ≤ ((List.range (nodes vars cover)).map fun v => w v * miss v).sum := by
    have hlt : valueNode u < nodes vars cover := by simp only [nodes, valueNode]; omega
    have hz : ∀ v < nodes vars cover, 0 ≤ w v * miss v := by
      intro v hv
      rcases nodes_cases hv with rfl | rfl | ⟨j, hj, rfl⟩ | rfl | ⟨i, hi, rfl⟩
      · rw [w0]; omega
      · rw [w1]; omega
      · have := value_nonneg hP hj
        rw [wv j hj]; split <;> omega
      · rw [wd]; omega
      · rw [wi]
        split
        · rename_i h; have := (hab i hi h).2.2; omega
        · omega
    have := range_ge_one hz hlt
    rw [wv u hu, if_pos hbu] at this
    omega
  have hl : (cover.zipIdx.map fun p => F 0 (valueNode p.2) * (if b p.2 then 1 else 0) + (vars.zipIdx.map fun q => F (valueNode p.2) (varNode cover.length q.2) * ((if a q.2 then 1 else 0) - (if b p.2 then 1 else 0))).sum).sum ≤
      (cover.zipIdx.map fun p => if b p.2 then (bd d p.1.2).1 else 0).sum := by
    refine sum_le fun p hp => ?_
    obtain ⟨hj, hj', hmem⟩ := snd_zipIdx hp
    have neg : ∀ {f : VarId × Nat → Int}, (∀ q ∈ vars.zipIdx, f q ≤ 0) → (vars.zipIdx.map f).sum ≤ 0 := fun {f} hf => by
      have := sum_le (l := vars.zipIdx) (f := f) (g := fun _ => 0) hf
      rw [sum_zero (l := vars.zipIdx) (f := fun _ => 0) fun _ _ => rfl] at this; exact this
    by_cases hbj : b p.2 = true
    · simp only [hbj, ↓reduceIte]
      have h0 := hlo _ hmem
      have he : (⟨0, valueNode p.2, if (bd d p.1.2).1 < 0 then 0 else (bd d p.1.2).1, (bd d p.1.2).2⟩ : Orig) ∈ netw d vars cover closed := mem_netw.2 (.inl ⟨p.1, p.2, hj', rfl⟩)
      rw [if_neg (by omega)] at he
      have h1 := between_edge hP he
      have h2 : ¬ (bd d p.1.2).1 < F 0 (valueNode p.2) := fun h => hS (back_edge hP he (hb _ hj hbj) h)
      have := neg (f := fun q => F (valueNode p.2) (varNode cover.length q.2) * ((if a q.2 then 1 else 0) - 1)) fun q hq => by
        have h3 := fv_nonneg hP (valueNode p.2) (varNode cover.length q.2)
        split <;> omega
      omega
    · simp only [hbj, Bool.false_eq_true, ↓reduceIte, Int.mul_zero, Int.zero_add]
      refine neg fun q hq => ?_
      split
      · rename_i haq
        have hi := (snd_zipIdx hq).1
        have h1 := fv_nonneg hP (valueNode p.2) (varNode cover.length q.2)
        have h2 := fv_le_one hP (i := q.2) hj
        have h3 : F (valueNode p.2) (varNode cover.length q.2) ≠ 1 := fun h => hbj ((hab _ hi haq).1 _ hj h)
        omega
      · omega
  have hd : (vars.zipIdx.map fun q => F (dummyNode cover.length) (varNode cover.length q.2) * (if a q.2 then 1 else 0)).sum = 0 := sum_zero fun q hq => by
    split
    · rename_i haq
      rw [(hab _ (snd_zipIdx hq).1 haq).2.1, Int.zero_mul]
    · rw [Int.mul_zero]
  omega

end
end Gcs.GlobalCardinality.Gac
