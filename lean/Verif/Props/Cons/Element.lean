import Verif.Lemmas.Cons.Element
import Verif.Props.Cons.Run
import Verif.Props.Cons.Demo
import Verif.Props.Cons.Comparison
import Verif.Props.Stateful

/-!
# C40: Element
-/

namespace Gcs
open Element

section
variable {σ μ : Type} {n m : Nat} {R : Err → Prop} {root : Doms} {k : Nat} {A : Arr k} {result : VarId} {idx : List (VarId × Int)} {ints bc : Bool} {z0 : List σ} {ns : List Nat}

/-- The constraint, in any number of dimensions. `ints` is whether the array is of integers, and `bc` whether only the bounds of the result are kept consistent. -/
abbrev Element.posted (ints : Bool) (k : Nat) (A : Arr k) (result : VarId) (idx : List (VarId × Int)) (bc : Bool) : Posted σ μ :=
  ⟨Element.install ints k A result idx bc, IsElement k A result idx, result :: idx.map (·.1) ++ entries k A⟩

/-- C40: what is installed for a regular array is right, whichever variables are the same, at either level of consistency. Posting throws only if a number is not a 64-bit integer. -/
theorem element_right (ho : R .overflow) (hd : DomsOK root) (hr : result.Valid root.length) (hi : ∀ q ∈ idx, q.1.Valid root.length ∧ InI64 q.2) (hv : ∀ v ∈ entries k A, v.Valid root.length) (hreg : Arr.Regular k A ns)
    (hints : ints = true → ∀ v ∈ entries k A, ∃ c, v = .const c) (h0 : 0 < k) (hk : idx.length = k) :
    (Element.posted (σ := σ) (μ := μ) ints k A result idx bc).Serves root.length m R root z0 (fun _ => False) ∧ ∀ e, Element.install (σ := σ) (μ := μ) ints k A result idx bc root = .error e → e = .overflow := by
  have key := Element.install_ok (σ := σ) (μ := μ) (ints := ints) (bc := bc) (m := m) (R := R) (z0 := z0) ho hd hr hi hv hreg hints (by rintro rfl; simp at hk; omega) hk
  refine ⟨fun items e => ?_, fun e he => ?_⟩
  · exact key.value e
  · rcases key with h | ⟨r, h, _⟩ <;> rw [h] at he <;> cases he
    rfl

/-- C40: `Element` and `ElementConstantArray`: the result is the element of the array at the index, counted from `s`. An index outside the array is not a solution. -/
theorem element_one {vs : List VarId} {x : VarId} {s : Int} (ho : R .overflow) (hd : DomsOK root) (hr : result.Valid root.length) (hx : x.Valid root.length) (hs : InI64 s) (hv : ∀ v ∈ vs, v.Valid root.length)
    (hints : ints = true → ∀ v ∈ vs, ∃ c, v = .const c) :
    (Posted.mk (Element.install (σ := σ) (μ := μ) ints 1 vs result [(x, s)] bc) (fun a => ∃ (i : Nat) (v : VarId), x.eval a = s + i ∧ vs[i]? = some v ∧ result.eval a = v.eval a) (result :: x :: vs)).Serves root.length m R root z0 (fun _ => False) ∧
    ∀ e, Element.install (σ := σ) (μ := μ) ints 1 vs result [(x, s)] bc root = .error e → e = .overflow := by
  have he : entries 1 vs = vs := by
    show vs.flatMap (fun v => [v]) = vs
    induction vs with
    | nil => rfl
    | cons v vs ih => rw [List.flatMap_cons, ih (fun w hw => hv w (by simp [hw])) fun h w hw => hints h w (by simp [hw])]; rfl
  have := element_right (σ := σ) (μ := μ) (R := R) (m := m) (z0 := z0) (root := root) (k := 1) (A := vs) (ns := [vs.length]) (result := result) (idx := [(x, s)]) (ints := ints) (bc := bc) ho hd hr (by simpa using ⟨hx, hs⟩)
    (by rw [he]; exact hv) ⟨rfl, fun _ _ => rfl⟩ (by rw [he]; exact hints) (by decide) rfl
  refine ⟨?_, this.2⟩
  have e : (Element.posted (σ := σ) (μ := μ) ints 1 vs result [(x, s)] bc) = Posted.mk (Element.install (σ := σ) (μ := μ) ints 1 vs result [(x, s)] bc) (fun a => ∃ (i : Nat) (v : VarId), x.eval a = s + i ∧ vs[i]? = some v ∧ result.eval a = v.eval a) (result :: x :: vs) := by
    simp only [Element.posted, he, Posted.mk.injEq, true_and]
    exact ⟨funext fun a => propext isElement_one, rfl⟩
  rw [← e]; exact this.1

/-- C40: `Element2D` and `Element2DConstantArray`. If not all rows have the same length, posting throws, and otherwise only if a number is not a 64-bit integer. -/
theorem element_two {rows : List (List VarId)} {x y : VarId} {s t : Int} (ho : R .overflow) (hd : DomsOK root) (hr : result.Valid root.length) (hx : x.Valid root.length) (hs : InI64 s) (hy : y.Valid root.length) (ht : InI64 t)
    (hv : ∀ r ∈ rows, ∀ v ∈ r, v.Valid root.length) (hints : ints = true → ∀ r ∈ rows, ∀ v ∈ r, ∃ c, v = .const c) :
    (Posted.mk (Element.install (σ := σ) (μ := μ) ints 2 rows result [(x, s), (y, t)] bc) (fun a => ∃ (i j : Nat) (r : List VarId) (v : VarId), x.eval a = s + i ∧ y.eval a = t + j ∧ rows[i]? = some r ∧ r[j]? = some v ∧ result.eval a = v.eval a)
      (result :: x :: y :: rows.flatten)).Serves root.length m R root z0 (fun _ => False) ∧
    ∀ e, Element.install (σ := σ) (μ := μ) ints 2 rows result [(x, s), (y, t)] bc root = .error e → e = .overflow ∨ e = .invalidProblem ∧ ∃ r ∈ rows, ∃ r' ∈ rows, r.length ≠ r'.length := by
  have he1 : ∀ vs : List VarId, entries 1 vs = vs := fun vs => by
    show vs.flatMap (fun v => [v]) = vs
    induction vs with
    | nil => rfl
    | cons v vs ih => rw [List.flatMap_cons, ih]; rfl
  have he : entries 2 rows = rows.flatten := by
    show List.flatMap (β := VarId) (entries 1) rows = _
    rw [show entries 1 = id from funext he1]
    exact List.flatMap_id (L := rows)
  have hv' : ∀ v ∈ entries 2 rows, v.Valid root.length := by
    rw [he]; intro v h; obtain ⟨r, h1, h2⟩ := List.mem_flatten.1 h; exact hv r h1 v h2
  have e : (Element.posted (σ := σ) (μ := μ) ints 2 rows result [(x, s), (y, t)] bc) = Posted.mk (Element.install (σ := σ) (μ := μ) ints 2 rows result [(x, s), (y, t)] bc)
      (fun a => ∃ (i j : Nat) (r : List VarId) (v : VarId), x.eval a = s + i ∧ y.eval a = t + j ∧ rows[i]? = some r ∧ r[j]? = some v ∧ result.eval a = v.eval a) (result :: x :: y :: rows.flatten) := by
    simp only [Element.posted, he, Posted.mk.injEq, true_and]
    exact ⟨funext fun a => propext isElement_two, rfl⟩
  rw [← e]
  by_cases hc : check 2 rows (len 2 rows) = true
  · obtain ⟨ns, hreg⟩ := regular_of_check (k := 2) (A := rows) (by decide) hc
    have := element_right (σ := σ) (μ := μ) (R := R) (m := m) (z0 := z0) (root := root) (k := 2) (A := rows) (ns := ns) (result := result) (idx := [(x, s), (y, t)]) (ints := ints) (bc := bc) ho hd hr
      (by rw [List.forall_mem_cons, List.forall_mem_singleton]; exact ⟨⟨hx, hs⟩, hy, ht⟩) hv' hreg (by rw [he]; intro h v hm; obtain ⟨r, h1, h2⟩ := List.mem_flatten.1 hm; exact hints h r h1 v h2) (by decide) rfl
    exact ⟨this.1, fun e h => .inl (this.2 e h)⟩
  · have e0 : Element.install (σ := σ) (μ := μ) ints 2 rows result [(x, s), (y, t)] bc root = .error .invalidProblem := by
      unfold Element.install
      rw [if_pos (by simpa using hc)]; rfl
    refine ⟨fun items h => ?_, fun e h => ?_⟩
    · dsimp only at h; rw [e0] at h; cases h
    · rw [e0] at h; cases h
      refine .inr ⟨rfl, Classical.byContradiction fun hn => hc ?_⟩
      rw [check_succ (k := 1) (A := rows) (n := len 2 rows)]
      refine Bool.and_eq_true_iff.2 ⟨decide_eq_true rfl, List.all_eq_true.2 fun r hrr => Bool.and_eq_true_iff.2 ⟨decide_eq_true ?_, List.all_eq_true.2 fun _ _ => rfl⟩⟩
      cases hR : (Arr.rows rows : List (Arr 1)) with
      | nil => rw [hR] at hrr; cases hrr
      | cons r0 rs => exact Classical.byContradiction fun hne => hn ⟨r, hrr, r0, by rw [show rows = r0 :: rs from hR]; exact List.mem_cons_self .., hne⟩

/-- C49: when the propagator for an index variable has run without failing, every value that is left of it is part of a solution within the domains, if no variable occurs twice. If it fails, there is no solution. -/
theorem element_index_consistent {c : Ctx} {s s' : Sys σ μ} {r : Res PState} {al : Bool} {dim : Nat} {x : VarId} {start : Int} (hr : result.Valid n) (hi : ∀ q ∈ idx, q.1.Valid n ∧ InI64 q.2) (hv : ∀ v ∈ entries k A, v.Valid n) (hreg : Arr.Regular k A ns)
    (hx : idx[dim]? = some (x, start)) (hrun : Runnable n m s) (hin : ∀ a, Within s.doms a → (Arr.at? k A (idx.map fun q => q.1.eval a - q.2)).isSome) (h : runProg c (Element.indexProp ints k A result idx al dim x) s = .ok (r, s')) :
    (Failed r s' → ∀ a, Within s.doms a → ¬ IsElement k A result idx a) ∧
    (¬ Failed r s' → ((result :: idx.map (·.1) ++ entries k A).filterMap VarId.underlyingIndex).Nodup → ∀ y, Poss s'.doms x y → ∃ a, Within s'.doms a ∧ x.eval a = y ∧ IsElement k A result idx a) := by
  have hin' : Element.Inside s.doms idx ns := inside_of hrun.domsOK fun a ha => by
    obtain ⟨v, e⟩ := Option.isSome_iff_exists.1 (hin a ha); exact at_inRange hreg e
  have hent : ∀ ps, Pick s.doms idx ps → ∃ v, entry k A ps = .ok v ∧ Arr.at? k A ps = some v ∧ v.Valid n := fun ps hp => by
    obtain ⟨v, h1, h2, h3⟩ := entry_ok hreg (hin' ps hp); exact ⟨v, h1, h2, hv v h3⟩
  have ver := ver_facts _ _ hrun.domsOK hrun.domsLen (Element.indexProp_ver (σ := σ) (μ := μ) (J := { n, m, R := (· = .overflow), C := IsElement k A result idx }) (ints := ints) (al := al) rfl hr hrun.domsOK hrun.domsLen hi hx hent fun _ h => h)
  refine ⟨fun hf a ha hA => ?_, fun hf hn y hy => ?_⟩
  · exact (sound_run (np := c.owner + 1) c (Nat.lt_succ_self _) _ s (Ver.okAt _ _ ver) (Ver.soundAt (J := { n, m, R := (· = .overflow), C := IsElement k A result idx }) hA _ _ ver ha) hrun ha _ _ h).1 hf
  · obtain ⟨_, _, ⟨hd', _, hs'⟩, _, h1, P, hP⟩ := wp_run (np := c.owner + 1) c (Nat.lt_succ_self _) _ s (Ver.okAt _ _ ver) (Ver.wp _ _ ver) hrun r s' h hf
    obtain ⟨ps, k1, v, k2, z, k3, k4⟩ := h1 y hy
    have hnd : aliased (result :: idx.map (·.1) ++ entries k A) = false := by simpa [aliased] using hn
    have hxl := (List.getElem?_eq_some_iff.1 hx).1
    have inI : ∀ (j : Nat) q, idx[j]? = some q → (result :: idx.map (·.1) ++ entries k A)[j + 1]? = some q.1 := fun j q hq => by
      rw [List.cons_append, List.getElem?_cons_succ, List.getElem?_append_left (by have := (List.getElem?_eq_some_iff.1 hq).1; simpa using this)]
      simp [hq]
    have hp0 : Pick s.doms idx ps := PickAt.pick (fun q _ hq => by rw [Nat.sub_zero, hx] at hq; cases hq; exact Inverse.Poss.mono hs' hy) k1
    obtain ⟨v', _, f2, f3⟩ := entry_ok hreg (hin' ps hp0)
    rw [k2] at f2; cases f2
    have hp1 : Pick s'.doms idx ps := by
      refine pick_iff.2 ⟨(pick_iff.1 hp0).1, fun j q p hq hp => ?_⟩
      have := pickAt_at k1 j q p hq hp
      rw [Nat.zero_add] at this
      split at this
      · rename_i e
        subst e
        rw [hx] at hq; cases hq
        rw [this, show y - start + start = y by omega]; exact hy
      · rename_i e
        exact poss_apart hd' hP (apart_of hnd (j + 1) (dim + 1) _ _ (inI j q hq) (inI dim _ hx) (by omega)) this
    have hr' : Poss s'.doms result z := poss_apart hd' hP (apart_of hnd 0 (dim + 1) _ _ rfl (inI dim _ hx) (by omega)) k4
    have hv' : Poss s'.doms v z := by
      obtain ⟨j, hj⟩ := List.mem_iff_getElem?.1 f3
      refine poss_apart hd' hP (apart_of hnd (idx.length + 1 + j) (dim + 1) _ _ ?_ (inI dim _ hx) (by omega)) k3
      rw [show idx.length + 1 + j = (idx.length + j) + 1 by omega, List.cons_append, List.getElem?_cons_succ, List.getElem?_append_right (by simp)]
      simpa using hj
    obtain ⟨a, ha, _, e2, e3⟩ := Element.together hd' hn hr' hp1 k2 f3 hv'
    refine ⟨a, ha, ?_, e3⟩
    have e4 := congrArg (fun l : List Int => l[dim]?) e2
    simp only [List.getElem?_map, hx, Option.map_some] at e4
    have := pickAt_at k1 dim _ _ hx e4.symm
    rw [Nat.zero_add, if_pos rfl] at this
    omega

/-- C49: the same for the result, if it is not only its bounds that are kept consistent. -/
theorem element_result_consistent {c : Ctx} {s s' : Sys σ μ} {r : Res PState} {al : Bool} (hr : result.Valid n) (hi : ∀ q ∈ idx, q.1.Valid n ∧ InI64 q.2) (hv : ∀ v ∈ entries k A, v.Valid n) (hreg : Arr.Regular k A ns)
    (hrun : Runnable n m s) (hin : ∀ a, Within s.doms a → (Arr.at? k A (idx.map fun q => q.1.eval a - q.2)).isSome) (h : runProg c (Element.valuesProp ints k A result idx al) s = .ok (r, s')) :
    (Failed r s' → ∀ a, Within s.doms a → ¬ IsElement k A result idx a) ∧
    (¬ Failed r s' → ((result :: idx.map (·.1) ++ entries k A).filterMap VarId.underlyingIndex).Nodup → ∀ y, Poss s'.doms result y → ∃ a, Within s'.doms a ∧ result.eval a = y ∧ IsElement k A result idx a) := by
  have hin' : Element.Inside s.doms idx ns := inside_of hrun.domsOK fun a ha => by
    obtain ⟨v, e⟩ := Option.isSome_iff_exists.1 (hin a ha); exact at_inRange hreg e
  have hent : ∀ ps, Pick s.doms idx ps → ∃ v, entry k A ps = .ok v ∧ Arr.at? k A ps = some v ∧ v.Valid n := fun ps hp => by
    obtain ⟨v, h1, h2, h3⟩ := entry_ok hreg (hin' ps hp); exact ⟨v, h1, h2, hv v h3⟩
  have ver := ver_facts _ _ hrun.domsOK hrun.domsLen (Element.valuesProp_ver (σ := σ) (μ := μ) (J := { n, m, R := (· = .overflow), C := IsElement k A result idx }) (ints := ints) (al := al) rfl hr hrun.domsOK hrun.domsLen hi hent fun _ h => h)
  refine ⟨fun hf a ha hA => ?_, fun hf hn y hy => ?_⟩
  · exact (sound_run (np := c.owner + 1) c (Nat.lt_succ_self _) _ s (Ver.okAt _ _ ver) (Ver.soundAt (J := { n, m, R := (· = .overflow), C := IsElement k A result idx }) hA _ _ ver ha) hrun ha _ _ h).1 hf
  · obtain ⟨_, _, ⟨hd', _, hs'⟩, _, h1, P, hP⟩ := wp_run (np := c.owner + 1) c (Nat.lt_succ_self _) _ s (Ver.okAt _ _ ver) (Ver.wp _ _ ver) hrun r s' h hf
    obtain ⟨ps, hp0, v, k2, k3⟩ := h1 y hy
    have hnd : aliased (result :: idx.map (·.1) ++ entries k A) = false := by simpa [aliased] using hn
    obtain ⟨v', _, f2, f3⟩ := entry_ok hreg (hin' ps hp0)
    rw [k2] at f2; cases f2
    have off : ∀ (j : Nat) u z, (idx.map (·.1) ++ entries k A)[j]? = some u → Poss s.doms u z → Poss s'.doms u z := fun j u z hu hz => poss_apart hd' hP (apart_of hnd (j + 1) 0 _ _ hu rfl (by omega)) hz
    have hp1 : Pick s'.doms idx ps := by
      refine pick_iff.2 ⟨(pick_iff.1 hp0).1, fun j q p hq hp => off j _ _ ?_ ((pick_iff.1 hp0).2 j q p hq hp)⟩
      rw [List.getElem?_append_left (by have := (List.getElem?_eq_some_iff.1 hq).1; simpa using this)]
      simp [hq]
    have hv' : Poss s'.doms v y := by
      obtain ⟨j, hj⟩ := List.mem_iff_getElem?.1 f3
      refine off (idx.length + j) _ _ ?_ k3
      rw [List.getElem?_append_right (by simp)]
      simpa using hj
    obtain ⟨a, ha, e1, _, e3⟩ := Element.together hd' hn hy hp1 k2 f3 hv'
    exact ⟨a, ha, e1, e3⟩

end

/-! Concrete cases of the hypotheses, and runs. -/

namespace Element

/-- `ElementConstantArray`. -/
example : Run.run [[(0, 9)], [(0, 9)]] [install true 1 [VarId.const 4, .const 7, .const 4] (.simple 0) [(.simple 1, 1)] true] =
    some ([[[(4, 4)], [(1, 1)]], [[(7, 7)], [(2, 2)]], [[(4, 4)], [(3, 3)]]], true) := by decide +kernel
/-- The index is itself in the array, and a view of it is the result. -/
example : Run.run [[(0, 2)], [(5, 6)]] [install false 1 [VarId.simple 0, .simple 1, .simple 0] (.view 0 false 4) [(.simple 0, 0)] false] = some ([[[(1, 1)], [(5, 5)]]], true) := by decide +kernel
/-- Two dimensions, with the same variable for both: the diagonal. -/
example : Run.run [[(0, 9)], [(0, 9)]] [install true 2 [[VarId.const 4, .const 7], [.const 1, .const 2]] (.simple 0) [(.simple 1, 0), (.simple 1, 0)] false] =
    some ([[[(4, 4)], [(0, 0)]], [[(2, 2)], [(1, 1)]]], true) := by decide +kernel
/-- Rows of different lengths are refused, and an array without elements has no solutions. -/
example : (install (σ := Unit) (μ := Unit) true 2 [[VarId.const 4, .const 7], [.const 1]] (.simple 0) [(.simple 1, 0), (.simple 1, 0)] false [[(0, 9)], [(0, 9)]]).toOption.isNone ∧
    Run.run [[(0, 9)], [(0, 9)]] [install false 2 ([[], []] : List (List VarId)) (.simple 0) [(.simple 1, 0), (.simple 1, 0)] false] = some ([], true) := by decide +kernel
/-- Bounds only, and all values. -/
example : ((runProg ⟨0, []⟩ (boundsProp 1 [VarId.const 4, .const 7, .const 5] (.simple 0) [(.simple 1, 0)]) (Sys.start [[(0, 9)], [(0, 1)]] ([] : List Unit) () (Run.setup [] []).watches)).toOption.map (fun p => p.2.doms),
    (runProg ⟨0, []⟩ (valuesProp true 1 [VarId.const 4, .const 7, .const 5] (.simple 0) [(.simple 1, 0)] false) (Sys.start [[(0, 9)], [(0, 1)]] ([] : List Unit) () (Run.setup [] []).watches)).toOption.map (fun p => p.2.doms)) =
    (some [[(4, 7)], [(0, 1)]], some [[(4, 4), (7, 7)], [(0, 1)]]) := by decide +kernel
/-- A call of an index propagator to which `element_index_consistent` applies. -/
example : (runProg ⟨0, []⟩ (indexProp false 1 [VarId.simple 2, .const 7, .simple 3] (.simple 0) [(.simple 1, 0)] false 0 (.simple 1)) (Sys.start [[(0, 6)], [(0, 2)], [(6, 9)], [(7, 8)]] ([] : List Unit) () (Run.setup [] []).watches)).toOption.map (fun p => (p.1, p.2.doms)) =
    some (.val .enableButIdempotent, [[(0, 6)], [(0, 0)], [(6, 9)], [(7, 8)]]) ∧ Arr.Regular 1 [VarId.simple 2, .const 7, .simple 3] [3] ∧
    ((VarId.simple 0 :: [VarId.simple 1] ++ entries 1 [VarId.simple 2, .const 7, .simple 3]).filterMap VarId.underlyingIndex).Nodup := by
  refine ⟨by decide +kernel, ⟨rfl, fun _ _ => rfl⟩, by decide +kernel⟩

/-! A problem in which the hypotheses of the theorems in `Props/Stateful.lean` are met: a two-dimensional array with variables in it. -/
namespace Problem

def root : Doms := [[(0, 5)], [(0, 3)], [(1, 4)]]
def rows : List (List VarId) := [[.const 3, .simple 2], [.view 1 false 1, .const 5]]
def elt : Posted Unit Unit := ⟨install false 2 rows (.simple 0) [(.simple 1, 0), (.simple 2, 1)] false,
  fun a => ∃ (i j : Nat) (r : List VarId) (v : VarId), (VarId.simple 1).eval a = 0 + i ∧ (VarId.simple 2).eval a = 1 + j ∧ rows[i]? = some r ∧ r[j]? = some v ∧ (VarId.simple 0).eval a = v.eval a, .simple 0 :: .simple 1 :: .simple 2 :: rows.flatten⟩
def different : Posted Unit Unit := ⟨Comparison.lessThan (.simple 2) (.simple 0), fun a => (VarId.simple 2).eval a < (VarId.simple 0).eval a, [.simple 2, .simple 0]⟩
def cs : List (Posted Unit Unit) := [different, elt]
def own (_ _ : Nat) : Prop := False
def S : Setup Unit Unit := (Setup.create root 0 (cs.map (·.install)) Setup.empty).toOption.getD Setup.empty

def env : SearchEnv Unit Unit where
  engine := S.engine
  abort := fun _ => false
  branch := fun _ s => branchWith (dom [.simple 0, .simple 1, .simple 2]) largestFirst s.doms
  solution := fun _ _ => true
  trace := fun _ _ => true
  minimise := none
  learn := none

theorem valid : ∀ v ∈ [VarId.simple 0, .simple 1, .simple 2], v.Valid 3 := by decide

theorem problem : ProblemServed 3 0 (· = .overflow) root cs [] own S env [.simple 0, .simple 1, .simple 2] where
  domsOK := by decide +kernel
  domsLen := rfl
  statesLen := rfl
  overflow := rfl
  constraints i c hc := by
    rcases i with _ | _ | i
    · cases hc
      exact (lessThan_right (R := (· = .overflow)) (root := root) (n := 3) (v1 := .simple 2) (v2 := .simple 0) rfl (by decide +kernel) rfl (by decide) (by decide)).1.serves _ _
    · cases hc
      exact (element_two (σ := Unit) (μ := Unit) (m := 0) (R := (· = .overflow)) (root := root) (rows := rows) (result := .simple 0) (x := .simple 1) (y := .simple 2) (s := 0) (t := 1) (ints := false) (bc := false) (z0 := []) rfl (by decide +kernel)
        (by decide) (by decide) (by decide) (by decide) (by decide) (by decide +kernel) (fun h => nomatch h)).1
    · cases hc
  apart i j k h1 h2 := h1.elim
  created := rfl
  branches := ⟨valid, fun _ s hs => by
    have hl : s.doms.length = 3 := hs.call.domsLen
    refine ⟨_, _, rfl, (dom_chooses hs.call.domsOK (by rw [hl]; exact valid)).mono fun _ h => h.picked, fun v hv ho => ?_, largestFirst_guesses⟩
    exact (largestFirst_branches hs.call.domsOK (by rw [hl]; exact valid v hv) ho).mono fun _ h => h.1⟩
  covered c hc x hx v hv := by
    have : v = 0 ∨ v = 1 ∨ v = 2 := by
      simp only [cs, List.mem_cons, List.not_mem_nil, or_false] at hc
      rcases hc with rfl | rfl
      · simp only [different, List.mem_cons, List.not_mem_nil, or_false] at hx
        rcases hx with rfl | rfl <;> cases hv <;> simp
      · simp only [elt, rows, List.flatten_cons, List.flatten_nil, List.cons_append, List.nil_append, List.append_nil, List.mem_cons, List.not_mem_nil, or_false] at hx
        rcases hx with rfl | rfl | rfl | rfl | rfl | rfl | rfl <;> cases hv <;> simp
    rcases this with rfl | rfl | rfl
    · exact ⟨.simple 0, by simp, rfl⟩
    · exact ⟨.simple 1, by simp, rfl⟩
    · exact ⟨.simple 2, by simp, rfl⟩
  objective o ho := nomatch ho
  monotone i j _ h := nomatch h

def solutions : List Doms := [[[(5, 5)], [(1, 1)], [(2, 2)]], [[(2, 2)], [(1, 1)], [(1, 1)]], [[(3, 3)], [(0, 0)], [(1, 1)]]]

theorem runs : ∃ res has s' t, solve env S 80 1 none (Sys.start root [] () S.watches) = .ok ((res, has, s', t), true) ∧ t.found = solutions := by
  have h : (match solve env S 80 1 none (Sys.start root [] () S.watches) with
    | .ok ((_, _, _, t), true) => decide (t.found = solutions)
    | _ => false) = true := by decide +kernel
  split at h
  · exact ⟨_, _, _, _, by assumption, of_decide_eq_true h⟩
  · cases h

/-- So there are no other solutions. -/
example : ∀ a, (∀ c ∈ cs, c.holds a) ∧ Within root a → ∃ d ∈ solutions, Within d a := by
  obtain ⟨res, has, s', t, h, hf⟩ := runs
  intro a ha
  obtain ⟨i, d, hd, hw, _⟩ := ((stateful_enumerates problem rfl rfl (depthFuel := 80) (fuel := 1) (by decide) (by decide) rfl h).1 a).1 ha
  rw [hf] at hd
  exact ⟨d, List.mem_of_getElem? hd, hw⟩

end Problem
end Element
end Gcs
