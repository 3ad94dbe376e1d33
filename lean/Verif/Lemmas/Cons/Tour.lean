import Verif.Spec.Circuit
import Verif.Lemmas.Card

/-!
# Functions that go through all nodes
-/

namespace Gcs.Circuit

/-- Following `f` for a number of steps. -/
def it (f : Nat → Nat) : Nat → Nat → Nat
  | 0, x => x
  | k + 1, x => it f k (f x)

section
variable {f : Nat → Nat} {n : Nat}

theorem it_add (a b x : Nat) : it f (a + b) x = it f b (it f a x) := by
  induction a generalizing x with
  | zero => rw [Nat.zero_add]; rfl
  | succ a ih => rw [show a + 1 + b = (a + b) + 1 by omega]; exact ih (f x)

theorem it_succ (k x : Nat) : it f (k + 1) x = f (it f k x) := it_add k 1 x

theorem it_congr {g : Nat → Nat} : ∀ (k x : Nat), (∀ m < k, f (it f m x) = g (it f m x)) → it f k x = it g k x
  | 0, _, _ => rfl
  | k + 1, x, h => by
    rw [it_succ, it_succ, ← it_congr k x fun m hm => h m (by omega)]
    exact h k (by omega)

theorem exists_least {P : Nat → Prop} (h : ∃ k, P k) : ∃ k, P k ∧ ∀ m < k, ¬ P m := by
  obtain ⟨k, hk⟩ := h
  induction k using Nat.strongRecOn with
  | ind k ih =>
    by_cases c : ∃ m, m < k ∧ P m
    · obtain ⟨m, h1, h2⟩ := c; exact ih m h1 h2
    · exact ⟨k, hk, fun m hm hp => c ⟨m, hm, hp⟩⟩

/-- `f` goes through all nodes. -/
structure Loop (f : Nat → Nat) (n : Nat) : Prop where
  lt : ∀ i < n, f i < n
  all : ∀ i j, i < n → j < n → ∃ k, it f k i = j

variable (h : Loop f n)
include h

theorem Loop.it_lt {i : Nat} (hi : i < n) (k : Nat) : it f k i < n := by
  induction k with
  | zero => exact hi
  | succ k ih => rw [it_succ]; exact h.lt _ ih

/-- A set of nodes that is not left has all nodes in it, if it has any. -/
theorem Loop.closed {P : Nat → Prop} (hP : ∀ x < n, P x → P (f x)) {i j : Nat} (hi : i < n) (hj : j < n) (h0 : P i) : P j := by
  obtain ⟨k, rfl⟩ := h.all i j hi hj
  clear hj
  induction k with
  | zero => exact h0
  | succ k ih => rw [it_succ]; exact hP _ (h.it_lt hi k) ih

/-- From `u` to `v` without coming to `r`. -/
def Avoid (f : Nat → Nat) (r u v : Nat) : Prop := ∃ k, it f k u = v ∧ ∀ m ≤ k, it f m u ≠ r

theorem Loop.avoid_closed {P : Nat → Prop} {r u v : Nat} (hP : ∀ x < n, x ≠ r → P x → P (f x)) (hu : u < n) (h0 : P u) (ha : Avoid f r u v) : P v := by
  obtain ⟨k, rfl, hk⟩ := ha
  induction k with
  | zero => exact h0
  | succ k ih => rw [it_succ]; exact hP _ (h.it_lt hu k) (hk k (by omega)) (ih fun m hm => hk m (by omega))

/-- After leaving `r`, everything else is met before `r` again. -/
theorem Loop.position {r u : Nat} (hr : r < n) (hu : u < n) : ∃ k, it f k r = u ∧ ∀ m, 0 < m → m ≤ k → it f m r ≠ r := by
  obtain ⟨k, hk, hm⟩ := exists_least (h.all r u hr hu)
  refine ⟨k, hk, fun m h0 hmk e => hm (k - m) (by omega) ?_⟩
  rw [← hk]
  conv => rhs; rw [show k = m + (k - m) by omega, it_add, e]

theorem Loop.order {r u v : Nat} (hr : r < n) (hu : u < n) (hv : v < n) (hur : u ≠ r) (hvr : v ≠ r) : Avoid f r u v ∨ Avoid f r v u := by
  obtain ⟨p, hp, ap⟩ := h.position hr hu
  obtain ⟨q, hq, aq⟩ := h.position hr hv
  have hp0 : 0 < p := Nat.pos_of_ne_zero fun e => hur (by rw [← hp, e]; rfl)
  have hq0 : 0 < q := Nat.pos_of_ne_zero fun e => hvr (by rw [← hq, e]; rfl)
  rcases Nat.le_total p q with hpq | hpq
  · refine .inl ⟨q - p, ?_, fun m hm => ?_⟩
    · rw [← hp, ← it_add, show p + (q - p) = q by omega, hq]
    · rw [← hp, ← it_add]; exact aq _ (by omega) (by omega)
  · refine .inr ⟨p - q, ?_, fun m hm => ?_⟩
    · rw [← hq, ← it_add, show q + (p - q) = p by omega, hp]
    · rw [← hq, ← it_add]; exact ap _ (by omega) (by omega)

theorem Loop.fromRoot {r u : Nat} (hr : r < n) (hu : u < n) (hur : u ≠ r) : Avoid f r (f r) u := by
  obtain ⟨p, hp, ap⟩ := h.position hr hu
  cases p with
  | zero => exact absurd hp.symm hur
  | succ p => exact ⟨p, hp, fun m hm => ap (m + 1) (by omega) (by omega)⟩

/-- Parts of the graph that are left only through the root come one after the other. -/
theorem Loop.noSkip {A B : Nat → Prop} {r u v : Nat} (hr : r < n) (hu : u < n) (hv : v < n) (hA : ∀ x < n, x ≠ r → A x → A (f x)) (hB : ∀ x < n, x ≠ r → B x → B (f x)) (huB : ¬ B u) (hrB : B r)
    (hvB : B v) (hvA : ¬ A v) (hvr : v ≠ r) : ¬ A (f u) := by
  intro hf
  have hur : u ≠ r := fun e => huB (e ▸ hrB)
  rcases h.order hr hu hv hur hvr with ⟨k, hk, ha⟩ | ha
  · cases k with
    | zero => subst hk; exact huB hvB
    | succ k => exact hvA (h.avoid_closed hA (h.lt u hu) hf ⟨k, hk, fun m hm => ha (m + 1) (by omega)⟩)
  · exact huB (h.avoid_closed hB hv hvB ha)

/-- A cycle has all nodes on it. -/
theorem Loop.cycle {s len : Nat} (hs : s < n) (hc : it f (len + 1) s = s) : n ≤ len + 1 := by
  have := length_le_of_subset (List.range n) ((List.range (len + 1)).map fun k => it f k s) List.nodup_range fun x hx => ?_
  · simpa using this
  · refine h.closed (P := fun x => x ∈ (List.range (len + 1)).map fun k => it f k s) (fun y _ hy => ?_) hs (List.mem_range.1 hx) (List.mem_map.2 ⟨0, by simp, rfl⟩)
    obtain ⟨k, hk, rfl⟩ := List.mem_map.1 hy
    rw [List.mem_range] at hk
    by_cases hl : k = len
    · exact List.mem_map.2 ⟨0, by simp, by rw [← it_succ (f := f), hl, hc]; rfl⟩
    · exact List.mem_map.2 ⟨k + 1, by rw [List.mem_range]; omega, it_succ k s⟩

/-- A path through all nodes that does not come back has to do so in the next step. -/
theorem Loop.close {s len : Nat} (hs : s < n) (hne : ∀ m, 0 < m → m ≤ len → it f m s ≠ s) (hn : n ≤ len + 1) : it f (len + 1) s = s := by
  obtain ⟨q, hq⟩ := h.all (f s) s (h.lt s hs) hs
  obtain ⟨p, ⟨p0, hp⟩, hm⟩ := exists_least (P := fun k => 0 < k ∧ it f k s = s) ⟨q + 1, by omega, hq⟩
  have hp1 : len + 1 ≤ p := Nat.lt_of_not_le fun hle => hne p p0 (by omega) hp
  have hnd : ((List.range p).map fun k => it f k s).Nodup := by
    rw [List.nodup_iff_pairwise_ne, List.pairwise_map]
    refine List.Pairwise.imp_of_mem (R := (· < ·)) (fun {i j} hi hj hij e => ?_) List.pairwise_lt_range
    rw [List.mem_range] at hi hj
    refine hm (i + (p - j)) (by omega) ⟨by omega, ?_⟩
    rw [it_add, e, ← it_add, show j + (p - j) = p by omega, hp]
  have := length_le_of_subset _ (List.range n) hnd fun x hx => by
    obtain ⟨k, _, rfl⟩ := List.mem_map.1 hx
    exact List.mem_range.2 (h.it_lt hs k)
  simp only [List.length_map, List.length_range] at this
  rw [show len + 1 = p by omega, hp]

omit h

/-- The successor of a node, as a node. -/
def next (vs : List Int) (i : Nat) : Nat := (vs.getD i 0).toNat

theorem leads_iff {vs : List Int} (hr : ∀ v ∈ vs, 0 ≤ v ∧ v < vs.length) {i j : Nat} (hi : i < vs.length) : Leads vs i j ↔ ∃ k, it (next vs) k i = j := by
  constructor
  · intro h
    induction h with
    | here i => exact ⟨0, rfl⟩
    | on e _ ih =>
      rename_i i k j
      obtain ⟨m, hm⟩ := ih (by have := hr _ (List.mem_of_getElem? e); omega)
      refine ⟨m + 1, ?_⟩
      rw [← hm, it, next, List.getD_eq_getElem?_getD, e]
      rfl
  · rintro ⟨k, rfl⟩
    induction k generalizing i with
    | zero => exact .here i
    | succ k ih =>
      have h1 := hr _ (List.getElem_mem hi)
      have e : next vs i = (vs[i]).toNat := by rw [next, List.getD_eq_getElem?_getD, List.getElem?_eq_getElem hi]; rfl
      refine .on (j := next vs i) ?_ (ih (by rw [e]; omega))
      rw [List.getElem?_eq_getElem hi, e, Int.toNat_of_nonneg h1.1]

theorem tour_iff {vs : List Int} (hr : ∀ v ∈ vs, 0 ≤ v ∧ v < vs.length) : Tour vs ↔ Loop (next vs) vs.length := by
  constructor
  · intro h
    refine ⟨fun i hi => ?_, fun i j hi hj => (leads_iff hr hi).1 (h.2 i j hi hj)⟩
    have h1 := hr _ (List.getElem_mem hi)
    rw [next, List.getD_eq_getElem?_getD, List.getElem?_eq_getElem hi, Option.getD_some]
    omega
  · exact fun h => ⟨hr, fun i j hi hj => (leads_iff hr hi).2 (h.all i j hi hj)⟩

theorem Loop.of_tour {vs : List Int} (h : Tour vs) : Loop (next vs) vs.length := (tour_iff h.1).1 h

end
end Gcs.Circuit
