import Verif.Lemmas.RangeRequests

/-!
# C71: range literals in proofs
-/

namespace Gcs
open Ranges

/-- C71: for a variable with values from `lb` to `ub`, whatever equality and range literals are asked for and in whatever order:

* every request succeeds, with `need_direct_encoding_for` and `ensure_partition_cut` calling each other to a depth of at most two (`st` does not depend on how deep they may go);
* every literal asked for that is not empty is defined, no literal is defined twice, and range literals have at least two values;
* clauses are written only over literals that are defined, and each is true for every value the variable can have;
* however much is known about some of the literals, once unit propagation over these clauses is done, every literal with possible values is false if each of its possible values is in a literal that is false, and every literal
  inside one that is false is false;
* and if a range with possible values has been asked for, then unit propagation reaches a conflict whenever every value is in a literal that is false. -/
theorem range_literals_right (lb ub : Int) (xs : List Ask) :
    ∃ st, (∀ d, asks lb ub (d + 2) xs {} = .ok st) ∧
      (∀ v, .eq v ∈ xs → v ∈ st.eqs) ∧ (∀ lo hi, .range lo hi ∈ xs → lo ≤ hi → st.Has (lo, hi)) ∧ st.eqs.Nodup ∧ st.invars.Nodup ∧ (∀ I ∈ st.invars, I.1 < I.2) ∧
      (∀ c ∈ st.clauses, (∀ l ∈ c, st.Has l.ivl) ∧ ∀ x, lb ≤ x → x ≤ ub → ∃ l ∈ c, l.Holds x) ∧
      ∀ known, Settled st.clauses known →
        (∀ J, st.Has J → (∃ x, J.1 ≤ x ∧ x ≤ J.2 ∧ lb ≤ x ∧ x ≤ ub) →
          (∀ x, J.1 ≤ x → x ≤ J.2 → lb ≤ x → x ≤ ub → ∃ I, st.Has I ∧ I.1 ≤ x ∧ x ≤ I.2 ∧ known I = some false) → known J = some false) ∧
        (∀ I J, st.Has I → st.Has J → J.1 ≤ I.1 → I.2 ≤ J.2 → known J = some false → known I = some false) ∧
        ((∃ lo hi x, .range lo hi ∈ xs ∧ lo < hi ∧ lo ≤ x ∧ x ≤ hi ∧ lb ≤ x ∧ x ≤ ub) →
          ∃ x, lb ≤ x ∧ x ≤ ub ∧ ∀ I, st.Has I → I.1 ≤ x → x ≤ I.2 → known I ≠ some false) := by
  obtain ⟨st, r, inv, _, asked⟩ := asks_ok xs (inv_empty lb ub)
  have base := inv.base
  have cellOut : ∀ known, Settled st.clauses known → ∀ bs, st.cuts = some bs → ∀ c, IsCell bs c →
      (∃ I, st.Has I ∧ I.1 ≤ c.1 ∧ c.1 ≤ I.2 ∧ known I = some false) → known c = some false := by
    intro known hk bs hb c hc ⟨I, hI, h1, h2, hf⟩
    have p := inv.part bs hb
    have bnd := hc.in_bounds p
    have := hc.le
    obtain ⟨e1, e2⟩ := p.ends I hI (by omega) id
    have g2 := hc.gap _ e2
    exact base.down known hk c I (p.cells c hc) hI h1 (by omega) hf
  refine ⟨st, r, fun v hv => ?_, fun lo hi h => (asked _ h).1, base.eqsNodup, base.invarsNodup, base.wide, fun c hc => ⟨base.has c hc, base.holds c hc⟩,
    fun known hk => ⟨fun J hJ ⟨x, x1, x2, x3, x4⟩ all => ?_, base.down known hk, ?_⟩⟩
  · rcases (asked _ hv).1 (Int.le_refl _) with h | h
    · exact h.2
    · exact absurd (base.wide _ h) (Int.lt_irrefl _)
  · cases hb : st.cuts with
    | none =>
      have single : ∀ I, st.Has I → I.1 ≤ x → x ≤ I.2 → I = (x, x) := by
        rintro I (h | h) h1 h2
        · exact Prod.ext (by simp only; omega) (by simp only; omega)
        · exact absurd (by omega) (inv.none hb I h)
      obtain ⟨I, hI, h1, h2, hf⟩ := all x x1 x2 x3 x4
      rw [single J hJ x1 x2, ← single I hI h1 h2]; exact hf
    | some bs =>
      refine (inv.part bs hb).covered known hk J hJ (by omega) id fun c hc h1 h2 => ?_
      have bnd := hc.in_bounds (inv.part bs hb)
      have := hc.le
      exact cellOut known hk bs hb c hc (all c.1 h1 (by omega) bnd.1 (by omega))
  · rintro ⟨lo, hi, y, h, h1, h2, h3, h4, h5⟩
    have hne := (asked _ h).2 h1 (by simp only [Ask.ivl]; omega)
    obtain ⟨bs, hb⟩ : ∃ bs, st.cuts = some bs := by
      cases e : st.cuts with
      | none => exact absurd e hne
      | some bs => exact ⟨bs, rfl⟩
    apply Classical.byContradiction
    intro no
    refine (inv.part bs hb).wipe known hk fun c hc => ?_
    have bnd := hc.in_bounds (inv.part bs hb)
    have := hc.le
    refine cellOut known hk bs hb c hc (Classical.byContradiction fun none => no ⟨c.1, bnd.1, by omega, fun I hI k1 k2 kf => none ⟨I, hI, k1, k2, kf⟩⟩)

/-- C71, on containment: when a literal is linked, an edge is written to each container with no other container inside it, and from each literal inside with no other around it; and no others are written. -/
theorem range_links_immediate (s : Ivl) (st : St) (t : List Ivl) (ht : st.tree = some t) :
    ∃ new, link s st = { st with clauses := st.clauses ++ new } ∧ ∀ c, c ∈ new ↔
      (∃ M ∈ t, c = [⟨false, s⟩, ⟨true, M⟩] ∧ M ≠ s ∧ M.1 ≤ s.1 ∧ s.2 ≤ M.2 ∧ ∀ N ∈ t, N ≠ s → N.1 ≤ s.1 → s.2 ≤ N.2 → M.1 ≤ N.1 → N.2 ≤ M.2 → N = M) ∨
      (s.1 ≠ s.2 ∧ ∃ M ∈ t, c = [⟨false, M⟩, ⟨true, s⟩] ∧ M ≠ s ∧ s.1 ≤ M.1 ∧ M.2 ≤ s.2 ∧ ∀ N ∈ t, N ≠ s → s.1 ≤ N.1 → N.2 ≤ s.2 → N.1 ≤ M.1 → M.2 ≤ N.2 → N = M) := by
  unfold link
  rw [ht]
  refine ⟨_, rfl, fun c => ?_⟩
  rw [List.mem_append]
  refine or_congr ?_ ?_
  · have mem : ∀ M, M ∈ sortBy upOrder (t.filter fun c => c.1 ≤ s.1 ∧ s.2 ≤ c.2 ∧ c ≠ s) ↔ M ∈ t ∧ M.1 ≤ s.1 ∧ s.2 ≤ M.2 ∧ M ≠ s := fun M => by
      rw [mem_sortBy, List.mem_filter]; simp
    rw [List.mem_map]
    constructor
    · rintro ⟨M, hM, rfl⟩
      have k := (mem M).1 (scanLeast_sub hM)
      exact ⟨M, k.1, rfl, k.2.2.2, k.2.1, k.2.2.1, fun N hN h1 h2 h3 h4 h5 => (scanLeast_minimal (up_sorted _) M hM).2 N ((mem N).2 ⟨hN, h2, h3, h1⟩) h4 h5⟩
    · rintro ⟨M, hM, rfl, h1, h2, h3, h4⟩
      rcases scanLeast_min (b := none) (up_sorted _) M ((mem M).2 ⟨hM, h2, h3, h1⟩) with ⟨N, hN, k1, k2⟩ | ⟨_, k, _⟩
      · have k := (mem N).1 (scanLeast_sub hN)
        rw [h4 N k.1 k.2.2.2 k.2.1 k.2.2.1 k1 k2] at hN
        exact ⟨M, hN, rfl⟩
      · simp at k
  · have mem : ∀ M, M ∈ sortBy downOrder (t.filter fun c => s.1 ≤ c.1 ∧ c.2 ≤ s.2 ∧ c ≠ s) ↔ M ∈ t ∧ s.1 ≤ M.1 ∧ M.2 ≤ s.2 ∧ M ≠ s := fun M => by
      rw [mem_sortBy, List.mem_filter]; simp
    rw [List.mem_map]
    constructor
    · rintro ⟨M, hM, rfl⟩
      split at hM
      · rename_i hs
        have k := (mem M).1 (scanGreatest_sub hM)
        exact ⟨hs, M, k.1, rfl, k.2.2.2, k.2.1, k.2.2.1, fun N hN h1 h2 h3 h4 h5 => (scanGreatest_maximal (down_sorted _) M hM).2 N ((mem N).2 ⟨hN, h2, h3, h1⟩) h4 h5⟩
      · simp at hM
    · rintro ⟨hs, M, hM, rfl, h1, h2, h3, h4⟩
      rcases scanGreatest_max (b := none) (down_sorted _) M ((mem M).2 ⟨hM, h2, h3, h1⟩) with ⟨N, hN, k1, k2⟩ | ⟨_, k, _⟩
      · have k := (mem N).1 (scanGreatest_sub hN)
        rw [h4 N k.1 k.2.2.2 k.2.1 k.2.2.1 k1 k2] at hN
        exact ⟨M, by rw [if_pos hs]; exact hN, rfl⟩
      · simp at k

namespace RangeLiteralsDemo

/-- Two containers that overlap, one around both, and two literals inside, one of them in the other. -/
def around : St := { tree := some [(0, 9), (1, 6), (2, 8), (3, 5), (4, 4), (1, 7)] }
example : (link (3, 6) around).clauses = [edge (3, 6) (2, 8), edge (3, 6) (1, 6), edge (3, 5) (3, 6)] := by decide +kernel

/-- Equalities before and after the first range, a range that is a union of cells, one partly outside, one wholly outside, and one that is empty. -/
def requests : List Ask := [.eq 3, .range 2 5, .eq 8, .range 4 12, .range 20 30, .range 7 6, .range 2 8]
def state : St := match asks 0 10 2 requests {} with | .ok st => st | .error _ => {}
example : asks 0 10 2 requests {} = .ok state := by decide +kernel
example : state.eqs = [3, 2, 8] ∧ state.invars = [(0, 1), (4, 5), (6, 10), (2, 5), (6, 7), (8, 10), (9, 10), (4, 12), (20, 30), (2, 8)] ∧
    state.cuts = some [0, 2, 3, 4, 6, 8, 9, 11] := by decide +kernel
/-- The first clause says that the variable has a value. -/
example : state.clauses.head? = some [⟨true, (0, 1)⟩, ⟨true, (2, 2)⟩, ⟨true, (3, 3)⟩, ⟨true, (4, 5)⟩, ⟨true, (6, 10)⟩] := by decide +kernel
/-- One level would not be enough: a range's end makes a single value a cell, which needs a literal. -/
example : asks 0 10 1 [.range 2 5, .eq 4] {} = .error .ub := by decide +kernel

/-- What is known, by unit propagation, when the variable is not from 2 to 5 and not 8: everything inside is false. -/
def known (I : Ivl) : Option Bool := if (2 ≤ I.1 ∧ I.2 ≤ 5) ∨ I = (8, 8) then some false else none
/-- One unit propagation step, for checking that there are none left. -/
def done (a : Ivl → Option Bool) (c : Clause) : Bool :=
  (List.range c.length).all fun i => !((c.eraseIdx i).all fun m => a m.ivl = some (!m.pos)) || (c[i]?.all fun l => a l.ivl = some l.pos)
theorem settled_of_done {cs : List Clause} {a : Ivl → Option Bool} (h : cs.all (done a) = true) : Settled cs a := by
  rintro c hc p l q rfl all
  have := List.all_eq_true.1 (List.all_eq_true.1 h _ hc) p.length (by simp)
  simp only [Bool.or_eq_true, Bool.not_eq_true', List.all_eq_false, List.getElem?_append_right (Nat.le_refl _)] at this
  rcases this with ⟨m, hm, k⟩ | k
  · rw [List.eraseIdx_append_of_length_le (Nat.le_refl _)] at hm
    simp only [Nat.sub_self, List.eraseIdx_cons_zero] at hm
    exact absurd (decide_eq_true (show a m.ivl = some (!m.pos) from all m hm)) k
  · simpa [Lit.In] using k
example : Settled state.clauses known := settled_of_done (by decide +kernel)
/-- Knowing only that the variable is not from 2 to 5, there is more to propagate: it is not 3. -/
example : ¬ Settled state.clauses fun I => if I = (2, 5) then some false else none := by
  intro h
  have := h.edge (i := (3, 3)) (j := (2, 5)) (by decide +kernel) rfl
  simp at this

end RangeLiteralsDemo
end Gcs
