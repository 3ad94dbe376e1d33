import Verif.Lemmas.Cons.DifferenceConsistent
import Verif.Props.Cons.Run

/-!
# C67: DifferenceConstraints
-/

namespace Gcs
section
variable {σ μ : Type} {n m : Nat} {R : Err → Prop} {root : Doms} {es : List Difference.Edge}
open Difference

/-- C67: `DifferenceConstraints(edges)`, propagated from scratch and without simplification, is right: each edge whose condition holds, or that has none, is satisfied; whatever is repeated, and whatever conditions are
about. Nothing but an overflow is thrown while it is propagated: in particular, from whatever bounds Bellman-Ford improves in its last round, a cycle is found, and it is negative. Posting throws only if something is not a
64-bit integer, or an operand is a negated view. What is missing: simplification at the root and incremental propagation, both of which are on by default. -/
theorem difference_right_partial (ho : R .overflow) (hv : ∀ e ∈ es, e.x.Valid n ∧ e.y.Valid n ∧ InI64 e.d ∧ ∀ c, e.cond = some c → (Lit.cond c).Fine n) :
    (Posted.mk (install (σ := σ) (μ := μ) es) (fun a => ∀ e ∈ es, (∀ c, e.cond = some c → (Lit.cond c).holds a) → e.x.eval a - e.y.eval a ≤ e.d)
      (es.flatMap fun e => [e.x, e.y] ++ (e.cond.map (·.var)).toList)).Right n m R root
      (fun err => err = .overflow ∨ (err = .invalidProblem ∧ ∃ e ∈ es, ∃ i k, e.x = .view i true k ∨ e.y = .view i true k)) := by
  have key := install_right (σ := σ) (μ := μ) (m := m) (root := root) ho hv
  refine ⟨fun items h => key.1 items h, fun err h => ?_⟩
  rcases key.2 err h with k | ⟨k, e, he, k'⟩
  · exact .inl k
  · refine .inr ⟨k, e, he, ?_⟩
    rcases k' with k' | k'
    · obtain ⟨i, j, e⟩ := operand_none.1 k'
      exact ⟨i, j, .inl e⟩
    · obtain ⟨i, j, e⟩ := operand_none.1 k'
      exact ⟨i, j, .inr e⟩

/-- C67: a negated view is always refused. -/
theorem difference_refuses (h : ∃ e ∈ es, ∃ i k, e.x = .view i true k ∨ e.y = .view i true k) : install (σ := σ) (μ := μ) es root = .error .invalidProblem := by
  obtain ⟨e, he, i, k, h⟩ := h
  unfold install
  rcases checkOperands_eq es with ⟨_, h2⟩ | ⟨h1, _⟩
  · have := h2 e he
    rcases h with h | h
    · exact absurd (operand_none.2 ⟨i, k, h⟩) this.1
    · exact absurd (operand_none.2 ⟨i, k, h⟩) this.2
  · rw [h1]; rfl

/-- C67: what one call of the propagator achieves, if the domains of the operands have no holes and the initialiser has already been run (so conditions of edges that can never hold are false): if it does not fail, then every value
that is left, of any variable, is part of an assignment within what is left that satisfies all edges whose conditions were true before the call. So all bounds the system implies are pushed at once, and a system that cannot be
satisfied is refuted at once. -/
theorem difference_consistent {c : Ctx} {s s' : Sys σ μ} {r : Res PState} {g : Graph} (hv : ∀ e ∈ es, e.x.Valid n ∧ e.y.Valid n ∧ InI64 e.d ∧ ∀ c, e.cond = some c → (Lit.cond c).Fine n)
    (hg : addEdges {} es = .ok g) (hg1 : g.refuted = false) (hg2 : ∀ c ∈ g.disallowed, ∀ a, Within s.doms a → ¬ (Lit.cond c).holds a) (hs : Runnable n m s)
    (hc : ∀ e ∈ es, ∀ i, e.x.underlyingIndex = some i ∨ e.y.underlyingIndex = some i → ∀ S, s.doms[i]? = some S → ∀ x y z, IntervalSet.Mem x S → IntervalSet.Mem z S → x ≤ y → y ≤ z → IntervalSet.Mem y S)
    (hr : runProg c (prop g) s = .ok (r, s')) (hf : ¬ Failed r s') (v : Nat) (y : Int) (hy : ∃ a, Within s'.doms a ∧ a v = y) :
    ∃ a, Within s'.doms a ∧ a v = y ∧ ∀ e ∈ es, (∀ c, e.cond = some c → ∀ b, Within s.doms b → (Lit.cond c).holds b) → e.x.eval a - e.y.eval a ≤ e.d := by
  have hop : ∀ e ∈ es, operand e.x ≠ none ∧ operand e.y ≠ none := addEdges_operands hg
  have e0 : ({} : Graph).OK n := ⟨by simp, fun a ha => by simp at ha, by simp, by simp, by simp⟩
  have hb := (addEdges_roo (on := fun cond _ => Sure s.doms cond) (fun a b _ c hc => nomatch hc) es e0 fun e he => ⟨hv e he, hop e he⟩).value hg
  have conv : Conv g.nodes s.doms := fun a b x ha hb' h i S hi => by
    rcases h i with ⟨k1, k2, k3⟩ | k
    · rcases hb.nodes i k1 with k | ⟨e, he, k⟩
      · simp at k
      · exact hc e he i k S hi _ _ _ (ha i S hi) (hb' i S hi) k2 k3
    · rw [k]; exact ha i S hi
  have ver := ver_prop_consistent (σ := σ) (μ := μ) (J := { n, m, R := (· = .overflow), C := g.Main }) rfl hs.domsOK hs.domsLen hb.ok hb.ok.live (hb.nodup (by simp)) conv fun a _ h => h
  obtain ⟨_, _, h⟩ := wp_run (np := c.owner + 1) c (Nat.lt_succ_self _) _ s (Ver.okAt _ _ ver) (Ver.wp _ _ ver) hs r s' hr hf
  obtain ⟨a, h1, h2, h3, h4⟩ := h v y hy
  obtain ⟨b, hb'⟩ := exists_within hs.domsOK
  have := ((hb.means a).1 ⟨hg1, ⟨h3, h4⟩, fun c hm hs => hg2 c hm b hb' (hs b hb' c rfl)⟩).2
  exact ⟨a, h1, h2, fun e he hcond => this e he fun b hb c hc => hcond c hc b hb⟩
where
  addEdges_operands : ∀ {es : List Edge} {g g' : Graph}, addEdges g es = .ok g' → ∀ e ∈ es, operand e.x ≠ none ∧ operand e.y ≠ none
    | [], _, _, _, e, he => by cases he
    | e :: es, g, g', h, f, hf => by
      simp only [addEdges] at h
      cases h1 : addEdge g e with
      | error err => rw [h1] at h; cases h
      | ok g1 =>
        rw [h1] at h
        rcases List.mem_cons.1 hf with rfl | hf
        · cases ex : operand f.x with
          | none => simp only [addEdge, operandOrThrow, ex] at h1; cases h1
          | some l =>
            cases ey : operand f.y with
            | none => simp only [addEdge, operandOrThrow, ex, ey] at h1; cases h1
            | some r => simp
        · exact addEdges_operands h f hf

end

namespace Difference.Demo

/-- `y` is at least `x + 2`; if `b` is 1, `z` is at least `y + 3`; and `z` is at most `(x + 1) + 5`, and at most 8. -/
def root : Doms := [[(0, 9)], [(0, 4), (6, 9)], [(0, 9)], [(0, 1)]]
def edges : List Edge := [⟨.simple 0, .simple 1, -2, none⟩, ⟨.simple 1, .simple 2, -3, some (Cond.eq (.simple 3) 1)⟩, ⟨.simple 2, .view 0 false 1, 5, none⟩, ⟨.simple 2, .const 1, 7, none⟩]

theorem edges_valid : ∀ e ∈ edges, e.x.Valid 4 ∧ e.y.Valid 4 ∧ InI64 e.d ∧ ∀ c, e.cond = some c → (Lit.cond c).Fine 4 := by
  intro e he
  simp only [edges, List.mem_cons, List.not_mem_nil, or_false] at he
  rcases he with rfl | rfl | rfl | rfl <;> refine ⟨by decide, by decide, by decide, fun c hc => ?_⟩ <;> cases hc
  exact ⟨by decide, by decide⟩
example : (Posted.mk (install (σ := Unit) (μ := Unit) edges) (fun a => ∀ e ∈ edges, (∀ c, e.cond = some c → (Lit.cond c).holds a) → e.x.eval a - e.y.eval a ≤ e.d)
    (edges.flatMap fun e => [e.x, e.y] ++ (e.cond.map (·.var)).toList)).Right 4 0 (· = .overflow) root
      (fun err => err = .overflow ∨ (err = .invalidProblem ∧ ∃ e ∈ edges, ∃ i k, e.x = .view i true k ∨ e.y = .view i true k)) :=
  difference_right_partial (R := (· = .overflow)) (root := root) (es := edges) rfl edges_valid

/-- It is accepted, and becomes this graph. -/
example : (install (σ := Unit) (μ := Unit) edges root).map List.length = .ok 2 := by decide +kernel
example : addEdges {} edges = .ok { nodes := [0, 1, 2], arcs := [⟨0, 1, -2, none⟩, ⟨1, 2, -3, some (Cond.eq (.simple 3) 1)⟩, ⟨2, 0, 6, none⟩], bounds := [⟨2, 8, false, none⟩] } := by decide +kernel

/-- One call pushes everything: `b` is 1, so `x` is at most 3 and `y` at least 2 and at most 5, which it cannot be because of the hole; and `z` is at least 5. -/
example : (runProg ⟨0, []⟩ (prop (σ := Unit) (μ := Unit) { nodes := [0, 1, 2], arcs := [⟨0, 1, -2, none⟩, ⟨1, 2, -3, some (Cond.eq (.simple 3) 1)⟩, ⟨2, 0, 6, none⟩], bounds := [⟨2, 8, false, none⟩] })
    (Sys.start [[(0, 9)], [(0, 4), (6, 9)], [(0, 9)], [(1, 1)]] [] () (Run.setup root []).watches)).toOption.map (fun p => (p.1, p.2.doms, p.2.tr.contradicted)) =
    some (.val .enable, [[(0, 3)], [(2, 4)], [(5, 8)], [(1, 1)]], false) := by decide +kernel

/-- `difference_consistent` applies to such a call, without the hole: the value 3 of `x` is part of an assignment that satisfies all edges. -/
def graph : Graph := { nodes := [0, 1, 2], arcs := [⟨0, 1, -2, none⟩, ⟨1, 2, -3, some (Cond.eq (.simple 3) 1)⟩, ⟨2, 0, 6, none⟩], bounds := [⟨2, 8, false, none⟩] }
def full : Doms := [[(0, 9)], [(0, 9)], [(0, 9)], [(1, 1)]]
example : (runProg ⟨0, []⟩ (prop (σ := Unit) (μ := Unit) graph) (Sys.start full [] () (Run.setup full []).watches)).toOption.map (fun p => (p.1, p.2.doms, p.2.tr.contradicted)) =
    some (.val .enable, [[(0, 3)], [(2, 5)], [(5, 8)], [(1, 1)]], false) := by decide +kernel
theorem no_holes {l u x y z : Int} (hx : IntervalSet.Mem x [(l, u)]) (hz : IntervalSet.Mem z [(l, u)]) (h1 : x ≤ y) (h2 : y ≤ z) : IntervalSet.Mem y [(l, u)] := by
  simp only [IntervalSet.Mem, List.mem_singleton, exists_eq_left] at *
  omega
example {s' : Sys Unit Unit} {r : Res PState} (hr : runProg ⟨0, []⟩ (prop graph) (Sys.start full [] () (Run.setup full []).watches) = .ok (r, s')) (hf : ¬ Failed r s') (y : Int) (hy : ∃ a, Within s'.doms a ∧ a 0 = y) :
    ∃ a, Within s'.doms a ∧ a 0 = y ∧ ∀ e ∈ edges, (∀ c, e.cond = some c → ∀ b, Within full b → (Lit.cond c).holds b) → e.x.eval a - e.y.eval a ≤ e.d :=
  difference_consistent (n := 4) (m := 0) (s := Sys.start full [] () (Run.setup full []).watches) edges_valid (by decide +kernel) rfl (by simp [graph]) ⟨by decide +kernel, rfl, by simp [Sys.start], rfl, rfl⟩
    (fun e _ i _ S hS x y z => by
      have hS : full[i]? = some S := hS
      match i with
      | 0 => cases hS; exact no_holes
      | 1 => cases hS; exact no_holes
      | 2 => cases hS; exact no_holes
      | 3 => cases hS; exact no_holes
      | i + 4 => simp [full] at hS) hr hf 0 y hy

/-- The solutions of a small one, with the same edge reversed if a condition does not hold. -/
example : Run.run [[(0, 2)], [(0, 2)], [(0, 1)]] [install (μ := Unit) [⟨.simple 0, .simple 1, -2, some (Cond.eq (.simple 2) 1)⟩, ⟨.simple 1, .simple 0, -1, some (Cond.eq (.simple 2) 0)⟩, ⟨.const 1, .simple 1, 0, none⟩]] =
    some ([[[(2, 2)], [(1, 1)], [(0, 0)]], [[(0, 0)], [(2, 2)], [(1, 1)]]], true) := by decide +kernel

/-- A negative cycle of three edges, in wide domains, is refuted by one call. -/
example : (runProg ⟨0, []⟩ (prop (σ := Unit) (μ := Unit) { nodes := [0, 1, 2], arcs := [⟨0, 1, -2, none⟩, ⟨1, 2, -3, none⟩, ⟨2, 0, 4, none⟩] })
    (Sys.start [[(0, 1000)], [(0, 1000)], [(0, 1000)]] [] () (Run.setup root []).watches)).toOption.map (fun p => p.2.doms) =
    some [[(0, 1000)], [(0, 1000)], [(0, 1000)]] := by decide +kernel
example : Run.run [[(0, 1000)], [(0, 1000)], [(0, 1000)]] [install (μ := Unit) [⟨.simple 0, .simple 1, -2, none⟩, ⟨.simple 1, .simple 2, -3, none⟩, ⟨.simple 2, .simple 0, 4, none⟩]] = some ([], true) := by decide +kernel

/-- Edges from something to itself: `x - (x + 1) <= -2` never holds, so its condition does not either, or there are no solutions. -/
example : Run.run [[(0, 1)], [(0, 1)]] [install (μ := Unit) [⟨.simple 0, .view 0 false 1, -2, some (Cond.eq (.simple 1) 1)⟩, ⟨.const 3, .const 1, 2, none⟩]] = some ([[[(0, 0)], [(0, 0)]], [[(1, 1)], [(0, 0)]]], true) := by decide +kernel
example : Run.run [[(0, 1)], [(0, 1)]] [install (μ := Unit) [⟨.simple 0, .view 0 false 1, -2, none⟩]] = some ([], true) := by decide +kernel

/-- A negated view is refused. -/
example : (install (σ := Unit) (μ := Unit) [⟨.simple 0, .view 1 true 3, 2, none⟩] root).map List.length = .error .invalidProblem := by decide +kernel
example : install (σ := Unit) (μ := Unit) [⟨.simple 0, .view 1 true 3, 2, none⟩] root = .error .invalidProblem := difference_refuses ⟨_, List.mem_singleton.2 rfl, 1, 3, .inr rfl⟩

end Difference.Demo
end Gcs
