import Verif.Lemmas.Cons.DifferenceRoot
import Verif.Props.Cons.Difference

/-!
# C69: DifferenceConstraints, simplified at the root
-/

namespace Gcs
section
variable {σ μ : Type} {n m : Nat} {es : List Difference.Edge}
open Difference

/-- Every edge whose condition holds, or that has none, is satisfied. -/
def EdgesHold (es : List Edge) (a : Asg) : Prop := ∀ e ∈ es, (∀ c, e.cond = some c → (Lit.cond c).holds a) → e.x.eval a - e.y.eval a ≤ e.d

/-- What a propagation function for the edges has to do, wherever the search has got to from the domains `d`. -/
structure Propagates (n m : Nat) (es : List Edge) (d : Doms) (f : Prog σ μ PState) : Prop where
  /-- Nothing but an overflow is thrown. -/
  safe : ∀ (c : Ctx) (t : Sys σ μ) (err : Err), Runnable n m t → (∀ a, Within t.doms a → Within d a) → runProg c f t = .error err → err = .overflow
  /-- No solution is lost. -/
  keeps : ∀ (c : Ctx) (t t' : Sys σ μ) (r : Res PState), Runnable n m t → (∀ a, Within t.doms a → Within d a) → runProg c f t = .ok (r, t') → ∀ a, Within t.doms a → EdgesHold es a → ¬ Failed r t' ∧ Within t'.doms a
  /-- If everything is fixed, it fails unless all edges hold. -/
  checks : ∀ (c : Ctx) (t t' : Sys σ μ) (r : Res PState), Runnable n m t → (∀ a, Within t.doms a → Within d a) → runProg c f t = .ok (r, t') → ¬ Failed r t' →
    (∀ e ∈ es, ∀ i, (e.x.underlyingIndex = some i ∨ e.y.underlyingIndex = some i ∨ ∃ c, e.cond = some c ∧ c.var.underlyingIndex = some i) → Fixed t.doms i) → ∀ a, Within t'.doms a → EdgesHold es a
  /-- If the operands' domains have no holes, every value that is left, of any variable, is part of an assignment within what is left that satisfies all edges whose conditions were true. -/
  consistent : ∀ (c : Ctx) (t t' : Sys σ μ) (r : Res PState), Runnable n m t → (∀ a, Within t.doms a → Within d a) → runProg c f t = .ok (r, t') → ¬ Failed r t' →
    (∀ e ∈ es, ∀ i, e.x.underlyingIndex = some i ∨ e.y.underlyingIndex = some i → ∀ S, t.doms[i]? = some S → ∀ x y z, IntervalSet.Mem x S → IntervalSet.Mem z S → x ≤ y → y ≤ z → IntervalSet.Mem y S) →
    ∀ (v : Nat) (y : Int), (∃ a, Within t'.doms a ∧ a v = y) → ∃ a, Within t'.doms a ∧ a v = y ∧ ∀ e ∈ es, (∀ c, e.cond = some c → ∀ b, Within t.doms b → (Lit.cond c).holds b) → e.x.eval a - e.y.eval a ≤ e.d

/-- The values satisfy all edges of the graph that have no condition, or one that is true. -/
def TrueHold (g : Graph) (d : Doms) (x : Nat → Int) : Prop := ∀ e ∈ g.arcs, (∀ a, Within d a → ∀ c, e.cond = some c → (Lit.cond c).holds a) → e.Holds x

/-- What the domains are when the initialiser with simplification has run, what it keeps of the graph, and the number of rounds. -/
structure RootDone (σ μ : Type) (n m : Nat) (es : List Edge) (g : Graph) (d : Doms) (r : Graph × Nat) : Prop where
  /-- Edges are only taken away, and rounds too. -/
  less : (∀ e ∈ r.1.arcs, e ∈ g.arcs) ∧ r.2 ≤ g.nodes.length
  /-- Edges whose conditions are true imply neither an edge whose condition is not known nor its negation, unless they cannot be satisfied. -/
  decided : (¬ ∃ x, TrueHold r.1 d x) ∨ ∀ e ∈ r.1.arcs, ∀ c, e.cond = some c → (¬ ∀ a, Within d a → (Lit.cond c).holds a) → (∃ x, TrueHold r.1 d x ∧ e.Holds x) ∧ ∃ x, TrueHold r.1 d x ∧ ¬ e.Holds x
  /-- The propagator, with what is left, is right about all the edges that were posted. -/
  propagates : Propagates (σ := σ) (μ := μ) n m es d (propWith r.2 r.1)

theorem rootDone_of {g : Graph} {d : Doms} {r : Graph × Nat} (hv : ∀ e ∈ es, e.Valid n) (hg : addEdges {} es = .ok g) (hg1 : g.refuted = false) (h : Rest n g d r) (hside : ∀ a, Within d a → g.Side a) : RootDone σ μ n m es g d r := by
  have hop : ∀ e ∈ es, operand e.x ≠ none ∧ operand e.y ≠ none := difference_consistent.addEdges_operands hg
  have e0 : ({} : Graph).OK n := ⟨by simp, fun a ha => by simp at ha, by simp, by simp, by simp⟩
  have built : ∀ {on : Option Cond → Asg → Prop}, (∀ a, on none a) → Difference.Built n on {} es g := fun h0 => (addEdges_roo h0 es e0 fun e he => ⟨hv e he, hop e he⟩).value hg
  have hb : Difference.Built n On {} es g := built fun a c hc => nomatch hc
  have iff : ∀ a, EdgesHold es a ↔ g.Main a ∧ g.Side a := fun a => by
    have := hb.means a
    rw [← Graph.means_iff, ← Graph.means_iff] at this
    have e0 : ({} : Graph).Means a := ⟨rfl, ⟨by simp, by simp⟩, by simp [Graph.Side]⟩
    constructor
    · intro h; exact (this.2 ⟨e0, h⟩).2
    · intro h; exact (this.1 ⟨hg1, h⟩).2
  have ver : ∀ t : Sys σ μ, Runnable n m t → _ := fun t ht => ver_facts _ _ ht.domsOK ht.domsLen
    (ver_prop (σ := σ) (μ := μ) (J := { n, m, R := (· = .overflow), C := EdgesHold es }) rfl ht.domsOK ht.domsLen h.ok h.live fun a _ hC => h.sub ((iff a).1 hC).1)
  refine ⟨⟨h.arcs, h.few⟩, h.tight.imp id fun k e he c hc hn => ?_, fun c t err ht _ he => ?_, fun c t t' q ht _ hr a ha hC => ?_, fun c t t' q ht hsub hr hf hfix a ha => ?_, fun c t t' q ht hsub hr hf hhole v y hy => ?_⟩
  · obtain ⟨k1, k2⟩ := k e he
    exact ⟨k1, k2 fun hs => hn fun a ha => hs a ha c hc⟩
  · rcases runProg_spec (np := c.owner + 1) c (Nat.lt_succ_self _) _ t ht (Ver.okAt _ _ (ver t ht)) with ⟨e, k1, k2⟩ | ⟨_, _, k, _⟩
    · rw [he] at k1; cases k1; simpa using k2
    · rw [he] at k; cases k
  · exact sound_run (np := c.owner + 1) c (Nat.lt_succ_self _) _ t (Ver.okAt _ _ (ver t ht)) (Ver.soundAt (J := { n, m, R := (· = .overflow), C := EdgesHold es }) hC _ _ (ver t ht) ha) ht ha _ _ hr
  · obtain ⟨_, _, ⟨_, _, s1⟩, _, hq⟩ := wp_run (np := c.owner + 1) c (Nat.lt_succ_self _) _ t (Ver.okAt _ _ (ver t ht)) (Ver.wp _ _ (ver t ht)) ht q t' hr hf
    have hw := hsub a (s1 a ha)
    have cond : ∀ c ∈ g.conds, Known t.doms c.var := fun c hc => Known.of_fixed fun i hi => by
      rcases hb.conds c hc with k | ⟨e, k1, k2⟩
      · simp [Graph.conds] at k
      · exact hfix e k1 i (.inr (.inr ⟨c, k2, hi⟩))
    refine (iff a).2 ⟨h.main hw (hq (fun i hi => Known.of_fixed fun v hv => ?_) (fun e he c hc => cond c ?_) (fun b hb' c hc => cond c ?_) a ha), hside a hw⟩
    · cases hv
      rw [h.nodes] at hi
      rcases hb.nodes i hi with k | ⟨e, k1, k2 | k2⟩
      · simp at k
      · exact hfix e k1 i (.inl k2)
      · exact hfix e k1 i (.inr (.inl k2))
    · exact List.mem_append_left _ (List.mem_append_left _ (List.mem_filterMap.2 ⟨e, h.arcs e he, hc⟩))
    · exact List.mem_append_left _ (List.mem_append_right _ (List.mem_filterMap.2 ⟨b, h.bounds ▸ hb', hc⟩))
  · have conv : Conv r.1.nodes t.doms := fun a b x ha hb' k i S hi => by
      rcases k i with ⟨k1, k2, k3⟩ | k
      · rw [h.nodes] at k1
        rcases hb.nodes i k1 with k | ⟨e, he, k⟩
        · simp at k
        · exact hhole e he i k S hi _ _ _ (ha i S hi) (hb' i S hi) k2 k3
      · rw [k]; exact ha i S hi
    have verc := ver_prop_consistent (σ := σ) (μ := μ) (J := { n, m, R := (· = .overflow), C := EdgesHold es }) rfl ht.domsOK ht.domsLen h.ok h.live (by rw [h.nodes]; exact hb.nodup (by simp)) conv fun a _ hC => h.sub ((iff a).1 hC).1
    obtain ⟨_, _, k⟩ := wp_run (np := c.owner + 1) c (Nat.lt_succ_self _) _ t (Ver.okAt _ _ verc) (Ver.wp _ _ verc) ht q t' hr hf
    obtain ⟨a, h1, h2, h3, h4⟩ := k v y hy
    obtain ⟨b, hb'⟩ := exists_within ht.domsOK
    have hs := built (on := fun cond _ => Sure t.doms cond) fun a b _ c hc => nomatch hc
    have := ((hs.means a).1 ⟨hg1, ⟨h.sure ht.domsOK hsub h3, fun z hz hsu => by rw [← h.nodes]; exact h4 z (h.bounds.symm ▸ hz) hsu⟩, fun c hm hs => hside b (hsub b hb') c hm (hs b hb' c rfl)⟩).2
    exact ⟨a, h1, h2, fun e he hcond => this e he fun b hb c hc => hcond c hc b hb⟩

/-- C69: the initialiser of `DifferenceConstraints`, which simplifies the graph unless it is told not to, throws nothing but an overflow (so witnesses pass its checks, and its loop ends), and loses no solution. If it does not fail
then the propagator, using only the edges it has kept and no more rounds than there are nodes left, is right for everything that was posted, and as strong as with all the edges, in every state the search can get to. What is missing:
incremental propagation, which is on by default. -/
theorem difference_root_partial {c : Ctx} {s : Sys σ μ} {g : Graph} (hv : ∀ e ∈ es, e.x.Valid n ∧ e.y.Valid n ∧ InI64 e.d ∧ ∀ c, e.cond = some c → (Lit.cond c).Fine n) (hg : addEdges {} es = .ok g) (hg1 : g.refuted = false)
    (hs : Runnable n m s) :
    match runProg c (startRoot g) s with
    | .error err => err = .overflow
    | .ok (r, s') => (∀ a, Within s.doms a → EdgesHold es a → ¬ Failed r s' ∧ Within s'.doms a) ∧
      (¬ Failed r s' → (∀ a, Within s'.doms a → Within s.doms a) ∧ ∃ v, r = .val v ∧ RootDone σ μ n m es g s'.doms v) := by
  have hop : ∀ e ∈ es, operand e.x ≠ none ∧ operand e.y ≠ none := difference_consistent.addEdges_operands hg
  have e0 : ({} : Graph).OK n := ⟨by simp, fun a ha => by simp at ha, by simp, by simp, by simp⟩
  have hb : Difference.Built n On {} es g := (addEdges_roo (fun a c hc => nomatch hc) es e0 fun e he => ⟨hv e he, hop e he⟩).value hg
  have to : ∀ a, EdgesHold es a → g.Main a ∧ g.Side a := fun a hC => by
    have := hb.means a
    rw [← Graph.means_iff, ← Graph.means_iff] at this
    exact (this.2 ⟨⟨rfl, ⟨by simp, by simp⟩, by simp [Graph.Side]⟩, hC⟩).2
  have ver := ver_facts _ _ hs.domsOK hs.domsLen (ver_startRoot (σ := σ) (μ := μ) (J := { n, m, R := (· = .overflow), C := EdgesHold es }) rfl hs.domsOK hs.domsLen hb.ok fun a _ hC => to a hC)
  cases h : runProg c (startRoot g) s with
  | error err =>
    rcases runProg_spec (np := c.owner + 1) c (Nat.lt_succ_self _) _ s hs (Ver.okAt _ _ ver) with ⟨e, k1, k2⟩ | ⟨_, _, k, _⟩
    · rw [h] at k1; cases k1; simpa using k2
    · rw [h] at k; cases k
  | ok x =>
    obtain ⟨r, s'⟩ := x
    refine ⟨fun a ha hC => sound_run (np := c.owner + 1) c (Nat.lt_succ_self _) _ s (Ver.okAt _ _ ver) (Ver.soundAt (J := { n, m, R := (· = .overflow), C := EdgesHold es }) hC _ _ ver ha) hs ha _ _ h, fun hf => ?_⟩
    obtain ⟨v, k1, ⟨_, _, k2⟩, k3, k4⟩ := wp_run (np := c.owner + 1) c (Nat.lt_succ_self _) _ s (Ver.okAt _ _ ver) (Ver.wp _ _ ver) hs r s' h hf
    exact ⟨k2, v, k1, rootDone_of hv hg hg1 k3 k4⟩

end

namespace Difference.RootDemo

/-- `x + 2 <= y`, `y + 3 <= z`, and so `x + 1 <= z`; `z - x <= 4` and `w - x <= 3` if `b = 1`, `x + 7 <= y` if `b = 0`, and `y - x <= 6` if `c = 1`. -/
def edges : List Edge :=
  [⟨.simple 0, .simple 1, -2, none⟩, ⟨.simple 1, .simple 2, -3, none⟩, ⟨.simple 0, .simple 2, -1, none⟩, ⟨.simple 2, .simple 0, 4, some (Cond.eq (.simple 4) 1)⟩, ⟨.simple 3, .simple 0, 3, some (Cond.eq (.simple 4) 1)⟩,
    ⟨.simple 0, .simple 1, -7, some (Cond.eq (.simple 4) 0)⟩, ⟨.simple 1, .simple 0, 6, some (Cond.eq (.simple 5) 1)⟩]
def graph : Graph :=
  { nodes := [0, 1, 2, 3], arcs := [⟨0, 1, -2, none⟩, ⟨1, 2, -3, none⟩, ⟨0, 2, -1, none⟩, ⟨2, 0, 4, some (Cond.eq (.simple 4) 1)⟩, ⟨3, 0, 3, some (Cond.eq (.simple 4) 1)⟩, ⟨0, 1, -7, some (Cond.eq (.simple 4) 0)⟩, ⟨1, 0, 6, some (Cond.eq (.simple 5) 1)⟩] }
def root : Doms := [[(0, 20)], [(0, 20)], [(0, 20)], [(0, 20)], [(0, 1)], [(0, 1)]]
def start0 : Sys Unit Unit := Sys.start root [] () (Run.setup root []).watches

example : addEdges {} edges = .ok graph := by decide +kernel

/-- In the first round `b = 1` is found to be impossible, and therefore `c = 1` in the second. Two edges and three nodes are left. -/
example : (runProg ⟨0, []⟩ (startRoot (σ := Unit) (μ := Unit) graph) start0).toOption.map (fun p => (p.1, p.2.doms, p.2.tr.contradicted)) =
    some (.val ({ graph with arcs := [⟨1, 2, -3, none⟩, ⟨0, 1, -7, some (Cond.eq (.simple 4) 0)⟩] }, 3), [[(0, 20)], [(0, 20)], [(0, 20)], [(0, 20)], [(0, 0)], [(0, 0)]], false) := by decide +kernel

/-- The theorem applies to it. -/
theorem edges_valid : ∀ e ∈ edges, e.x.Valid 6 ∧ e.y.Valid 6 ∧ InI64 e.d ∧ ∀ c, e.cond = some c → (Lit.cond c).Fine 6 := by
  intro e he
  simp only [edges, List.mem_cons, List.not_mem_nil, or_false] at he
  rcases he with rfl | rfl | rfl | rfl | rfl | rfl | rfl <;> refine ⟨by decide, by decide, by decide, fun c hc => ?_⟩ <;> cases hc <;> exact ⟨by decide, by decide⟩
example {r : Res (Graph × Nat)} {s' : Sys Unit Unit} (h : runProg ⟨0, []⟩ (startRoot graph) start0 = .ok (r, s')) (hf : ¬ Failed r s') : ∃ v, r = .val v ∧ RootDone Unit Unit 6 0 edges graph s'.doms v := by
  have := difference_root_partial (n := 6) (m := 0) (c := ⟨0, []⟩) (s := start0) (g := graph) edges_valid (by decide +kernel) rfl ⟨by decide +kernel, rfl, by simp [start0, Sys.start], rfl, rfl⟩
  rw [h] at this
  exact (this.2 hf).2

/-- With what is left, one call pushes all bounds. -/
example : (runProg ⟨0, []⟩ (propWith (σ := Unit) (μ := Unit) 3 { graph with arcs := [⟨1, 2, -3, none⟩, ⟨0, 1, -7, some (Cond.eq (.simple 4) 0)⟩] })
    (Sys.start [[(0, 20)], [(0, 20)], [(0, 20)], [(0, 20)], [(0, 0)], [(0, 0)]] [] () (Run.setup root []).watches)).toOption.map (fun p => (p.1, p.2.doms, p.2.tr.contradicted)) =
    some (.val .enable, [[(0, 10)], [(7, 17)], [(10, 20)], [(0, 20)], [(0, 0)], [(0, 0)]], false) := by decide +kernel

/-- Conditions that exclude each other, both impossible: the initialiser fails. -/
example : (runProg ⟨0, []⟩ (startRoot (σ := Unit) (μ := Unit) { nodes := [0, 1], arcs := [⟨0, 1, -2, none⟩, ⟨1, 0, 1, some (Cond.eq (.simple 2) 1)⟩, ⟨1, 0, 0, some (Cond.eq (.simple 2) 0)⟩] })
    (Sys.start [[(0, 9)], [(0, 9)], [(0, 1)]] [] () (Run.setup root []).watches)).toOption.map (fun p => (p.1, p.2.tr.contradicted)) = some (.failed, true) := by decide +kernel

end Difference.RootDemo
end Gcs
