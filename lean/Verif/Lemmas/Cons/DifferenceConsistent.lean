import Verif.Lemmas.Cons.DifferenceInstall

/-!
# What one call of the propagator of DifferenceConstraints achieves
-/

namespace Gcs.Difference

section
variable {σ μ : Type} {J : Job} {nodes : List Nat} {d d1 d2 d3 : Doms} {g : Graph} {L U : Nat → Int}

/-- The assignment that is `f` for nodes, and `a` otherwise. -/
def spread (nodes : List Nat) (f : Nat → Int) (a : Asg) : Asg := fun i => if i ∈ nodes then f (nodes.idxOf i) else a i

theorem spread_node (hn : nodes.Nodup) {f : Nat → Int} {a : Asg} {v : Nat} (hv : v < nodes.length) : nodeVal nodes (spread nodes f a) v = f v := by
  simp [nodeVal, List.getElem?_eq_getElem hv, spread, hn.idxOf_getElem v hv]

/-- What the two passes together leave. -/
theorem spread_within (hn : nodes.Nodup) (hc : Conv nodes d1) {arcs : List Arc} {act : List Nat} (hL : Passed .lower nodes arcs act d1 d2 L) (hU : Passed .upper nodes arcs act d2 d3 U)
    {f : Nat → Int} (hf : ∀ v < nodes.length, L v ≤ f v ∧ f v ≤ - U v) {a : Asg} (ha : Within d3 a) : Within d3 (spread nodes f a) := by
  have a2 := ((hU.within a).1 ha).1
  have a1 := ((hL.within a).1 a2).1
  obtain ⟨b, hb, hb'⟩ := hL.above
  obtain ⟨c, hc2, hc'⟩ := hU.above
  have c1 := ((hL.within c).1 hc2).1
  have mix : ∀ {b : Asg}, Within d1 b → Within d1 (fun i => if i ∈ nodes then b i else a i) := fun {b} hb i s hi => by
    show IntervalSet.Mem (if i ∈ nodes then b i else a i) s
    split
    · exact hb i s hi
    · exact a1 i s hi
  have in1 : Within d1 (spread nodes f a) := by
    refine hc _ _ _ (mix hb) (mix c1) fun i => ?_
    by_cases hi : i ∈ nodes
    · refine .inl ⟨hi, ?_⟩
      simp only [spread, if_pos hi]
      have hv := List.idxOf_lt_length_of_mem hi
      have e : nodes[nodes.idxOf i] = i := by simp
      have e1 : ∀ x : Asg, nodeVal nodes x (nodes.idxOf i) = x i := fun x => by simp only [nodeVal, List.getElem?_eq_getElem hv]; rw [e]; rfl
      have k1 := hb' _ hv
      have k2 := hc' _ hv
      rw [e1] at k1 k2
      have k3 := hf _ hv
      simp only [Dir.sg] at k1 k2
      omega
    · right; simp [spread, hi]
  refine (hU.within _).2 ⟨(hL.within _).2 ⟨in1, fun v hv => ?_⟩, fun v hv => ?_⟩ <;> rw [spread_node hn hv] <;> have := hf v hv <;> simp only [Dir.sg] <;> omega

/-- Without holes, every value that is left after one call is part of something that satisfies all edges that were active. -/
theorem ver_prop_consistent {B : Nat} (ho : J.R .overflow) (hd : DomsOK d) (hl : d.length = J.n) (hg : g.OK J.n) (hB : Live B g.nodes.length g.arcs) (hn : g.nodes.Nodup) (hc : Conv g.nodes d) (hs : ∀ a, Within d a → J.C a → g.Main a) :
    (propWith B g : Prog σ μ PState).Ver J (fun _ => True) (fun _ d' => ∀ v y, (∃ a, Within d' a ∧ a v = y) → ∃ a, Within d' a ∧ a v = y ∧
      (∀ e ∈ g.arcs, Sure d e.cond → e.Sat g.nodes a) ∧ ∀ b ∈ g.bounds, Sure d b.cond → b.Sat g.nodes a) d := by
  refine ver_seq (S := fun _ => False) hd hl (fun _ h => h) (ver_statics ho hd hl hg.nodes hg.bounds fun a ha hC => (hs a ha hC).2) ?_
  rintro _ d1 hd1 hl1 - ⟨h1, h2, h2'⟩
  refine ver_ask (f := (activeFrom · 0 g.arcs)) ho (activeFrom_roo hd1 g.arcs 0 fun e he => hl1.symm ▸ hg.arcConds e he) fun act hact => ?_
  have sure : ∀ j ∈ act, ∃ e, g.arcs[j]? = some e ∧ Sure d1 e.cond := fun j hj => by
    obtain ⟨k, e, e1, e2, e3⟩ := (hact j).1 hj
    exact ⟨e, by rw [e1, Nat.zero_add]; exact e2, e3⟩
  have he : ∀ j ∈ act, j < g.arcs.length := fun j hj => by
    obtain ⟨e, e1, -⟩ := sure j hj
    exact (List.getElem?_eq_some_iff.1 e1).1
  have sat : ∀ a, Within d1 a → J.C a → AllSat g.nodes g.arcs act a := fun a ha hC j hj x hx => by
    obtain ⟨e, e1, e2⟩ := sure j hj
    rw [hx] at e1; cases e1
    exact (hs a (h1 a ha) hC).1 x (List.mem_of_getElem? hx) (e2 a ha)
  refine ver_seq (S := fun _ => False) hd1 hl1 (fun _ h => h) (ver_pass (dir := .lower) ho hd1 hl1 hg.arcs hB he hg.nodes sat) ?_
  rintro _ d2 hd2 hl2 s2 ⟨L, hL⟩
  refine ver_seq (S := fun _ => False) hd2 hl2 (fun _ h => h) (ver_pass (dir := .upper) ho hd2 hl2 hg.arcs hB he hg.nodes fun a ha => sat a (s2 a ha)) ?_
  rintro _ d3 hd3 hl3 s3 ⟨U, hU⟩
  rintro v y ⟨a, ha, hy⟩
  have lo : ∀ w < g.nodes.length, L w ≤ nodeVal g.nodes a w := fun w hw => by have := ((hL.within a).1 (s3 a ha)).2 w hw; simp only [Dir.sg] at this; omega
  have hi : ∀ w < g.nodes.length, nodeVal g.nodes a w ≤ - U w := fun w hw => by have := ((hU.within a).1 ha).2 w hw; simp only [Dir.sg] at this; omega
  -- everything is moved up from its lower bound by the same amount
  obtain ⟨t, ht, hvt⟩ : ∃ t : Int, 0 ≤ t ∧ (v ∈ g.nodes → L (g.nodes.idxOf v) + t = y ∧ y ≤ - U (g.nodes.idxOf v)) := by
    by_cases hv : v ∈ g.nodes
    · have hv' := List.idxOf_lt_length_of_mem hv
      have e : g.nodes[g.nodes.idxOf v] = v := by simp
      have e1 : nodeVal g.nodes a (g.nodes.idxOf v) = a v := by simp only [nodeVal, List.getElem?_eq_getElem hv']; rw [e]; rfl
      have k1 := lo _ hv'
      have k2 := hi _ hv'
      rw [e1, hy] at k1 k2
      exact ⟨y - L (g.nodes.idxOf v), by omega, fun _ => ⟨by omega, k2⟩⟩
    · exact ⟨0, by omega, fun h => absurd h hv⟩
  let f : Nat → Int := fun w => min (- U w) (L w + t)
  have hw := spread_within hn (h2' hc) hL hU (f := f) (fun w hw => by have := lo w hw; have := hi w hw; simp only [f]; omega) ha
  refine ⟨_, hw, ?_, fun e hm su => ?_, fun b hm su => h2 b hm su _ (s2 _ (s3 _ hw))⟩
  · unfold spread
    split
    · rename_i hv
      have := hvt hv
      simp only [f]; omega
    · exact hy
  · obtain ⟨k, hk⟩ := List.mem_iff_getElem?.1 hm
    have hka : k ∈ act := (hact k).2 ⟨k, e, by simp, hk, sure_sub su h1⟩
    have ok := hg.arcs e hm
    have k1 := hL.fix k hka e hk
    have k2 := hU.fix k hka e hk
    unfold Arc.Sat
    rw [spread_node hn ok.1, spread_node hn ok.2.1]
    simp only [Dir.tail, Dir.head] at k1 k2
    simp only [f]; omega

end
end Gcs.Difference
