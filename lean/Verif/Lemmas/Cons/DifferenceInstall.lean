import Verif.Lemmas.Cons.DifferenceProp
import Verif.Lemmas.Posts

/-!
# From edges to the graph, and posting DifferenceConstraints
-/

namespace Gcs.Difference

/-- What an edge says. -/
def Edge.Holds (e : Edge) (a : Asg) : Prop := (∀ c, e.cond = some c → (Lit.cond c).holds a) → e.x.eval a - e.y.eval a ≤ e.d

/-- An edge the code can be given. -/
def Edge.Valid (n : Nat) (e : Edge) : Prop := e.x.Valid n ∧ e.y.Valid n ∧ InI64 e.d ∧ CondOK n e.cond

def Graph.Means (g : Graph) (a : Asg) : Prop := g.refuted = false ∧ g.Main a ∧ g.Side a

/-- The same, where something else says which conditions count. -/
def Graph.MeansIf (on : Option Cond → Asg → Prop) (g : Graph) (a : Asg) : Prop :=
  g.refuted = false ∧ ((∀ e ∈ g.arcs, on e.cond a → e.Sat g.nodes a) ∧ ∀ b ∈ g.bounds, on b.cond a → b.Sat g.nodes a) ∧ ∀ c ∈ g.disallowed, ¬ on (some c) a

theorem Graph.means_iff {g : Graph} {a : Asg} : g.Means a ↔ g.MeansIf On a := by
  have : ∀ c, On (some c) a ↔ (Lit.cond c).holds a := fun c => ⟨fun h => h c rfl, fun h c' e => by cases e; exact h⟩
  unfold Graph.Means Graph.MeansIf Graph.Main Graph.Side
  simp only [this]

section
variable {σ μ : Type} {n m : Nat} {R : Err → Prop} {root : Doms} {g : Graph} {on : Option Cond → Asg → Prop}

theorem operand_some {v : VarId} {r : Option Nat × Int} (h : operand v = some r) (hv : v.Valid n) :
    InI64 r.2 ∧ (∀ i, r.1 = some i → i < n ∧ v.underlyingIndex = some i ∧ ∀ a, v.eval a = a i + r.2) ∧ (r.1 = none → ∀ a, v.eval a = r.2) := by
  cases v with
  | simple i =>
    cases h
    exact ⟨show InI64 0 by decide, fun j hj => by cases hj; exact ⟨hv, rfl, fun a => by show a i = a i + 0; omega⟩, fun h => nomatch h⟩
  | const k =>
    cases h
    exact ⟨hv, fun j hj => (nomatch hj), fun _ a => rfl⟩
  | view i neg add =>
    cases neg with
    | true => simp [operand] at h
    | false =>
      simp only [operand] at h
      cases h
      exact ⟨hv.2, fun j hj => by cases hj; exact ⟨hv.1, rfl, fun a => rfl⟩, fun h => nomatch h⟩

theorem operand_none {v : VarId} : operand v = none ↔ ∃ i k, v = .view i true k := by
  cases v with
  | simple i => simp [operand]
  | const k => simp [operand]
  | view i neg add => cases neg <;> simp [operand]

theorem nodeIndex_spec (ns : List Nat) (v : Nat) : (nodeIndex ns v).2[(nodeIndex ns v).1]? = some v ∧ (∃ ext, (nodeIndex ns v).2 = ns ++ ext) ∧ (ns.Nodup → (nodeIndex ns v).2.Nodup) ∧ ∀ x ∈ (nodeIndex ns v).2, x ∈ ns ∨ x = v := by
  unfold nodeIndex
  split
  · rename_i h
    exact ⟨by simp [List.getElem?_eq_getElem (List.idxOf_lt_length_of_mem h)], ⟨[], by simp⟩, id, fun x hx => .inl hx⟩
  · rename_i h
    exact ⟨by simp, ⟨[v], rfl⟩, fun hn => List.nodup_append.2 ⟨hn, by simp, fun a ha b hb => by
      have : b = v := by simpa using hb
      subst this
      exact fun e => h (e ▸ ha)⟩, fun x hx => by simpa using hx⟩

theorem nodeVal_ext {ns ext : List Nat} {a : Asg} {v : Nat} (h : v < ns.length) : nodeVal (ns ++ ext) a v = nodeVal ns a v := by
  simp only [nodeVal]; rw [List.getElem?_append_left h]

theorem nodeVal_at {ns : List Nat} {a : Asg} {v x : Nat} (h : ns[v]? = some x) : nodeVal ns a v = a x := by simp [nodeVal, h]

theorem ext_ok (hg : g.OK n) {ns ext : List Nat} (e : ns = g.nodes ++ ext) (hn : ∀ i ∈ ns, i < n) : ({ g with nodes := ns } : Graph).OK n ∧ ∀ a, ({ g with nodes := ns } : Graph).MeansIf on a ↔ g.MeansIf on a := by
  subst e
  refine ⟨⟨hn, fun x hx => ?_, hg.arcConds, fun b hb => ?_, hg.disallowed⟩, fun a => ?_⟩
  · have := hg.arcs x hx
    simp only [List.length_append]
    exact ⟨by omega, by omega, this.2.2⟩
  · have := hg.bounds b hb
    simp only [StaticOK, List.length_append]
    exact ⟨by have := this.1; omega, this.2⟩
  · have h1 : ∀ e ∈ g.arcs, (e.Sat (g.nodes ++ ext) a ↔ e.Sat g.nodes a) := fun e he => by
      have := hg.arcs e he
      unfold Arc.Sat; rw [nodeVal_ext this.1, nodeVal_ext this.2.1]
    have h2 : ∀ b ∈ g.bounds, (b.Sat (g.nodes ++ ext) a ↔ b.Sat g.nodes a) := fun b hb => by
      have := hg.bounds b hb
      unfold Static.Sat; rw [nodeVal_ext this.1]
    show (_ ∧ ((∀ e ∈ g.arcs, on e.cond a → e.Sat (g.nodes ++ ext) a) ∧ ∀ b ∈ g.bounds, on b.cond a → b.Sat (g.nodes ++ ext) a) ∧ _) ↔ _
    have k1 : (∀ e ∈ g.arcs, on e.cond a → e.Sat (g.nodes ++ ext) a) ↔ ∀ e ∈ g.arcs, on e.cond a → e.Sat g.nodes a :=
      ⟨fun h e he ho => (h1 e he).1 (h e he ho), fun h e he ho => (h1 e he).2 (h e he ho)⟩
    have k2 : (∀ b ∈ g.bounds, on b.cond a → b.Sat (g.nodes ++ ext) a) ↔ ∀ b ∈ g.bounds, on b.cond a → b.Sat g.nodes a :=
      ⟨fun h e he ho => (h2 e he).1 (h e he ho), fun h e he ho => (h2 e he).2 (h e he ho)⟩
    rw [k1, k2]; rfl

theorem arc_ok (hg : g.OK n) {x : Arc} (hx : x.src < g.nodes.length ∧ x.dst < g.nodes.length ∧ InI64 x.d) (hc : CondOK n x.cond) :
    ({ g with arcs := g.arcs ++ [x] } : Graph).OK n ∧ ∀ a, ({ g with arcs := g.arcs ++ [x] } : Graph).MeansIf on a ↔ g.MeansIf on a ∧ (on x.cond a → x.Sat g.nodes a) := by
  refine ⟨⟨hg.nodes, fun y hy => ?_, fun y hy => ?_, hg.bounds, hg.disallowed⟩, fun a => ?_⟩
  · rcases List.mem_append.1 hy with hy | hy
    · exact hg.arcs y hy
    · have : y = x := by simpa using hy
      subst this; exact hx
  · rcases List.mem_append.1 hy with hy | hy
    · exact hg.arcConds y hy
    · have : y = x := by simpa using hy
      subst this; exact hc
  · simp only [Graph.MeansIf, List.mem_append, List.mem_singleton]
    constructor
    · rintro ⟨h1, ⟨h2, h3⟩, h4⟩
      exact ⟨⟨h1, ⟨fun e he => h2 e (.inl he), h3⟩, h4⟩, h2 x (.inr rfl)⟩
    · rintro ⟨⟨h1, ⟨h2, h3⟩, h4⟩, h5⟩
      refine ⟨h1, ⟨fun e he => ?_, h3⟩, h4⟩
      rcases he with he | rfl
      · exact h2 e he
      · exact h5

theorem bound_ok (hg : g.OK n) {x : Static} (hx : StaticOK n g.nodes.length x) :
    ({ g with bounds := g.bounds ++ [x] } : Graph).OK n ∧ ∀ a, ({ g with bounds := g.bounds ++ [x] } : Graph).MeansIf on a ↔ g.MeansIf on a ∧ (on x.cond a → x.Sat g.nodes a) := by
  refine ⟨⟨hg.nodes, hg.arcs, hg.arcConds, fun y hy => ?_, hg.disallowed⟩, fun a => ?_⟩
  · rcases List.mem_append.1 hy with hy | hy
    · exact hg.bounds y hy
    · have : y = x := by simpa using hy
      subst this; exact hx
  · simp only [Graph.MeansIf, List.mem_append, List.mem_singleton]
    constructor
    · rintro ⟨h1, ⟨h2, h3⟩, h4⟩
      exact ⟨⟨h1, ⟨h2, fun e he => h3 e (.inl he)⟩, h4⟩, h3 x (.inr rfl)⟩
    · rintro ⟨⟨h1, ⟨h2, h3⟩, h4⟩, h5⟩
      refine ⟨h1, ⟨h2, fun e he => ?_⟩, h4⟩
      rcases he with he | rfl
      · exact h3 e he
      · exact h5

theorem degenerate_ok (h0 : ∀ a, on none a) (hg : g.OK n) {cond : Option Cond} {w : Int} (hc : CondOK n cond) :
    (degenerate g cond w).OK n ∧ (∀ a, (degenerate g cond w).MeansIf on a ↔ g.MeansIf on a ∧ (on cond a → 0 ≤ w)) ∧ (degenerate g cond w).nodes = g.nodes ∧ ∀ c ∈ (degenerate g cond w).conds, c ∈ g.conds ∨ cond = some c := by
  unfold degenerate
  split
  · rename_i h
    exact ⟨hg, fun a => ⟨fun k => ⟨k, fun _ => h⟩, fun k => k.1⟩, rfl, fun c hc => .inl hc⟩
  · rename_i h
    cases cond with
    | none =>
      refine ⟨⟨hg.nodes, hg.arcs, hg.arcConds, hg.bounds, hg.disallowed⟩, fun a => ⟨fun k => ?_, fun k => ?_⟩, rfl, fun c hc => .inl hc⟩
      · exact nomatch k.1
      · exact absurd (k.2 (h0 a)) h
    | some c =>
      refine ⟨⟨hg.nodes, hg.arcs, hg.arcConds, hg.bounds, fun c' hc' => ?_⟩, fun a => ?_, rfl, fun c' hc' => ?_⟩
      · rcases List.mem_append.1 hc' with hc' | hc'
        · exact hg.disallowed c' hc'
        · have : c' = c := by simpa using hc'
          subst this; exact hc c' rfl
      · have on' : (on (some c) a → 0 ≤ w) ↔ ¬ on (some c) a := ⟨fun k hh => h (k hh), fun k hon => absurd hon k⟩
        rw [on']
        simp only [Graph.MeansIf, List.mem_append, List.mem_singleton]
        constructor
        · rintro ⟨h1, h2, h4⟩
          exact ⟨⟨h1, h2, fun c' hc' => h4 c' (.inl hc')⟩, h4 c (.inr rfl)⟩
        · rintro ⟨⟨h1, h2, h4⟩, h5⟩
          refine ⟨h1, h2, fun c' hc' => ?_⟩
          rcases hc' with hc' | rfl
          · exact h4 c' hc'
          · exact h5
      · simp only [Graph.conds, List.mem_append, List.mem_singleton] at hc' ⊢
        rcases hc' with hc' | hc' | hc'
        · exact .inl (.inl hc')
        · exact .inl (.inr hc')
        · exact .inr (by rw [hc'])

/-- What adding an edge does. -/
structure Adds (n : Nat) (on : Option Cond → Asg → Prop) (g : Graph) (e : Edge) (g' : Graph) : Prop where
  ok : g'.OK n
  means : ∀ a, g'.MeansIf on a ↔ g.MeansIf on a ∧ (on e.cond a → e.x.eval a - e.y.eval a ≤ e.d)
  conds : ∀ c ∈ g'.conds, c ∈ g.conds ∨ e.cond = some c
  nodup : g.nodes.Nodup → g'.nodes.Nodup
  nodes : ∀ i ∈ g'.nodes, i ∈ g.nodes ∨ e.x.underlyingIndex = some i ∨ e.y.underlyingIndex = some i

theorem addEdge_roo (h0 : ∀ a, on none a) (hg : g.OK n) {e : Edge} (hv : e.Valid n) (hx : operand e.x ≠ none) (hy : operand e.y ≠ none) : RightOrOverflow (addEdge g e) (Adds n on g e) := by
  cases ex : operand e.x with
  | none => exact absurd ex hx
  | some l =>
  cases ey : operand e.y with
  | none => exact absurd ey hy
  | some r =>
  obtain ⟨l1, l2, l3⟩ := operand_some ex hv.1
  obtain ⟨r1, r2, r3⟩ := operand_some ey hv.2.1
  unfold addEdge
  rw [show operandOrThrow e.x = .ok l by rw [operandOrThrow, ex]]
  show RightOrOverflow (operandOrThrow e.y >>= _) _
  rw [show operandOrThrow e.y = .ok r by rw [operandOrThrow, ey]]
  refine (sub_roo hv.2.2.1 l1).bind fun t ht => (add_roo ht.2 r1).bind fun d hd => ?_
  have hd1 : d = e.d - l.2 + r.2 := by rw [hd.1, ht.1]
  cases hl : l.1 with
  | some x =>
    obtain ⟨x1, x2, x3⟩ := l2 x hl
    obtain ⟨i1, ⟨ext1, i2⟩, i4, i3⟩ := nodeIndex_spec g.nodes x
    cases hr : r.1 with
    | some y =>
      obtain ⟨y1, y2, y3⟩ := r2 y hr
      obtain ⟨j1, ⟨ext2, j2⟩, j4, j3⟩ := nodeIndex_spec (nodeIndex g.nodes x).2 y
      refine .pure ?_
      generalize nodeIndex g.nodes x = I at *
      generalize nodeIndex I.2 y = J at *
      have nodesIn : ∀ i ∈ J.2, i ∈ g.nodes ∨ i = x ∨ i = y := fun i hi => by
        rcases j3 i hi with k | k
        · rcases i3 i k with k | k
          · exact .inl k
          · exact .inr (.inl k)
        · exact .inr (.inr k)
      have hlt : ∀ i ∈ J.2, i < n := fun i hi => by
        rcases nodesIn i hi with k | rfl | rfl
        · exact hg.nodes i k
        · exact x1
        · exact y1
      have li : I.1 < I.2.length := (List.getElem?_eq_some_iff.1 i1).1
      have i1' : J.2[I.1]? = some x := by rw [j2, List.getElem?_append_left li]; exact i1
      obtain ⟨o1, o2⟩ := ext_ok (on := on) hg (ns := J.2) (ext := ext1 ++ ext2) (by rw [j2, i2]; simp) hlt
      have fin : ∀ i ∈ J.2, i ∈ g.nodes ∨ e.x.underlyingIndex = some i ∨ e.y.underlyingIndex = some i := fun i hi => by
        rcases nodesIn i hi with k | rfl | rfl
        · exact .inl k
        · exact .inr (.inl x2)
        · exact .inr (.inr y2)
      have core : ∀ a, e.x.eval a - e.y.eval a ≤ e.d ↔ a x - a y ≤ d := fun a => by rw [x3, y3]; omega
      by_cases hij : I.1 = J.1
      · have hxy : x = y := by
          rw [hij] at i1'
          rw [i1'] at j1; cases j1; rfl
        dsimp only
        rw [if_pos hij]
        obtain ⟨z1, z2, z3, z4⟩ := degenerate_ok (w := d) h0 o1 hv.2.2.2
        refine ⟨z1, fun a => ?_, z4, fun hn => by rw [z3]; exact j4 (i4 hn), fun i hi => fin i (by rw [z3] at hi; exact hi)⟩
        rw [z2, o2, core, hxy]
        simp
      · dsimp only
        rw [if_neg hij]
        obtain ⟨z1, z2⟩ := arc_ok (on := on) (x := ⟨I.1, J.1, d, e.cond⟩) o1 ⟨(List.getElem?_eq_some_iff.1 i1').1, (List.getElem?_eq_some_iff.1 j1).1, hd.2⟩ hv.2.2.2
        refine ⟨z1, fun a => ?_, fun c hc => ?_, fun hn => j4 (i4 hn), fin⟩
        · rw [z2, o2, core, Arc.Sat]
          dsimp only
          rw [nodeVal_at i1', nodeVal_at j1]
        · simp only [Graph.conds, List.filterMap_append, List.mem_append] at hc ⊢
          rcases hc with ((hc | hc) | hc) | hc
          · exact .inl (.inl (.inl hc))
          · cases hcc : e.cond with
            | none => simp [hcc] at hc
            | some c' => simp [hcc] at hc; exact .inr (by rw [hc])
          · exact .inl (.inl (.inr hc))
          · exact .inl (.inr hc)
    | none =>
      refine .pure ?_
      generalize nodeIndex g.nodes x = I at *
      have hlt : ∀ i ∈ I.2, i < n := fun i hi => by
        rcases i3 i hi with k | rfl
        · exact hg.nodes i k
        · exact x1
      obtain ⟨o1, o2⟩ := ext_ok (on := on) hg (ns := I.2) i2 hlt
      obtain ⟨z1, z2⟩ := bound_ok (on := on) (x := ⟨I.1, d, false, e.cond⟩) o1 ⟨(List.getElem?_eq_some_iff.1 i1).1, hd.2, hv.2.2.2⟩
      refine ⟨z1, fun a => ?_, fun c hc => ?_, i4, fun i hi => ?_⟩
      · refine (z2 a).trans ?_
        rw [o2, x3, r3 hr, Static.Sat]
        dsimp only
        rw [nodeVal_at i1, if_neg (by simp)]
        have : a x + l.2 - r.2 ≤ e.d ↔ a x ≤ d := by omega
        rw [this]
      · simp only [Graph.conds, List.filterMap_append, List.mem_append] at hc ⊢
        rcases hc with (hc | hc | hc) | hc
        · exact .inl (.inl (.inl hc))
        · exact .inl (.inl (.inr hc))
        · cases hcc : e.cond with
          | none => simp [hcc] at hc
          | some c' => simp [hcc] at hc; exact .inr (by rw [hc])
        · exact .inl (.inr hc)
      · rcases i3 i hi with k | rfl
        · exact .inl k
        · exact .inr (.inl x2)
  | none =>
    cases hr : r.1 with
    | some y =>
      obtain ⟨y1, y2, y3⟩ := r2 y hr
      obtain ⟨i1, ⟨ext1, i2⟩, i4, i3⟩ := nodeIndex_spec g.nodes y
      refine (neg_roo hd.2).bind fun k hk => .pure ?_
      generalize nodeIndex g.nodes y = I at *
      have hlt : ∀ i ∈ I.2, i < n := fun i hi => by
        rcases i3 i hi with k | rfl
        · exact hg.nodes i k
        · exact y1
      obtain ⟨o1, o2⟩ := ext_ok (on := on) hg (ns := I.2) i2 hlt
      obtain ⟨z1, z2⟩ := bound_ok (on := on) (x := ⟨I.1, k, true, e.cond⟩) o1 ⟨(List.getElem?_eq_some_iff.1 i1).1, hk.2, hv.2.2.2⟩
      refine ⟨z1, fun a => ?_, fun c hc => ?_, i4, fun i hi => ?_⟩
      · refine (z2 a).trans ?_
        rw [o2, y3, l3 hl, Static.Sat]
        dsimp only
        rw [nodeVal_at i1, if_pos rfl]
        have : l.2 - (a y + r.2) ≤ e.d ↔ k ≤ a y := by have := hk.1; omega
        rw [this]
      · simp only [Graph.conds, List.filterMap_append, List.mem_append] at hc ⊢
        rcases hc with (hc | hc | hc) | hc
        · exact .inl (.inl (.inl hc))
        · exact .inl (.inl (.inr hc))
        · cases hcc : e.cond with
          | none => simp [hcc] at hc
          | some c' => simp [hcc] at hc; exact .inr (by rw [hc])
        · exact .inl (.inr hc)
      · rcases i3 i hi with k | rfl
        · exact .inl k
        · exact .inr (.inr y2)
    | none =>
      refine .pure ?_
      obtain ⟨z1, z2, z3, z4⟩ := degenerate_ok (w := d) h0 hg hv.2.2.2
      refine ⟨z1, fun a => ?_, z4, fun hn => by rw [z3]; exact hn, fun i hi => .inl (by rw [z3] at hi; exact hi)⟩
      rw [z2, l3 hl, r3 hr]
      have : l.2 - r.2 ≤ e.d ↔ 0 ≤ d := by omega
      rw [this]

/-- What the graph of the edges is. -/
structure Built (n : Nat) (on : Option Cond → Asg → Prop) (g : Graph) (es : List Edge) (g' : Graph) : Prop where
  ok : g'.OK n
  means : ∀ a, g'.MeansIf on a ↔ g.MeansIf on a ∧ ∀ e ∈ es, on e.cond a → e.x.eval a - e.y.eval a ≤ e.d
  conds : ∀ c ∈ g'.conds, c ∈ g.conds ∨ ∃ e ∈ es, e.cond = some c
  nodup : g.nodes.Nodup → g'.nodes.Nodup
  nodes : ∀ i ∈ g'.nodes, i ∈ g.nodes ∨ ∃ e ∈ es, e.x.underlyingIndex = some i ∨ e.y.underlyingIndex = some i

theorem addEdges_roo (h0 : ∀ a, on none a) : ∀ (es : List Edge) {g : Graph}, g.OK n → (∀ e ∈ es, e.Valid n ∧ operand e.x ≠ none ∧ operand e.y ≠ none) → RightOrOverflow (addEdges g es) (Built n on g es)
  | [], g, hg, _ => .pure ⟨hg, fun a => by simp, fun c hc => .inl hc, id, fun i hi => .inl hi⟩
  | e :: es, g, hg, h => by
    have he := h e (by simp)
    refine (addEdge_roo h0 hg he.1 he.2.1 he.2.2).bind fun g1 h1 => ?_
    refine (addEdges_roo h0 es h1.ok fun f hf => h f (by simp [hf])).mono fun g2 h2 => ⟨h2.ok, fun a => ?_, fun c hc => ?_, fun hn => h2.nodup (h1.nodup hn), fun i hi => ?_⟩
    · rw [h2.means, h1.means]; simp [and_assoc]
    · rcases h2.conds c hc with k | ⟨f, k1, k2⟩
      · rcases h1.conds c k with k | k
        · exact .inl k
        · exact .inr ⟨e, by simp, k⟩
      · exact .inr ⟨f, by simp [k1], k2⟩
    · rcases h2.nodes i hi with k | ⟨f, k1, k2⟩
      · rcases h1.nodes i k with k | k
        · exact .inl k
        · exact .inr ⟨e, by simp, k⟩
      · exact .inr ⟨f, by simp [k1], k2⟩

theorem checkOperands_eq : ∀ es : List Edge, (checkOperands es = .ok () ∧ ∀ e ∈ es, operand e.x ≠ none ∧ operand e.y ≠ none) ∨ (checkOperands es = .error .invalidProblem ∧ ∃ e ∈ es, operand e.x = none ∨ operand e.y = none)
  | [] => .inl ⟨rfl, by simp⟩
  | e :: es => by
    cases ex : operand e.x with
    | none => exact .inr ⟨by simp only [checkOperands, operandOrThrow, ex]; rfl, e, by simp, .inl ex⟩
    | some l =>
      cases ey : operand e.y with
      | none => exact .inr ⟨by simp only [checkOperands, operandOrThrow, ex, ey]; rfl, e, by simp, .inr ey⟩
      | some r =>
        have step : checkOperands (e :: es) = checkOperands es := by simp only [checkOperands, operandOrThrow, ex, ey]; rfl
        rw [step]
        rcases checkOperands_eq es with ⟨h1, h2⟩ | ⟨h1, f, h2, h3⟩
        · refine .inl ⟨h1, fun f hf => ?_⟩
          rcases List.mem_cons.1 hf with rfl | hf
          · simp [ex, ey]
          · exact h2 f hf
        · exact .inr ⟨h1, f, by simp [h2], h3⟩

/-- The variables of an edge. -/
def Edge.vars (e : Edge) : List VarId := e.x :: e.y :: (e.cond.map (·.var)).toList

/-- What is posted for a graph. -/
theorem posts {es : List Edge} (ho : R .overflow) (hb : Built n On {} es g) (hr : g.refuted = false) :
    Posts n m R root (fun a => ∀ e ∈ es, e.Holds a) (es.flatMap Edge.vars) [.init .expensive (start (σ := σ) (μ := μ) g), .prop (prop g) (triggers g)] := by
  classical
  have iff : ∀ a, (∀ e ∈ es, e.Holds a) ↔ g.Main a ∧ g.Side a := fun a => by
    have := hb.means a
    rw [← Graph.means_iff, ← Graph.means_iff] at this
    have e0 : ({} : Graph).Means a := ⟨rfl, ⟨by simp, by simp⟩, by simp [Graph.Side]⟩
    constructor
    · intro h; exact (this.2 ⟨e0, h⟩).2
    · intro h; exact (this.1 ⟨hr, h⟩).2
  refine ⟨[(_, g.Side), (_, g.Main)], rfl, fun p hp => ?_, fun a _ => (iff a).trans (by simp [and_comm])⟩
  simp only [List.mem_cons, List.not_mem_nil, or_false] at hp
  rcases hp with rfl | rfl
  · intro d hd hl
    exact ver_mono (fun _ d' hq a ha _ => hq a ha) _ _ (ver_start (J := { n, m, R, C := fun a => Within root a ∧ ∀ e ∈ es, e.Holds a, watch := False }) ho hd hl hb.ok fun a _ hC => (iff a).1 hC.2)
  · let wakes : VarId → Prop := fun x => ∀ v, x.underlyingIndex = some v → ∃ y, (y ∈ (triggers g).onChange ∨ y ∈ (triggers g).onBounds ∨ y ∈ (triggers g).onInstantiated) ∧ y.underlyingIndex = some v
    refine ⟨(es.flatMap Edge.vars).filter (fun x => decide (wakes x)), fun y hy => (List.mem_filter.1 hy).1, fun x hx => by simpa [wakes] using (List.mem_filter.1 hx).2, by simp [triggers], fun d hd hl => ?_⟩
    refine ver_mono (fun ps d' ⟨e, hq⟩ => ?_) _ _ (ver_prop (J := { n, m, R, C := fun a => Within root a ∧ ∀ e ∈ es, e.Holds a }) ho hd hl hb.ok hb.ok.live fun a _ hC => ((iff a).1 hC.2).1)
    subst e
    refine ⟨fun hfix a ha _ => ?_, fun _ h => (nomatch h), fun h => (nomatch h)⟩
    have fixed : ∀ x ∈ es.flatMap Edge.vars, wakes x → ∀ v, x.underlyingIndex = some v → Fixed d v := fun x hx hw v hv =>
      hfix v (List.mem_filterMap.2 ⟨x, List.mem_filter.2 ⟨hx, by simpa using hw⟩, hv⟩)
    have node : ∀ i ∈ g.nodes, ∀ x ∈ es.flatMap Edge.vars, x.underlyingIndex = some i → Fixed d i := fun i hi x hx hxi =>
      fixed x hx (fun v hv => ⟨.simple i, .inr (.inl (List.mem_map.2 ⟨i, hi, rfl⟩)), by rw [hxi] at hv; exact hv⟩) i hxi
    have cond : ∀ c ∈ g.conds, Known d c.var := fun c hc => by
      refine Known.of_fixed fun v hv => fixed c.var ?_ (fun w hw => ⟨c.var, .inl ?_, hw⟩) v hv
      · rcases hb.conds c hc with k | ⟨e, k1, k2⟩
        · simp [Graph.conds] at k
        · exact List.mem_flatMap.2 ⟨e, k1, by simp [Edge.vars, k2]⟩
      · exact List.mem_eraseDups.2 (List.mem_map.2 ⟨c, hc, rfl⟩)
    refine hq (fun i hi => Known.of_fixed fun v hv => ?_) (fun e he c hc => cond c ?_) (fun b hb' c hc => cond c ?_) a ha
    · cases hv
      rcases hb.nodes i hi with k | ⟨e, k1, k2 | k2⟩
      · simp at k
      · exact node i hi e.x (List.mem_flatMap.2 ⟨e, k1, by simp [Edge.vars]⟩) k2
      · exact node i hi e.y (List.mem_flatMap.2 ⟨e, k1, by simp [Edge.vars]⟩) k2
    · exact List.mem_append_left _ (List.mem_append_left _ (List.mem_filterMap.2 ⟨e, he, hc⟩))
    · exact List.mem_append_left _ (List.mem_append_right _ (List.mem_filterMap.2 ⟨b, hb', hc⟩))

theorem install_right {es : List Edge} (ho : R .overflow) (hv : ∀ e ∈ es, e.Valid n) :
    (Posted.mk (install (σ := σ) (μ := μ) es) (fun a => ∀ e ∈ es, e.Holds a) (es.flatMap Edge.vars)).Right n m R root
      (fun err => err = .overflow ∨ (err = .invalidProblem ∧ ∃ e ∈ es, operand e.x = none ∨ operand e.y = none)) := by
  show (∀ items, install es root = .ok items → _) ∧ ∀ err, install es root = .error err → _
  unfold install
  rcases checkOperands_eq es with ⟨h1, h2⟩ | ⟨h1, h2⟩
  · rw [h1]
    show (∀ items, (addEdges {} es >>= _) = .ok items → _) ∧ ∀ err, (addEdges {} es >>= _) = .error err → _
    have e0 : ({} : Graph).OK n := ⟨by simp, fun a ha => by simp at ha, by simp, by simp, by simp⟩
    rcases addEdges_roo (on := On) (fun a c hc => nomatch hc) es e0 fun e he => ⟨hv e he, h2 e he⟩ with k | ⟨g, k, hb⟩
    · rw [k]
      exact ⟨fun _ h => (nomatch h), fun err h => by cases h; exact .inl rfl⟩
    · rw [k]
      have e0m : ∀ a, ({} : Graph).Means a := fun a => ⟨rfl, ⟨by simp, by simp⟩, by simp [Graph.Side]⟩
      show (∀ items, (if g.refuted then _ else _) = Except.ok items → _) ∧ ∀ err, (if g.refuted then _ else _) = Except.error err → _
      by_cases hr : g.refuted = true
      · rw [if_pos hr]
        refine ⟨fun items h => ?_, fun err h => (nomatch h)⟩
        cases h
        have no : ∀ a, ¬ ∀ e ∈ es, e.Holds a := fun a h => by
          have := ((hb.means a).2 ⟨Graph.means_iff.1 (e0m a), h⟩).1
          rw [hr] at this; cases this
        exact .one' (fun _ => False) (fun d _ _ a _ hC => no a hC.2) fun a _ => ⟨fun h => no a h, fun h => h.elim⟩
      · rw [if_neg hr]
        by_cases he : g.arcs = [] ∧ g.bounds = [] ∧ g.disallowed = []
        · rw [if_pos he]
          refine ⟨fun items h => ?_, fun err h => (nomatch h)⟩
          cases h
          refine .nil fun a _ => ((hb.means a).1 (Graph.means_iff.1 ⟨by simpa using hr, ⟨by rw [he.1]; simp, by rw [he.2.1]; simp⟩, by rw [Graph.Side, he.2.2]; simp⟩)).2
        · rw [if_neg he]
          refine ⟨fun items h => ?_, fun err h => (nomatch h)⟩
          cases h
          exact posts ho hb (by simpa using hr)
  · rw [h1]
    exact ⟨fun _ h => (nomatch h), fun err h => by cases h; exact .inr ⟨rfl, h2⟩⟩

end
end Gcs.Difference
