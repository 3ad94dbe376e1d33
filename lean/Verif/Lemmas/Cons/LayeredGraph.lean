import Verif.Model.Cons.Layered

/-!
# Layered graphs: helper lemmas on the removal of edges
-/

namespace Gcs.Layered

theorem mem_toSet {α : Type} [BEq α] [LawfulBEq α] {l : List α} {x : α} : x ∈ toSet l ↔ x ∈ l := by
  unfold toSet
  induction l with
  | nil => simp
  | cons a l ih => simp [ih]

theorem nodup_toSet {α : Type} [BEq α] [LawfulBEq α] (l : List α) : (toSet l).Nodup := by
  unfold toSet
  induction l with
  | nil => simp
  | cons a l ih =>
    simp only [List.foldr_cons, List.insert]
    split
    · exact ih
    · rename_i h
      exact List.nodup_cons.2 ⟨by simpa using h, ih⟩

theorem countP_erase {E : List Edge} {e : Edge} (h : e ∈ E) (p : Edge → Bool) : E.countP p = (E.erase e).countP p + if p e then 1 else 0 := by
  rw [(List.perm_cons_erase h).countP_eq p, List.countP_cons]

abbrev isOut (i q : Nat) (e : Edge) : Bool := decide (e.layer = i ∧ e.src = q)
abbrev isIn (i q : Nat) (e : Edge) : Bool := decide (e.layer + 1 = i ∧ e.dst = q)

def Graph.outs (g : Graph) (i q : Nat) : Nat := g.edges.countP (isOut i q)
def Graph.ins (g : Graph) (i q : Nat) : Nat := g.edges.countP (isIn i q)

theorem outs_zero {g : Graph} {i q : Nat} : g.outs i q = 0 ↔ ∀ e ∈ g.edges, ¬ (e.layer = i ∧ e.src = q) := by simp [Graph.outs, List.countP_eq_zero]
theorem ins_zero {g : Graph} {i q : Nat} : g.ins i q = 0 ↔ ∀ e ∈ g.edges, ¬ (e.layer + 1 = i ∧ e.dst = q) := by simp [Graph.ins, List.countP_eq_zero]
theorem outs_pos {g : Graph} {i q : Nat} : 0 < g.outs i q ↔ ∃ e ∈ g.edges, e.layer = i ∧ e.src = q := by simp [Graph.outs, List.countP_pos_iff]
theorem ins_pos {g : Graph} {i q : Nat} : 0 < g.ins i q ↔ ∃ e ∈ g.edges, e.layer + 1 = i ∧ e.dst = q := by simp [Graph.ins, List.countP_pos_iff]

/-- The graph is as it should be, apart from what is pending: edges to nodes in `X` and from nodes in `Y` may be of no use, and their degrees wrong, values in `Z` may be listed as supported in vain, and for nodes in `W` values
may be missing. -/
structure Inv (A : Auto) (n : Nat) (X Y : Nat → Nat → Prop) (Z : Nat → Int → Prop) (W : Nat → Nat → Prop) (g : Graph) : Prop where
  real : ∀ e ∈ g.edges, e.layer < n ∧ e.dst ∈ A.next e.layer e.src e.val ∧ InI64 e.val
  nodup : g.edges.Nodup
  suppEdge : ∀ s ∈ g.supp, Z s.1 s.2.1 ∨ ∃ e ∈ g.edges, e.layer = s.1 ∧ e.val = s.2.1 ∧ e.src = s.2.2
  edgeSupp : ∀ e ∈ g.edges, W e.layer e.src ∨ (e.layer, e.val, e.src) ∈ g.supp
  suppNodup : g.supp.Nodup
  outDeg : ∀ i q, X i q ∨ g.outs i q = 0 ∨ g.outDeg i q = g.outs i q
  inDeg : ∀ i q, Y i q ∨ g.ins i q = 0 ∨ g.inDeg i q = g.ins i q
  ahead : ∀ e ∈ g.edges, X (e.layer + 1) e.dst ∨ (e.layer + 1 = n ∧ (e.dst : Int) ∈ A.final) ∨ 0 < g.outs (e.layer + 1) e.dst
  behind : ∀ e ∈ g.edges, Y e.layer e.src ∨ (e.layer = 0 ∧ e.src = 0) ∨ 0 < g.ins e.layer e.src

/-- A way through the graph. -/
def Path (n : Nat) (g : Graph) (p : Nat → Nat) (w : Nat → Int) : Prop := p 0 = 0 ∧ ∀ i, i < n → ⟨i, p i, w i, p (i + 1)⟩ ∈ g.edges

abbrev orAt (X : Nat → Nat → Prop) (i k : Nat) : Nat → Nat → Prop := fun j q => X j q ∨ (j = i ∧ q = k)

section
variable {A : Auto} {n : Nat} {X Y : Nat → Nat → Prop} {Z : Nat → Int → Prop} {W : Nat → Nat → Prop} {g g' : Graph}

theorem Inv.mono {X' Y' W' : Nat → Nat → Prop} {Z' : Nat → Int → Prop} (h : Inv A n X Y Z W g) (hX : ∀ i q, X i q → X' i q) (hY : ∀ i q, Y i q → Y' i q) (hZ : ∀ i v, Z i v → Z' i v) (hW : ∀ i q, W i q → W' i q) :
    Inv A n X' Y' Z' W' g where
  real := h.real
  nodup := h.nodup
  suppEdge s hs := (h.suppEdge s hs).imp (hZ _ _) id
  edgeSupp e he := (h.edgeSupp e he).imp (hW _ _) id
  suppNodup := h.suppNodup
  outDeg i q := (h.outDeg i q).imp (hX _ _) id
  inDeg i q := (h.inDeg i q).imp (hY _ _) id
  ahead e he := (h.ahead e he).imp (hX _ _) id
  behind e he := (h.behind e he).imp (hY _ _) id

/-- What is left alone at layers from `i` on. -/
structure SameFrom (i : Nat) (g g' : Graph) : Prop where
  edges : ∀ e, i ≤ e.layer → (e ∈ g'.edges ↔ e ∈ g.edges)
  supp : ∀ s, i ≤ s.1 → (s ∈ g'.supp ↔ s ∈ g.supp)
  outs : ∀ j q, i ≤ j → g'.outs j q = g.outs j q
  ins : ∀ j q, i < j → g'.ins j q = g.ins j q
  inDeg : g'.inDeg = g.inDeg

/-- What is left alone at layers before `i`. -/
structure SameTo (i : Nat) (g g' : Graph) : Prop where
  edges : ∀ e, e.layer < i → (e ∈ g'.edges ↔ e ∈ g.edges)
  supp : ∀ s, s.1 < i → (s ∈ g'.supp ↔ s ∈ g.supp)
  outs : ∀ j q, j < i → g'.outs j q = g.outs j q
  ins : ∀ j q, j ≤ i → g'.ins j q = g.ins j q
  outDeg : g'.outDeg = g.outDeg

theorem SameFrom.trans {g1 g2 g3 : Graph} {i : Nat} (h : SameFrom i g1 g2) (k : SameFrom i g2 g3) : SameFrom i g1 g3 where
  edges e he := (k.edges e he).trans (h.edges e he)
  supp e he := (k.supp e he).trans (h.supp e he)
  outs j q hj := (k.outs j q hj).trans (h.outs j q hj)
  ins j q hj := (k.ins j q hj).trans (h.ins j q hj)
  inDeg := k.inDeg.trans h.inDeg

theorem SameFrom.mono {i j : Nat} (h : SameFrom i g g') (hij : i ≤ j) : SameFrom j g g' where
  edges e he := h.edges e (by omega)
  supp e he := h.supp e (by omega)
  outs k q hj := h.outs k q (by omega)
  ins k q hj := h.ins k q (by omega)
  inDeg := h.inDeg

theorem SameTo.trans {g1 g2 g3 : Graph} {i : Nat} (h : SameTo i g1 g2) (k : SameTo i g2 g3) : SameTo i g1 g3 where
  edges e he := (k.edges e he).trans (h.edges e he)
  supp e he := (k.supp e he).trans (h.supp e he)
  outs j q hj := (k.outs j q hj).trans (h.outs j q hj)
  ins j q hj := (k.ins j q hj).trans (h.ins j q hj)
  outDeg := k.outDeg.trans h.outDeg

theorem SameTo.mono {i j : Nat} (h : SameTo i g g') (hij : j ≤ i) : SameTo j g g' where
  edges e he := h.edges e (by omega)
  supp e he := h.supp e (by omega)
  outs k q hj := h.outs k q (by omega)
  ins k q hj := h.ins k q (by omega)
  outDeg := h.outDeg

/-- Edges only go away, and no way through the graph is lost. -/
structure Less (n : Nat) (g g' : Graph) : Prop where
  edges : ∀ e ∈ g'.edges, e ∈ g.edges
  path : ∀ p w, Path n g p w → Path n g' p w
  init : g'.initialised = g.initialised

theorem Less.refl (g : Graph) : Less n g g := ⟨fun _ h => h, fun _ _ h => h, rfl⟩
theorem Less.trans {g1 g2 g3 : Graph} (h : Less n g1 g2) (k : Less n g2 g3) : Less n g1 g3 := ⟨fun e he => h.edges e (k.edges e he), fun p w hp => k.path p w (h.path p w hp), k.init.trans h.init⟩

section
variable {e : Edge} (he : e ∈ g.edges)
include he

theorem outs_cut (hg : g'.edges = g.edges.erase e) (i q : Nat) : g.outs i q = g'.outs i q + if e.layer = i ∧ e.src = q then 1 else 0 := by
  unfold Graph.outs; rw [hg, countP_erase he]; simp [isOut]

theorem ins_cut (hg : g'.edges = g.edges.erase e) (i q : Nat) : g.ins i q = g'.ins i q + if e.layer + 1 = i ∧ e.dst = q then 1 else 0 := by
  unfold Graph.ins; rw [hg, countP_erase he]; simp [isIn]

/-- Taking out an edge: its source and its target are pending. The list of supports is up to the caller. -/
theorem Inv.cut (h : Inv A n X Y Z W g) (hg : g'.edges = g.edges.erase e) (ho : g'.outDeg = g.outDeg) (hi : g'.inDeg = g.inDeg) (hs : g'.supp.Nodup) {Z' : Nat → Int → Prop} {W' : Nat → Nat → Prop}
    (h1 : ∀ s ∈ g'.supp, Z' s.1 s.2.1 ∨ ∃ e ∈ g'.edges, e.layer = s.1 ∧ e.val = s.2.1 ∧ e.src = s.2.2) (h2 : ∀ e ∈ g'.edges, W' e.layer e.src ∨ (e.layer, e.val, e.src) ∈ g'.supp) :
    Inv A n (orAt X e.layer e.src) (orAt Y (e.layer + 1) e.dst) Z' W' g' := by
  have sub : ∀ f ∈ g'.edges, f ∈ g.edges := fun f hf => List.mem_of_mem_erase (hg ▸ hf)
  have co := outs_cut he hg
  have ci := ins_cut he hg
  refine ⟨fun f hf => h.real f (sub f hf), hg ▸ h.nodup.erase e, h1, h2, hs, fun i q => ?_, fun i q => ?_, fun f hf => ?_, fun f hf => ?_⟩
  · have := co i q
    rw [ho]
    by_cases hc : e.layer = i ∧ e.src = q
    · exact .inl (.inr ⟨hc.1.symm, hc.2.symm⟩)
    · rw [if_neg hc] at this
      exact (h.outDeg i q).imp .inl fun h => by rw [this] at h; simpa using h
  · have := ci i q
    rw [hi]
    by_cases hc : e.layer + 1 = i ∧ e.dst = q
    · exact .inl (.inr ⟨hc.1.symm, hc.2.symm⟩)
    · rw [if_neg hc] at this
      exact (h.inDeg i q).imp .inl fun h => by rw [this] at h; simpa using h
  · have := co (f.layer + 1) f.dst
    by_cases hc : e.layer = f.layer + 1 ∧ e.src = f.dst
    · exact .inl (.inr ⟨hc.1.symm, hc.2.symm⟩)
    · rw [if_neg hc] at this
      exact (h.ahead f (sub f hf)).imp .inl (.imp id fun h => by omega)
  · have := ci f.layer f.src
    by_cases hc : e.layer + 1 = f.layer ∧ e.dst = f.src
    · exact .inl (.inr ⟨hc.1.symm, hc.2.symm⟩)
    · rw [if_neg hc] at this
      exact (h.behind f (sub f hf)).imp .inl (.imp id fun h => by omega)


theorem mem_cut (h : g.edges.Nodup) (hg : g'.edges = g.edges.erase e) (f : Edge) : f ∈ g'.edges ↔ f ≠ e ∧ f ∈ g.edges := by rw [hg]; exact h.mem_erase_iff

end

/-- A node whose degree is right again. -/
theorem Inv.lessOut {i k : Nat} (h : Inv A n (orAt X i k) Y Z W g) (hp : g.outDeg i k = g.outs i k + 1) (hk : 0 < i → g.outs i k = 0 → g.ins i k = 0) : Inv A n X Y Z W (g.lessOut i k) where
  real := h.real
  nodup := h.nodup
  suppEdge := h.suppEdge
  edgeSupp := h.edgeSupp
  suppNodup := h.suppNodup
  outDeg j q := by
    show X j q ∨ g.outs j q = 0 ∨ (if j = i ∧ q = k then g.outDeg j q - 1 else g.outDeg j q) = g.outs j q
    by_cases hc : j = i ∧ q = k
    · rw [if_pos hc, hc.1, hc.2, hp]; exact .inr (.inr (by omega))
    · rw [if_neg hc]; exact (h.outDeg j q).imp (fun h => h.resolve_right hc) id
  inDeg := h.inDeg
  ahead e he := by
    show X (e.layer + 1) e.dst ∨ (e.layer + 1 = n ∧ (e.dst : Int) ∈ A.final) ∨ 0 < g.outs (e.layer + 1) e.dst
    by_cases hc : e.layer + 1 = i ∧ e.dst = k
    · refine .inr (.inr (Nat.pos_of_ne_zero fun h0 => ?_))
      rw [hc.1, hc.2] at h0
      exact ins_zero.1 (hk (by omega) h0) e he hc
    · exact (h.ahead e he).imp (fun h => h.resolve_right hc) id
  behind := h.behind

theorem Inv.lessOut_off {i k : Nat} (h : Inv A n (orAt X i k) Y Z W g) : Inv A n (orAt X i k) Y Z W (g.lessOut i k) where
  real := h.real
  nodup := h.nodup
  suppEdge := h.suppEdge
  edgeSupp := h.edgeSupp
  suppNodup := h.suppNodup
  outDeg j q := by
    show _ ∨ g.outs j q = 0 ∨ (if j = i ∧ q = k then g.outDeg j q - 1 else g.outDeg j q) = g.outs j q
    by_cases hc : j = i ∧ q = k
    · exact .inl (.inr hc)
    · rw [if_neg hc]; exact h.outDeg j q
  inDeg := h.inDeg
  ahead := h.ahead
  behind := h.behind

theorem Inv.lessIn_off {i k : Nat} (h : Inv A n X (orAt Y i k) Z W g) : Inv A n X (orAt Y i k) Z W (g.lessIn i k) where
  real := h.real
  nodup := h.nodup
  suppEdge := h.suppEdge
  edgeSupp := h.edgeSupp
  suppNodup := h.suppNodup
  inDeg j q := by
    show _ ∨ g.ins j q = 0 ∨ (if j = i ∧ q = k then g.inDeg j q - 1 else g.inDeg j q) = g.ins j q
    by_cases hc : j = i ∧ q = k
    · exact .inl (.inr hc)
    · rw [if_neg hc]; exact h.inDeg j q
  outDeg := h.outDeg
  ahead := h.ahead
  behind := h.behind

theorem Inv.lessIn {i k : Nat} (h : Inv A n X (orAt Y i k) Z W g) (hp : g.inDeg i k = g.ins i k + 1) (hk : g.ins i k = 0 → g.outs i k = 0) : Inv A n X Y Z W (g.lessIn i k) where
  real := h.real
  nodup := h.nodup
  suppEdge := h.suppEdge
  edgeSupp := h.edgeSupp
  suppNodup := h.suppNodup
  inDeg j q := by
    show Y j q ∨ g.ins j q = 0 ∨ (if j = i ∧ q = k then g.inDeg j q - 1 else g.inDeg j q) = g.ins j q
    by_cases hc : j = i ∧ q = k
    · rw [if_pos hc, hc.1, hc.2, hp]; exact .inr (.inr (by omega))
    · rw [if_neg hc]; exact (h.inDeg j q).imp (fun h => h.resolve_right hc) id
  outDeg := h.outDeg
  behind e he := by
    show Y e.layer e.src ∨ (e.layer = 0 ∧ e.src = 0) ∨ 0 < g.ins e.layer e.src
    by_cases hc : e.layer = i ∧ e.src = k
    · refine .inr (.inr (Nat.pos_of_ne_zero fun h0 => ?_))
      rw [hc.1, hc.2] at h0
      exact outs_zero.1 (hk h0) e he hc
    · exact (h.behind e he).imp (fun h => h.resolve_right hc) id
  ahead := h.ahead

/-- A node without edges needs no exception. -/
theorem Inv.isolated {i k : Nat} (h : Inv A n (orAt X i k) (orAt Y i k) Z (orAt W i k) g) (ho : g.outs i k = 0) (hi : g.ins i k = 0) : Inv A n X Y Z W g where
  real := h.real
  nodup := h.nodup
  suppEdge := h.suppEdge
  edgeSupp e he := (h.edgeSupp e he).imp (fun h => h.resolve_right fun hc => outs_zero.1 ho e he hc) id
  suppNodup := h.suppNodup
  outDeg j q := by
    by_cases hc : j = i ∧ q = k
    · rw [hc.1, hc.2]; exact .inr (.inl ho)
    · exact (h.outDeg j q).imp (fun h => h.resolve_right hc) id
  inDeg j q := by
    by_cases hc : j = i ∧ q = k
    · rw [hc.1, hc.2]; exact .inr (.inl hi)
    · exact (h.inDeg j q).imp (fun h => h.resolve_right hc) id
  ahead e he := (h.ahead e he).imp (fun h => h.resolve_right fun hc => ins_zero.1 hi e he hc) id
  behind e he := (h.behind e he).imp (fun h => h.resolve_right fun hc => outs_zero.1 ho e he hc) id

theorem cutInto_inv {e : Edge} (he : e ∈ g.edges) (h : Inv A n X Y Z W g) : Inv A n (orAt X e.layer e.src) (orAt Y (e.layer + 1) e.dst) Z W (g.cutInto e) := by
  have hm : ∀ f, f ∈ (g.cutInto e).edges ↔ f ≠ e ∧ f ∈ g.edges := mem_cut (g' := g.cutInto e) he h.nodup rfl
  refine h.cut (g' := g.cutInto e) he rfl rfl rfl ?_ ?_ ?_
  · simp only [Graph.cutInto]
    split
    · exact h.suppNodup
    · exact h.suppNodup.filter _
  · intro s hs
    simp only [Graph.cutInto] at hs
    split at hs
    · rename_i hany
      obtain ⟨f, hf, hf'⟩ := List.any_eq_true.1 hany
      have hf' := of_decide_eq_true hf'
      rcases h.suppEdge s hs with hz | ⟨f2, m2, e1, e2, e3⟩
      · exact .inl hz
      · by_cases hc : f2 = e
        · subst hc; exact .inr ⟨f, hf, hf'.1.trans e1, hf'.2.2.trans e2, hf'.2.1.trans e3⟩
        · exact .inr ⟨f2, (hm f2).2 ⟨hc, m2⟩, e1, e2, e3⟩
    · obtain ⟨h1, h2⟩ := List.mem_filter.1 hs
      have h2 := of_decide_eq_true h2
      rcases h.suppEdge s h1 with hz | ⟨f2, m2, e1, e2, e3⟩
      · exact .inl hz
      · exact .inr ⟨f2, (hm f2).2 ⟨fun hc => h2 (by subst hc; rw [e1, e2, e3]), m2⟩, e1, e2, e3⟩
  · intro f hf
    have hf1 := (hm f).1 hf
    refine (h.edgeSupp f hf1.2).imp id fun hs => ?_
    simp only [Graph.cutInto]
    split
    · exact hs
    · rename_i hany
      refine List.mem_filter.2 ⟨hs, decide_eq_true fun hc => hany (List.any_eq_true.2 ⟨f, hf, decide_eq_true ?_⟩)⟩
      simp only [Prod.mk.injEq] at hc
      exact ⟨hc.1, hc.2.2, hc.2.1⟩

theorem cutFrom_inv {e : Edge} (he : e ∈ g.edges) (h : Inv A n X Y Z (orAt W e.layer e.src) g) : Inv A n (orAt X e.layer e.src) (orAt Y (e.layer + 1) e.dst) Z (orAt W e.layer e.src) (g.cutFrom e) := by
  have hm : ∀ f, f ∈ (g.cutFrom e).edges ↔ f ≠ e ∧ f ∈ g.edges := mem_cut (g' := g.cutFrom e) he h.nodup rfl
  refine h.cut (g' := g.cutFrom e) he rfl rfl rfl (h.suppNodup.filter _) ?_ ?_
  · intro s hs
    obtain ⟨h1, h2⟩ := List.mem_filter.1 hs
    have h2 := of_decide_eq_true h2
    rcases h.suppEdge s h1 with hz | ⟨f2, m2, e1, e2, e3⟩
    · exact .inl hz
    · exact .inr ⟨f2, (hm f2).2 ⟨fun hc => h2 (by subst hc; rw [e1, e2, e3]), m2⟩, e1, e2, e3⟩
  · intro f hf
    have hf1 := (hm f).1 hf
    by_cases hc : f.layer = e.layer ∧ f.src = e.src
    · exact .inl (.inr hc)
    · refine (h.edgeSupp f hf1.2).imp id fun hs => List.mem_filter.2 ⟨hs, decide_eq_true fun heq => hc ?_⟩
      simp only [Prod.mk.injEq] at heq
      exact ⟨heq.1, heq.2.2⟩

/-- Removing an edge leaves everything in other layers alone. -/
theorem cut_from {e : Edge} {i : Nat} (he : e ∈ g.edges) (hn : g.edges.Nodup) (hi : e.layer < i) (hg : g'.edges = g.edges.erase e) (hs : ∀ s, s ≠ (e.layer, e.val, e.src) → (s ∈ g'.supp ↔ s ∈ g.supp)) (hd : g'.inDeg = g.inDeg) :
    SameFrom i g g' where
  edges f hf := by rw [mem_cut he hn hg]; exact ⟨fun h => h.2, fun h => ⟨fun h' => by subst h'; omega, h⟩⟩
  supp s hs' := hs s fun h => by subst h; simp only at hs'; omega
  outs j q hj := by have := outs_cut he hg j q; rw [if_neg (by omega)] at this; omega
  ins j q hj := by have := ins_cut he hg j q; rw [if_neg (by omega)] at this; omega
  inDeg := hd

theorem cut_to {e : Edge} {i : Nat} (he : e ∈ g.edges) (hn : g.edges.Nodup) (hi : i ≤ e.layer) (hg : g'.edges = g.edges.erase e) (hs : ∀ s, s ≠ (e.layer, e.val, e.src) → (s ∈ g'.supp ↔ s ∈ g.supp)) (hd : g'.outDeg = g.outDeg) :
    SameTo i g g' where
  edges f hf := by rw [mem_cut he hn hg]; exact ⟨fun h => h.2, fun h => ⟨fun h' => by subst h'; omega, h⟩⟩
  supp s hs' := hs s fun h => by subst h; simp only at hs'; omega
  outs j q hj := by have := outs_cut he hg j q; rw [if_neg (by omega)] at this; omega
  ins j q hj := by have := ins_cut he hg j q; rw [if_neg (by omega)] at this; omega
  outDeg := hd

theorem cut_less {e : Edge} (he : e ∈ g.edges) (hn : g.edges.Nodup) (hg : g'.edges = g.edges.erase e) (hi : g'.initialised = g.initialised) (hp : ∀ p w, Path n g p w → e.layer < n → ⟨e.layer, p e.layer, w e.layer, p (e.layer + 1)⟩ ≠ e) : Less n g g' where
  edges f hf := ((mem_cut he hn hg f).1 hf).2
  path p w h := ⟨h.1, fun i hi => (mem_cut he hn hg _).2 ⟨fun hc => hp p w h (by rw [← hc]; exact hi) (by rw [← hc]), h.2 i hi⟩⟩
  init := hi

theorem cutInto_supp {e : Edge} {s : Nat × Int × Nat} (h : s ≠ (e.layer, e.val, e.src)) : s ∈ (g.cutInto e).supp ↔ s ∈ g.supp := by
  simp only [Graph.cutInto]
  split
  · exact Iff.rfl
  · rw [List.mem_filter]; exact ⟨fun h => h.1, fun k => ⟨k, decide_eq_true h⟩⟩

theorem cutFrom_supp {e : Edge} {s : Nat × Int × Nat} (h : s ≠ (e.layer, e.val, e.src)) : s ∈ (g.cutFrom e).supp ↔ s ∈ g.supp := by
  simp only [Graph.cutFrom]
  rw [List.mem_filter]; exact ⟨fun h => h.1, fun k => ⟨k, decide_eq_true h⟩⟩

theorem SameFrom.rfl {i : Nat} : SameFrom i g g := ⟨fun _ _ => Iff.rfl, fun _ _ => Iff.rfl, fun _ _ _ => Eq.refl _, fun _ _ _ => Eq.refl _, Eq.refl _⟩
theorem SameTo.rfl {i : Nat} : SameTo i g g := ⟨fun _ _ => Iff.rfl, fun _ _ => Iff.rfl, fun _ _ _ => Eq.refl _, fun _ _ _ => Eq.refl _, Eq.refl _⟩

/-- `decrement_outdeg` clears up. -/
theorem decOut_spec : ∀ (i k : Nat) (g : Graph) (X Y : Nat → Nat → Prop), i < n → (∀ j q, X j q → i < j) → Inv A n (orAt X i k) Y Z W g → g.outDeg i k = g.outs i k + 1 →
    Inv A n X Y Z W (decOut i k g) ∧ SameFrom i g (decOut i k g) ∧ Less n g (decOut i k g) := by
  intro i
  induction i with
  | zero => exact fun k g X Y _ _ h hp => ⟨h.lessOut hp (fun h => absurd h (by omega)), ⟨fun _ _ => Iff.rfl, fun _ _ => Iff.rfl, fun _ _ _ => rfl, fun _ _ _ => rfl, rfl⟩, ⟨fun _ h => h, fun _ _ h => h, rfl⟩⟩
  | succ i ih =>
    intro k g X Y hn hX h hp
    have loop : ∀ (R : List Edge) (g : Graph), (∀ e ∈ g.edges, e.layer = i ∧ e.dst = k → e ∈ R) → (∀ e ∈ R, e ∈ g.edges ∧ e.layer = i ∧ e.dst = k) → R.Nodup → g.outs (i + 1) k = 0 →
        Inv A n (orAt X (i + 1) k) (orAt Y (i + 1) k) Z W g →
        Inv A n X Y Z W (R.foldl (fun g e => decOut i e.src (g.cutInto e)) g) ∧ SameFrom (i + 1) g (R.foldl (fun g e => decOut i e.src (g.cutInto e)) g) ∧ Less n g (R.foldl (fun g e => decOut i e.src (g.cutInto e)) g) := by
      intro R
      induction R with
      | nil =>
        intro g h1 _ _ h4 h5
        exact ⟨(h5.mono (fun _ _ h => h) (fun _ _ h => h) (fun _ _ h => h) (fun _ _ h => .inl h)).isolated h4 (ins_zero.2 fun e he hc => nomatch h1 e he ⟨by omega, hc.2⟩), .rfl, .refl _⟩
      | cons e R ihR =>
        intro g h1 h2 h3 h4 h5
        obtain ⟨he, hl, hd⟩ := h2 e (by simp)
        obtain ⟨hne, h3'⟩ := List.nodup_cons.1 h3
        have a1 := cutInto_inv he h5
        rw [hl, hd] at a1
        have hm := mem_cut (g' := g.cutInto e) he h5.nodup rfl
        have hout := outs_cut (g' := g.cutInto e) he rfl i e.src
        rw [if_pos ⟨hl, rfl⟩] at hout
        obtain ⟨b1, b2, b3⟩ := ih e.src (g.cutInto e) (orAt X (i + 1) k) (orAt Y (i + 1) k) (by omega)
          (fun j q hj => hj.elim (fun h => by have := hX j q h; omega) fun h => by omega)
          (a1.mono (fun _ _ h => h) (fun _ _ h => h.elim id .inr) (fun _ _ h => h) (fun _ _ h => h)) (by
            show g.outDeg i e.src = _
            rcases h5.outDeg i e.src with hx | hz | heq
            · rcases hx with hx | hx
              · have := hX _ _ hx; omega
              · omega
            · omega
            · rw [heq, hout]; omega)
        have same1 : SameFrom (i + 1) g (g.cutInto e) := cut_from he h5.nodup (by omega) rfl (fun _ h => cutInto_supp h) rfl
        have less1 : Less n g (g.cutInto e) := cut_less he h5.nodup rfl rfl fun p w hpw _ hc => by
          have := hpw.2 (i + 1) (by omega)
          refine outs_zero.1 h4 _ this ⟨rfl, ?_⟩
          have := congrArg Edge.dst hc
          simp only [hl, hd] at this
          exact this
        obtain ⟨c1, c2, c3⟩ := ihR _ (fun f hf hfk => by
            have := (hm f).1 ((b2.edges f (by omega)).1 hf)
            exact (List.mem_cons.1 (h1 f this.2 hfk)).resolve_left this.1)
          (fun f hf => ⟨(b2.edges f (by have := h2 f (by simp [hf]); omega)).2 ((hm f).2 ⟨fun hc => hne (hc ▸ hf), (h2 f (by simp [hf])).1⟩), (h2 f (by simp [hf])).2⟩) h3'
          (by rw [b2.outs _ _ (by omega), same1.outs _ _ (by omega)]; exact h4) b1
        exact ⟨c1, (same1.trans (b2.mono (by omega))).trans c2, (less1.trans b3).trans c3⟩
    have same0 : SameFrom (i + 1) g (g.lessOut (i + 1) k) := ⟨fun _ _ => Iff.rfl, fun _ _ => Iff.rfl, fun _ _ _ => rfl, fun _ _ _ => rfl, rfl⟩
    have less0 : Less n g (g.lessOut (i + 1) k) := ⟨fun _ h => h, fun _ _ h => h, rfl⟩
    have hd : (g.lessOut (i + 1) k).outDeg (i + 1) k = g.outs (i + 1) k := by show (if i + 1 = i + 1 ∧ k = k then g.outDeg (i + 1) k - 1 else g.outDeg (i + 1) k) = _; rw [if_pos ⟨rfl, rfl⟩, hp]; omega
    unfold decOut
    dsimp only
    by_cases h0 : (g.lessOut (i + 1) k).outDeg (i + 1) k = 0
    · rw [if_pos h0]
      obtain ⟨c1, c2, c3⟩ := loop ((g.lessOut (i + 1) k).edges.filter fun e => decide (e.layer = i ∧ e.dst = k)) (g.lessOut (i + 1) k) (fun e he hk => List.mem_filter.2 ⟨he, decide_eq_true hk⟩)
        (fun e he => ⟨(List.mem_filter.1 he).1, of_decide_eq_true (List.mem_filter.1 he).2⟩) (h.nodup.filter _) (show g.outs (i + 1) k = 0 by omega)
        (Inv.lessOut_off (h.mono (fun _ _ h => h) (fun _ _ h => .inl h) (fun _ _ h => h) (fun _ _ h => h)))
      exact ⟨c1, same0.trans c2, less0.trans c3⟩
    · rw [if_neg h0]
      exact ⟨h.lessOut hp fun _ hz => absurd (by omega) h0, same0, less0⟩

/-- `decrement_indeg` clears up. -/
theorem decIn_spec : ∀ (r i k : Nat) (g : Graph) (X Y W : Nat → Nat → Prop), r + i = n → 0 < i → (∀ j q, Y j q → j < i) → Inv A n X (orAt Y i k) Z W g → g.inDeg i k = g.ins i k + 1 →
    Inv A n X Y Z W (decIn r i k g) ∧ SameTo i g (decIn r i k g) ∧ Less n g (decIn r i k g) := by
  intro r
  induction r with
  | zero =>
    exact fun i k g X Y W hn _ _ h hp => ⟨h.lessIn hp (fun _ => outs_zero.2 fun e he hc => by have := (h.real e he).1; omega), ⟨fun _ _ => Iff.rfl, fun _ _ => Iff.rfl, fun _ _ _ => rfl, fun _ _ _ => rfl, rfl⟩,
      ⟨fun _ h => h, fun _ _ h => h, rfl⟩⟩
  | succ r ih =>
    intro i k g X Y W hn hi0 hY h hp
    have loop : ∀ (R : List Edge) (g : Graph), (∀ e ∈ g.edges, e.layer = i ∧ e.src = k → e ∈ R) → (∀ e ∈ R, e ∈ g.edges ∧ e.layer = i ∧ e.src = k) → R.Nodup → g.ins i k = 0 →
        Inv A n (orAt X i k) (orAt Y i k) Z (orAt W i k) g →
        Inv A n X Y Z W (R.foldl (fun g e => decIn r (i + 1) e.dst (g.cutFrom e)) g) ∧ SameTo i g (R.foldl (fun g e => decIn r (i + 1) e.dst (g.cutFrom e)) g) ∧
          Less n g (R.foldl (fun g e => decIn r (i + 1) e.dst (g.cutFrom e)) g) := by
      intro R
      induction R with
      | nil =>
        intro g h1 _ _ h4 h5
        exact ⟨h5.isolated (outs_zero.2 fun e he hc => nomatch h1 e he hc) h4, .rfl, .refl _⟩
      | cons e R ihR =>
        intro g h1 h2 h3 h4 h5
        obtain ⟨he, hl, hd⟩ := h2 e (by simp)
        obtain ⟨hne, h3'⟩ := List.nodup_cons.1 h3
        have a1 := cutFrom_inv (W := W) (e := e) he (by rw [hl, hd]; exact h5)
        rw [hl, hd] at a1
        have hm := mem_cut (g' := g.cutFrom e) he h5.nodup rfl
        have hin := ins_cut (g' := g.cutFrom e) he rfl (i + 1) e.dst
        rw [if_pos ⟨by omega, rfl⟩] at hin
        obtain ⟨b1, b2, b3⟩ := ih (i + 1) e.dst (g.cutFrom e) (orAt X i k) (orAt Y i k) (orAt W i k) (by omega) (by omega)
          (fun j q hj => hj.elim (fun h => by have := hY j q h; omega) fun h => by omega)
          (a1.mono (fun _ _ h => h.elim id .inr) (fun _ _ h => h) (fun _ _ h => h) (fun _ _ h => h)) (by
            show g.inDeg (i + 1) e.dst = _
            rcases h5.inDeg (i + 1) e.dst with hx | hz | heq
            · rcases hx with hx | hx
              · have := hY _ _ hx; omega
              · omega
            · omega
            · rw [heq, hin]; omega)
        have same1 : SameTo i g (g.cutFrom e) := cut_to he h5.nodup (by omega) rfl (fun _ h => cutFrom_supp h) rfl
        have less1 : Less n g (g.cutFrom e) := cut_less he h5.nodup rfl rfl fun p w hpw _ hc => by
          have := hpw.2 (i - 1) (by omega)
          refine ins_zero.1 h4 _ this ⟨by simp only; omega, ?_⟩
          have := congrArg Edge.src hc
          simp only [hl, hd] at this
          rw [← this]
          simp only
          congr 1
          omega
        obtain ⟨c1, c2, c3⟩ := ihR _ (fun f hf hfk => by
            have := (hm f).1 ((b2.edges f (by omega)).1 hf)
            exact (List.mem_cons.1 (h1 f this.2 hfk)).resolve_left this.1)
          (fun f hf => ⟨(b2.edges f (by have := h2 f (by simp [hf]); omega)).2 ((hm f).2 ⟨fun hc => hne (hc ▸ hf), (h2 f (by simp [hf])).1⟩), (h2 f (by simp [hf])).2⟩) h3'
          (by rw [b2.ins _ _ (by omega), same1.ins _ _ (by omega)]; exact h4) b1
        exact ⟨c1, (same1.trans (b2.mono (by omega))).trans c2, (less1.trans b3).trans c3⟩
    have same0 : SameTo i g (g.lessIn i k) := ⟨fun _ _ => Iff.rfl, fun _ _ => Iff.rfl, fun _ _ _ => rfl, fun _ _ _ => rfl, rfl⟩
    have less0 : Less n g (g.lessIn i k) := ⟨fun _ h => h, fun _ _ h => h, rfl⟩
    have hd : (g.lessIn i k).inDeg i k = g.ins i k := by show (if i = i ∧ k = k then g.inDeg i k - 1 else g.inDeg i k) = _; rw [if_pos ⟨rfl, rfl⟩, hp]; omega
    unfold decIn
    dsimp only
    by_cases h0 : (g.lessIn i k).inDeg i k = 0
    · rw [if_pos h0]
      obtain ⟨c1, c2, c3⟩ := loop ((g.lessIn i k).edges.filter fun e => decide (e.layer = i ∧ e.src = k)) (g.lessIn i k) (fun e he hk => List.mem_filter.2 ⟨he, decide_eq_true hk⟩)
        (fun e he => ⟨(List.mem_filter.1 he).1, of_decide_eq_true (List.mem_filter.1 he).2⟩) (h.nodup.filter _) (show g.ins i k = 0 by omega)
        (Inv.lessIn_off (h.mono (fun _ _ h => .inl h) (fun _ _ h => h) (fun _ _ h => h) (fun _ _ h => .inl h)))
      exact ⟨c1, same0.trans c2, less0.trans c3⟩
    · rw [if_neg h0]
      exact ⟨h.lessIn hp fun hz => absurd (by omega) h0, same0, less0⟩

abbrev none2 : Nat → Nat → Prop := fun _ _ => False
abbrev noneZ : Nat → Int → Prop := fun _ _ => False

/-- What removing edges of layer `i` leaves of this layer: the other edges, and the list of supports. -/
structure Only (i : Nat) (gone : Edge → Prop) (g g' : Graph) : Prop where
  edges : ∀ e, e.layer = i → (e ∈ g'.edges ↔ e ∈ g.edges ∧ ¬ gone e)
  supp : ∀ s, s.1 = i → (s ∈ g'.supp ↔ s ∈ g.supp)

/-- Edges only go away, and no way through the graph that uses none of the given edges is lost. -/
structure LessBut (n : Nat) (gone : Edge → Prop) (g g' : Graph) : Prop where
  edges : ∀ e ∈ g'.edges, e ∈ g.edges
  path : ∀ p w, Path n g p w → (∀ i, i < n → ¬ gone ⟨i, p i, w i, p (i + 1)⟩) → Path n g' p w
  init : g'.initialised = g.initialised

theorem remove_spec {e : Edge} (he : e ∈ g.edges) (h : Inv A n none2 none2 Z none2 g) (hz : ∀ i v, i = e.layer → v = e.val → Z i v) :
    Inv A n none2 none2 Z none2 (remove n g e) ∧ Only e.layer (· = e) g (remove n g e) ∧ LessBut n (· = e) g (remove n g e) := by
  obtain ⟨g1, hg1⟩ : ∃ g1 : Graph, g1 = { g with edges := g.edges.erase e } := ⟨_, rfl⟩
  have hrem : remove n g e = decIn (n - (e.layer + 1)) (e.layer + 1) e.dst (decOut e.layer e.src g1) := by rw [hg1]; rfl
  have ed : g1.edges = g.edges.erase e := by rw [hg1]
  have hs : g1.supp = g.supp := by rw [hg1]
  have ho : g1.outDeg = g.outDeg := by rw [hg1]
  have hi : g1.inDeg = g.inDeg := by rw [hg1]
  have hinit : g1.initialised = g.initialised := by rw [hg1]
  have hm := mem_cut (g' := g1) he h.nodup ed
  have hlt := (h.real e he).1
  have a := h.cut (g' := g1) he ed ho hi (hs ▸ h.suppNodup) (Z' := Z) (W' := none2)
    (fun s hs' => (h.suppEdge s (hs ▸ hs')).elim .inl fun ⟨f, m, e1, e2, e3⟩ => by
      by_cases hc : f = e
      · subst hc; exact .inl (hz _ _ e1.symm e2.symm)
      · exact .inr ⟨f, (hm f).2 ⟨hc, m⟩, e1, e2, e3⟩)
    (fun f hf => by rw [hs]; exact h.edgeSupp f ((hm f).1 hf).2)
  have hout := outs_cut (g' := g1) he ed e.layer e.src
  rw [if_pos ⟨rfl, rfl⟩] at hout
  have hin := ins_cut (g' := g1) he ed (e.layer + 1) e.dst
  rw [if_pos ⟨rfl, rfl⟩] at hin
  obtain ⟨b1, b2, b3⟩ := decOut_spec (A := A) (n := n) (Z := Z) (W := none2) e.layer e.src g1 none2 (orAt none2 (e.layer + 1) e.dst) hlt (fun _ _ h => h.elim) a (by
    rw [ho]
    rcases h.outDeg e.layer e.src with hx | hx | hx
    · exact hx.elim
    · omega
    · omega)
  obtain ⟨c1, c2, c3⟩ := decIn_spec (A := A) (n := n) (Z := Z) (n - (e.layer + 1)) (e.layer + 1) e.dst (decOut e.layer e.src g1) none2 none2 none2 (by omega) (by omega) (fun _ _ h => h.elim) b1 (by
    rw [b2.inDeg, hi, b2.ins _ _ (by omega)]
    rcases h.inDeg (e.layer + 1) e.dst with hx | hx | hx
    · exact hx.elim
    · omega
    · omega)
  rw [← hrem] at c1 c2 c3
  refine ⟨c1, ⟨fun f hf => ?_, fun s hs' => ?_⟩, fun f hf => ((hm f).1 (b3.edges f (c3.edges f hf))).2, fun p w hp hg => c3.path p w (b3.path p w ⟨hp.1, fun i hi => (hm _).2 ⟨hg i hi, hp.2 i hi⟩⟩), ?_⟩
  · rw [c2.edges f (by omega), b2.edges f (by omega), hm, And.comm]
  · rw [c2.supp s (by omega), b2.supp s (by omega), hs]
  · rw [c3.init, b3.init, hinit]

theorem removes_spec {i : Nat} {v : Int} : ∀ (R : List Edge) (g : Graph), R.Nodup → (∀ e ∈ R, e ∈ g.edges ∧ e.layer = i ∧ e.val = v) → Inv A n none2 none2 (fun j x => j = i ∧ x = v) none2 g →
    Inv A n none2 none2 (fun j x => j = i ∧ x = v) none2 (R.foldl (remove n) g) ∧ Only i (· ∈ R) g (R.foldl (remove n) g) ∧ LessBut n (· ∈ R) g (R.foldl (remove n) g)
  | [], g, _, _, h => ⟨h, ⟨by simp, by simp⟩, ⟨fun _ h => h, fun _ _ h _ => h, rfl⟩⟩
  | e :: R, g, hn, hR, h => by
    obtain ⟨he, hl, hv⟩ := hR e (by simp)
    obtain ⟨hne, hn'⟩ := List.nodup_cons.1 hn
    obtain ⟨a1, a2, a3⟩ := remove_spec he h (fun j x h1 h2 => ⟨by omega, by omega⟩)
    rw [hl] at a2
    obtain ⟨b1, b2, b3⟩ := removes_spec R (remove n g e) hn' (fun f hf => by
      have := hR f (by simp [hf])
      exact ⟨(a2.edges f this.2.1).2 ⟨this.1, fun hc => hne (hc ▸ hf)⟩, this.2⟩) a1
    refine ⟨b1, ⟨fun f hf => ?_, fun s hs => ?_⟩, fun f hf => a3.edges f (b3.edges f hf), fun p w hp hg => b3.path p w (a3.path p w hp fun j hj hc => hg j hj (by simp [hc])) fun j hj hc => hg j hj (by simp [hc]), ?_⟩
    · show f ∈ (R.foldl (remove n) (remove n g e)).edges ↔ _
      rw [b2.edges f hf, a2.edges f hf]; simp [and_assoc]
    · show s ∈ (R.foldl (remove n) (remove n g e)).supp ↔ _
      rw [b2.supp s hs, a2.supp s hs]
    · show (R.foldl (remove n) (remove n g e)).initialised = _
      rw [b3.init, a3.init]

/-- The graph, when nothing is pending. -/
abbrev Good (A : Auto) (n : Nat) (g : Graph) : Prop := Inv A n none2 none2 noneZ none2 g

/-- How edges are found: in the graph, or in an automaton that is deterministic. -/
def Finds (A : Auto) (l : Lookup) : Prop := l = .graph ∨ ∀ i q v, (A.next i q v).length ≤ 1

theorem doomed_spec {l : Lookup} (hl : Finds A l) (h : Good A n g) (i : Nat) (v : Int) : (doomed A l g i v).Nodup ∧ ∀ e, e ∈ doomed A l g i v ↔ e ∈ g.edges ∧ e.layer = i ∧ e.val = v := by
  have key : ∀ s ∈ g.supp, s.1 = i → s.2.1 = v → (targets A l g i s.2.2 v).Nodup ∧ ∀ e, e ∈ targets A l g i s.2.2 v ↔ e ∈ g.edges ∧ e.layer = i ∧ e.src = s.2.2 ∧ e.val = v := by
    intro s hs h1 h2
    have graph : (targets A .graph g i s.2.2 v).Nodup ∧ ∀ e, e ∈ targets A .graph g i s.2.2 v ↔ e ∈ g.edges ∧ e.layer = i ∧ e.src = s.2.2 ∧ e.val = v :=
      ⟨h.nodup.filter _, fun e => by simp [targets]⟩
    cases l with
    | graph => exact graph
    | automaton =>
      have hd := (hl.resolve_left (fun h => nomatch h)) i s.2.2 v
      obtain ⟨e, he, e1, e2, e3⟩ := (h.suppEdge s hs).resolve_left (fun h => h.elim)
      have hr := (h.real e he).2.1
      rw [e1, e2, e3, h1, h2] at hr
      obtain ⟨q, hq⟩ : ∃ q, A.next i s.2.2 v = [q] := by
        match hm : A.next i s.2.2 v, hd with
        | [], _ => rw [hm] at hr; nomatch hr
        | [q], _ => exact ⟨q, rfl⟩
        | _ :: _ :: _, h => simp at h
      have heq : e = ⟨i, s.2.2, v, q⟩ := by
        rw [hq, List.mem_singleton] at hr
        cases e; simp_all
      simp only [targets, hq, List.map_cons, List.map_nil]
      refine ⟨by simp, fun f => ?_⟩
      rw [List.mem_singleton]
      refine ⟨fun hf => by subst hf; exact ⟨heq ▸ he, rfl, rfl, rfl⟩, fun ⟨f1, f2, f3, f4⟩ => ?_⟩
      have hr' := (h.real f f1).2.1
      rw [f2, f3, f4, hq, List.mem_singleton] at hr'
      cases f; simp_all
  unfold doomed
  constructor
  · refine List.pairwise_flatMap.2 ⟨fun s hs => ?_, ?_⟩
    · obtain ⟨h1, h2⟩ := List.mem_filter.1 hs
      have h2 := of_decide_eq_true h2
      exact (key s h1 h2.1 h2.2).1
    · refine (h.suppNodup.filter _).imp_of_mem ?_
      intro s t hs ht hne x hx y hy hxy
      obtain ⟨h1, h2⟩ := List.mem_filter.1 hs
      have h2 := of_decide_eq_true h2
      obtain ⟨h3, h4⟩ := List.mem_filter.1 ht
      have h4 := of_decide_eq_true h4
      have hx := ((key s h1 h2.1 h2.2).2 x).1 hx
      have hy := ((key t h3 h4.1 h4.2).2 y).1 hy
      subst hxy
      apply hne
      rcases s with ⟨s1, s2, s3⟩
      rcases t with ⟨t1, t2, t3⟩
      simp_all
  · intro e
    simp only [List.mem_flatMap, List.mem_filter, decide_eq_true_eq]
    constructor
    · rintro ⟨s, ⟨h1, h2⟩, h3⟩
      have := ((key s h1 h2.1 h2.2).2 e).1 h3
      exact ⟨this.1, this.2.1, this.2.2.2⟩
    · rintro ⟨h1, h2, h3⟩
      have := (h.edgeSupp e h1).resolve_left (fun h => h.elim)
      exact ⟨_, ⟨this, h2, h3⟩, ((key _ this h2 h3).2 e).2 ⟨h1, h2, rfl, h3⟩⟩

theorem dropValue_spec {l : Lookup} (hl : Finds A l) (h : Good A n g) (i : Nat) (v : Int) :
    Good A n (dropValue A l n i v g) ∧ Only i (·.val = v) { g with supp := g.supp.filter fun s => decide (¬ (s.1 = i ∧ s.2.1 = v)) } (dropValue A l n i v g) ∧ LessBut n (fun e => e.layer = i ∧ e.val = v) g (dropValue A l n i v g) := by
  obtain ⟨hn, hd⟩ := doomed_spec hl h i v
  obtain ⟨a1, a2, a3⟩ := removes_spec (A := A) (n := n) (doomed A l g i v) g hn (fun e he => (hd e).1 he) (h.mono (fun _ _ h => h) (fun _ _ h => h) (fun _ _ h => h.elim) (fun _ _ h => h))
  have none : ∀ e ∈ ((doomed A l g i v).foldl (remove n) g).edges, ¬ (e.layer = i ∧ e.val = v) := fun e he hc => by
    have := (a2.edges e hc.1).1 he
    exact this.2 ((hd e).2 ⟨this.1, hc⟩)
  refine ⟨⟨a1.real, a1.nodup, fun s hs => ?_, fun e he => ?_, a1.suppNodup.filter _, a1.outDeg, a1.inDeg, a1.ahead, a1.behind⟩, ⟨fun e he => ?_, fun s hs => ?_⟩, a3.edges, fun p w hp hg => a3.path p w hp fun j hj hc => ?_, a3.init⟩
  · obtain ⟨h1, h2⟩ := List.mem_filter.1 hs
    have h2 := of_decide_eq_true h2
    exact .inr ((a1.suppEdge s h1).resolve_left h2)
  · have := (a1.edgeSupp e he).resolve_left (fun h => h.elim)
    exact .inr (List.mem_filter.2 ⟨this, decide_eq_true (none e he)⟩)
  · refine (a2.edges e he).trans ?_
    rw [hd]
    exact ⟨fun h => ⟨h.1, fun hv => h.2 ⟨h.1, he, hv⟩⟩, fun h => ⟨h.1, fun hc => h.2 hc.2.2⟩⟩
  · show s ∈ List.filter _ _ ↔ s ∈ List.filter _ _
    rw [List.mem_filter, List.mem_filter, a2.supp s hs]
  · exact hg j hj ((hd _).1 hc).2

end
end Gcs.Layered
