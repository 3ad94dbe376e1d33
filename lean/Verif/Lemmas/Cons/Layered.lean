import Verif.Lemmas.Cons.LayeredGraph
import Verif.Lemmas.Cons.LinearIncremental
import Verif.Lemmas.Heuristics

/-!
# Regular and MDD: helper lemmas
-/

namespace Gcs.Layered
open IntervalSet

/-- An accepting run: `p i` is the state in which the `i`-th value is read, which is `w i`. -/
def Run (A : Auto) (n : Nat) (p : Nat → Nat) (w : Nat → Int) : Prop := p 0 = 0 ∧ (∀ i, i < n → p (i + 1) ∈ A.next i (p i) (w i)) ∧ (p n : Int) ∈ A.final

section
variable {A : Auto} {n : Nat} {g : Graph}

/-! ## Making the graph -/

/-- What the two phases compute. -/
structure Unfolded (A : Auto) (n : Nat) (V : Nat → Int → Prop) (i : Nat) (nodes : List Nat) (E : List Edge) (alive : List Nat) : Prop where
  sub : ∀ q ∈ alive, q ∈ nodes
  real : ∀ e ∈ E, i ≤ e.layer ∧ e.layer < n ∧ e.dst ∈ A.next e.layer e.src e.val ∧ V e.layer e.val
  nodup : E.Nodup
  first : ∀ e ∈ E, e.layer = i → e.src ∈ alive
  ahead : ∀ e ∈ E, (e.layer + 1 = n ∧ (e.dst : Int) ∈ A.final) ∨ ∃ f ∈ E, f.layer = e.layer + 1 ∧ f.src = e.dst
  behind : ∀ e ∈ E, e.layer = i ∨ ∃ f ∈ E, f.layer + 1 = e.layer ∧ f.dst = e.src
  lives : ∀ q ∈ alive, (i = n ∧ (q : Int) ∈ A.final) ∨ ∃ e ∈ E, e.layer = i ∧ e.src = q
  runs : ∀ (p : Nat → Nat) (w : Nat → Int), p i ∈ nodes → (∀ j, i ≤ j → j < n → p (j + 1) ∈ A.next j (p j) (w j) ∧ V j (w j)) → (p n : Int) ∈ A.final →
    p i ∈ alive ∧ ∀ j, i ≤ j → j < n → ⟨j, p j, w j, p (j + 1)⟩ ∈ E

theorem mem_liveEdges {i : Nat} {vals : List Int} {nodes alive : List Nat} {e : Edge} :
    e ∈ liveEdges A i vals nodes alive ↔ e.layer = i ∧ e.val ∈ vals ∧ e.src ∈ nodes ∧ e.dst ∈ A.next i e.src e.val ∧ e.dst ∈ alive := by
  unfold liveEdges
  simp only [List.mem_flatMap, List.mem_map, List.mem_filter, decide_eq_true_eq]
  constructor
  · rintro ⟨v, hv, q, hq, q', ⟨h1, h2⟩, rfl⟩; exact ⟨rfl, hv, hq, h1, h2⟩
  · rintro ⟨rfl, h2, h3, h4, h5⟩; exact ⟨_, h2, _, h3, _, ⟨h4, h5⟩, rfl⟩

theorem nodup_liveEdges (hA : ∀ i q v, (A.next i q v).Nodup) {i : Nat} {vals : List Int} {nodes alive : List Nat} (hv : vals.Nodup) (hq : nodes.Nodup) : (liveEdges A i vals nodes alive).Nodup := by
  unfold liveEdges
  refine List.pairwise_flatMap.2 ⟨fun v _ => List.pairwise_flatMap.2 ⟨fun q _ => List.pairwise_map.2 (((hA i q v).filter _).imp fun h1 h2 => h1 (Edge.mk.inj h2).2.2.2), hq.imp ?_⟩, hv.imp ?_⟩
  · rintro q1 q2 hne x hx y hy rfl
    obtain ⟨_, _, rfl⟩ := List.mem_map.1 hx
    obtain ⟨_, _, h⟩ := List.mem_map.1 hy
    exact hne (Edge.mk.inj h).2.1.symm
  · rintro v1 v2 hne x hx y hy rfl
    obtain ⟨_, _, hx⟩ := List.mem_flatMap.1 hx
    obtain ⟨_, _, hy⟩ := List.mem_flatMap.1 hy
    obtain ⟨_, _, rfl⟩ := List.mem_map.1 hx
    obtain ⟨_, _, h⟩ := List.mem_map.1 hy
    exact hne (Edge.mk.inj h).2.2.1.symm

theorem mem_reached {i : Nat} {vals : List Int} {nodes : List Nat} {q' : Nat} : q' ∈ reached A i vals nodes ↔ ∃ v ∈ vals, ∃ q ∈ nodes, q' ∈ A.next i q v := by
  unfold reached
  simp only [mem_toSet, List.mem_flatMap]

theorem unfold_spec (hA : ∀ i q v, (A.next i q v).Nodup) {V : Nat → Int → Prop} : ∀ (Ls : List (List Int)) (i : Nat) (nodes : List Nat), i + Ls.length = n → nodes.Nodup →
    (∀ j l, Ls[j]? = some l → l.Nodup ∧ ∀ x, x ∈ l ↔ V (i + j) x) → Unfolded A n V i nodes (unfold A i Ls nodes).1 (unfold A i Ls nodes).2
  | [], i, nodes, hn, _, _ => by
    have hn : i = n := by simpa using hn
    have hm : ∀ q, q ∈ nodes.filter (fun q : Nat => decide ((q : Int) ∈ A.final)) ↔ q ∈ nodes ∧ (q : Int) ∈ A.final := fun q => by simp
    refine ⟨fun q hq => ((hm q).1 hq).1, (fun e h => nomatch h), List.nodup_nil, (fun e h => nomatch h), (fun e h => nomatch h), (fun e h => nomatch h), fun q hq => .inl ⟨hn, ((hm q).1 hq).2⟩, fun p w h1 _ h3 => ⟨(hm _).2 ⟨h1, ?_⟩, fun j _ _ => by omega⟩⟩
    rw [hn]; exact h3
  | vals :: rest, i, nodes, hn, hq, hL => by
    have hn' : i + 1 + rest.length = n := by simp only [List.length_cons] at hn; omega
    have ih := unfold_spec hA rest (i + 1) (reached A i vals nodes) hn' (nodup_toSet _) fun j l h => by
      have := hL (j + 1) l (by simpa using h)
      rwa [show i + (j + 1) = i + 1 + j by omega] at this
    obtain ⟨hvn, hvm⟩ := hL 0 vals rfl
    simp only [Nat.add_zero] at hvm
    obtain ⟨E, hE⟩ : ∃ E, E = (unfold A (i + 1) rest (reached A i vals nodes)).1 := ⟨_, rfl⟩
    obtain ⟨al, hal⟩ : ∃ al, al = (unfold A (i + 1) rest (reached A i vals nodes)).2 := ⟨_, rfl⟩
    rw [← hE, ← hal] at ih
    have e1 : (unfold A i (vals :: rest) nodes).1 = liveEdges A i vals nodes al ++ E := by rw [hE, hal]; rfl
    have e2 : (unfold A i (vals :: rest) nodes).2 = nodes.filter fun q => (liveEdges A i vals nodes al).any fun e => decide (e.src = q) := by rw [hal]; rfl
    rw [e1, e2]
    have hm : ∀ q, q ∈ nodes.filter (fun q => (liveEdges A i vals nodes al).any fun e => decide (e.src = q)) ↔ q ∈ nodes ∧ ∃ e ∈ liveEdges A i vals nodes al, e.src = q := fun q => by simp
    refine ⟨fun q hq => ((hm q).1 hq).1, fun e he => ?_, ?_, fun e he hl => ?_, fun e he => ?_, fun e he => ?_, fun q hq => ?_, fun p w h1 h2 h3 => ?_⟩
    · rcases List.mem_append.1 he with he | he
      · obtain ⟨rfl, a2, a3, a4, a5⟩ := mem_liveEdges.1 he
        exact ⟨Nat.le_refl _, by omega, a4, (hvm _).1 a2⟩
      · obtain ⟨a1, a2⟩ := ih.real e he
        exact ⟨by omega, a2⟩
    · refine List.nodup_append.2 ⟨nodup_liveEdges hA hvn hq, ih.nodup, fun e he f hf hef => ?_⟩
      subst hef
      have := (mem_liveEdges.1 he).1
      have := (ih.real e hf).1
      omega
    · rcases List.mem_append.1 he with he | he
      · exact (hm _).2 ⟨(mem_liveEdges.1 he).2.2.1, e, he, rfl⟩
      · have := (ih.real e he).1; omega
    · rcases List.mem_append.1 he with he | he
      · obtain ⟨a1, a2, a3, a4, a5⟩ := mem_liveEdges.1 he
        rcases ih.lives _ a5 with h | ⟨f, hf, h1, h2⟩
        · exact .inl ⟨by omega, h.2⟩
        · exact .inr ⟨f, List.mem_append_right _ hf, by omega, h2⟩
      · exact (ih.ahead e he).imp id fun ⟨f, hf, h⟩ => ⟨f, List.mem_append_right _ hf, h⟩
    · rcases List.mem_append.1 he with he | he
      · exact .inl (mem_liveEdges.1 he).1
      · rcases ih.behind e he with h | ⟨f, hf, h⟩
        · have hs := ih.first e he h
          obtain ⟨v, hv, q, hq', hnx⟩ := mem_reached.1 (ih.sub _ hs)
          exact .inr ⟨⟨i, q, v, e.src⟩, List.mem_append_left _ (mem_liveEdges.2 ⟨rfl, hv, hq', hnx, hs⟩), h.symm, rfl⟩
        · exact .inr ⟨f, List.mem_append_right _ hf, h⟩
    · obtain ⟨_, e, he, h⟩ := (hm q).1 hq
      exact .inr ⟨e, List.mem_append_left _ he, (mem_liveEdges.1 he).1, h⟩
    · have h0 := h2 i (Nat.le_refl _) (by omega)
      obtain ⟨b1, b2⟩ := ih.runs p w (mem_reached.2 ⟨w i, (hvm _).2 h0.2, p i, h1, h0.1⟩) (fun j h => h2 j (by omega)) h3
      have he : ⟨i, p i, w i, p (i + 1)⟩ ∈ liveEdges A i vals nodes al := mem_liveEdges.2 ⟨rfl, (hvm _).2 h0.2, h1, h0.1, b1⟩
      refine ⟨(hm _).2 ⟨h1, _, he, rfl⟩, fun j hj1 hj2 => ?_⟩
      by_cases hj : j = i
      · subst hj; exact List.mem_append_left _ he
      · exact List.mem_append_right _ (b2 j (by omega) hj2)

/-! ## Ways through the graph -/

theorem Good.back (h : Good A n g) : ∀ (i : Nat) (e : Edge), e ∈ g.edges → e.layer = i → ∃ (p : Nat → Nat) (w : Nat → Int), p 0 = 0 ∧ p i = e.src ∧ w i = e.val ∧ p (i + 1) = e.dst ∧ ∀ j, j ≤ i → ⟨j, p j, w j, p (j + 1)⟩ ∈ g.edges
  | 0, e, he, hl => by
    have hs : e.src = 0 := by
      rcases h.behind e he with h | h | h
      · exact h.elim
      · exact h.2
      · obtain ⟨f, _, hf, _⟩ := ins_pos.1 h; omega
    refine ⟨fun j => if j = 0 then 0 else e.dst, fun _ => e.val, rfl, hs.symm, rfl, rfl, fun j hj => ?_⟩
    obtain rfl : j = 0 := by omega
    show ⟨0, 0, e.val, e.dst⟩ ∈ g.edges
    rw [show (⟨0, 0, e.val, e.dst⟩ : Edge) = e by cases e; simp_all]; exact he
  | i + 1, e, he, hl => by
    obtain ⟨f, hf, h1, h2⟩ : ∃ f ∈ g.edges, f.layer + 1 = i + 1 ∧ f.dst = e.src := by
      rcases h.behind e he with h | h | h
      · exact h.elim
      · omega
      · obtain ⟨f, hf, h⟩ := ins_pos.1 h; exact ⟨f, hf, by omega, h.2⟩
    obtain ⟨p, w, p0, p1, p2, p3, p4⟩ := Good.back h i f hf (by omega)
    refine ⟨fun j => if j ≤ i + 1 then p j else e.dst, fun j => if j ≤ i then w j else e.val, by simpa using p0, by simp [p3, h2], if_neg (by omega), if_neg (by omega), fun j hj => ?_⟩
    by_cases hc : j ≤ i
    · dsimp only; rw [if_pos (by omega), if_pos hc, if_pos (by omega)]; exact p4 j hc
    · obtain rfl : j = i + 1 := by omega
      dsimp only; rw [if_pos (Nat.le_refl _), if_neg hc, if_neg (by omega), p3, h2, ← hl]; exact he

theorem Good.forth (h : Good A n g) : ∀ (r : Nat) (e : Edge), e ∈ g.edges → e.layer + r + 1 = n → ∃ (p : Nat → Nat) (w : Nat → Int), p e.layer = e.src ∧ w e.layer = e.val ∧ (p n : Int) ∈ A.final ∧ ∀ j, e.layer ≤ j → j < n → ⟨j, p j, w j, p (j + 1)⟩ ∈ g.edges
  | 0, e, he, hl => by
    refine ⟨fun j => if j = e.layer then e.src else e.dst, fun _ => e.val, by simp, rfl, ?_, fun j h1 h2 => ?_⟩
    · dsimp only; rw [if_neg (by omega)]
      rcases h.ahead e he with h | h | h'
      · exact h.elim
      · exact h.2
      · obtain ⟨f, hf, h1, _⟩ := outs_pos.1 h'
        have := (h.real f hf).1
        omega
    · obtain rfl : j = e.layer := by omega
      dsimp only; rw [if_pos rfl, if_neg (by omega)]; exact he
  | r + 1, e, he, hl => by
    obtain ⟨f, hf, h1, h2⟩ : ∃ f ∈ g.edges, f.layer = e.layer + 1 ∧ f.src = e.dst := by
      rcases h.ahead e he with h | h | h
      · exact h.elim
      · omega
      · exact outs_pos.1 h
    obtain ⟨p, w, p1, p2, p3, p4⟩ := Good.forth h r f hf (by omega)
    rw [h1] at p1 p2 p4
    refine ⟨fun j => if j ≤ e.layer then e.src else p j, fun j => if j ≤ e.layer then e.val else w j, by simp, by simp, by dsimp only; rw [if_neg (by omega)]; exact p3, fun j hj1 hj2 => ?_⟩
    by_cases hc : j = e.layer
    · subst hc
      dsimp only; rw [if_pos (Nat.le_refl _), if_pos (Nat.le_refl _), if_neg (by omega), p1, h2]; exact he
    · dsimp only; rw [if_neg (by omega), if_neg (by omega), if_neg (by omega)]; exact p4 j (by omega) hj2

/-- Every edge is of use. -/
theorem Good.through (h : Good A n g) {e : Edge} (he : e ∈ g.edges) : ∃ p w, Path n g p w ∧ Run A n p w ∧ w e.layer = e.val := by
  have hlt := (h.real e he).1
  obtain ⟨p, w, p0, p1, p2, p3, p4⟩ := h.back e.layer e he rfl
  obtain ⟨p', w', q1, q2, q3, q4⟩ := h.forth (n - e.layer - 1) e he (by omega)
  have path : Path n g (fun j => if j ≤ e.layer then p j else p' j) (fun j => if j ≤ e.layer then w j else w' j) := by
    refine ⟨by simpa using p0, fun j hj => ?_⟩
    by_cases hc : j < e.layer
    · dsimp only; rw [if_pos (by omega), if_pos (by omega), if_pos (by omega)]; exact p4 j (by omega)
    · by_cases hc' : j = e.layer
      · subst hc'
        have := q4 e.layer (Nat.le_refl _) hj
        rw [q1, q2] at this
        dsimp only; rw [if_pos (Nat.le_refl _), if_pos (Nat.le_refl _), if_neg (by omega), p1, p2]; exact this
      · dsimp only; rw [if_neg (by omega), if_neg (by omega), if_neg (by omega)]; exact q4 j (by omega) hj
  refine ⟨_, _, path, ⟨path.1, fun i hi => (h.real _ (path.2 i hi)).2.1, ?_⟩, by simp [p2]⟩
  dsimp only; rw [if_neg (by omega)]; exact q3

end

/-! ## The state -/

section
variable {A : Auto} {vars : List VarId} {d d' : Doms}

/-- A choice of values that are left. -/
def Fits (vars : List VarId) (d : Doms) (w : Nat → Int) : Prop := ∀ (j : Nat) v, vars[j]? = some v → Poss d v (w j)

/-- Nothing that is still possible is missing from the graph. -/
def Keeps (A : Auto) (vars : List VarId) (d : Doms) (g : Graph) : Prop := ∀ p w, Run A vars.length p w → Fits vars d w → Path vars.length g p w

theorem Fits.sub {w : Nat → Int} (hs : ∀ a, Within d' a → Within d a) (h : Fits vars d' w) : Fits vars d w := fun j v hj => Inverse.Poss.mono hs (h j v hj)
theorem Keeps.sub {g : Graph} (hs : ∀ a, Within d' a → Within d a) (h : Keeps A vars d g) : Keeps A vars d' g := fun p w hr hf => h p w hr (hf.sub hs)

/-- Nothing that is gone is left in the graph. -/
def Tight (vars : List VarId) (d : Doms) (i : Nat) (g : Graph) : Prop := ∀ e ∈ g.edges, ∀ (j : Nat) v, vars[j]? = some v → e.layer = i + j → Poss d v e.val

theorem layerValues_roo (hd : DomsOK d) : ∀ vars : List VarId, (∀ v ∈ vars, v.Valid d.length) →
    RightOrOverflow (layerValues d vars) (fun Ls => Ls.length = vars.length ∧ ∀ (j : Nat) l, Ls[j]? = some l → ∃ v, vars[j]? = some v ∧ l.Nodup ∧ (∀ x, x ∈ l ↔ Poss d v x) ∧ ∀ x ∈ l, InI64 x)
  | [], _ => .pure (by simp)
  | v :: vs, h => (values_roo hd (h v (by simp))).bind fun l hl => (layerValues_roo hd vs fun w hw => h w (by simp [hw])).bind fun Ls hLs => .pure ⟨by simp [hLs.1], fun j l' hj => by
      cases j with
      | zero => cases hj; exact ⟨v, rfl, hl.2⟩
      | succ j => simpa using hLs.2 j l' (by simpa using hj)⟩

theorem initialise_roo (hA : ∀ i q v, (A.next i q v).Nodup) (hd : DomsOK d) (hv : ∀ v ∈ vars, v.Valid d.length) :
    RightOrOverflow (initialise A vars d) (fun g => g.initialised = true ∧ Good A vars.length g ∧ Keeps A vars d g) := by
  refine (layerValues_roo hd vars hv).bind fun Ls hLs => .pure ?_
  have U := unfold_spec (A := A) (n := vars.length) hA (V := fun j x => InI64 x ∧ ∃ v, vars[j]? = some v ∧ Poss d v x) Ls 0 [0] (by omega) (by simp) fun j l hj => by
    obtain ⟨v, h1, h2, h3, h4⟩ := hLs.2 j l hj
    refine ⟨h2, fun x => ⟨fun hx => ⟨h4 x hx, v, by simpa using h1, (h3 x).1 hx⟩, ?_⟩⟩
    rintro ⟨_, v', h, hp⟩
    rw [Nat.zero_add, h1] at h
    cases h
    exact (h3 x).2 hp
  obtain ⟨E, hE⟩ : ∃ E, E = (unfold A 0 Ls [0]).1 := ⟨_, rfl⟩
  rw [← hE] at U ⊢
  refine ⟨rfl, ⟨fun e he => ⟨(U.real e he).2.1, (U.real e he).2.2.1, (U.real e he).2.2.2.1⟩, U.nodup, fun s hs => ?_, fun e he => .inr (mem_toSet.2 (List.mem_map.2 ⟨e, he, rfl⟩)), nodup_toSet _,
    fun i q => .inr (.inr rfl), fun i q => .inr (.inr rfl), fun e he => .inr ((U.ahead e he).imp id outs_pos.2), fun e he => .inr ?_⟩, fun p w hr hf => ?_⟩
  · obtain ⟨e, he, rfl⟩ := List.mem_map.1 (mem_toSet.1 hs)
    exact .inr ⟨e, he, rfl, rfl, rfl⟩
  · rcases U.behind e he with h | h
    · exact .inl ⟨h, by simpa using U.sub _ (U.first e he h)⟩
    · exact .inr (ins_pos.2 h)
  · refine ⟨hr.1, fun i hi => (U.runs p w (by simp [hr.1]) (fun j _ hj => ⟨hr.2.1 j hj, ?_⟩) hr.2.2).2 i (Nat.zero_le _) hi⟩
    obtain ⟨v, hjv⟩ : ∃ v, vars[j]? = some v := ⟨_, List.getElem?_eq_getElem hj⟩
    obtain ⟨l, hl⟩ : ∃ l, Ls[j]? = some l := ⟨_, List.getElem?_eq_getElem (by omega)⟩
    obtain ⟨v', h1, _, h3, h4⟩ := hLs.2 j l hl
    rw [hjv] at h1; cases h1
    have := hf j v hjv
    exact ⟨h4 _ ((h3 _).2 this), v, hjv, this⟩

variable {n : Nat} {l : Lookup}

theorem dropValues_roo (hl : Finds A l) (hd : DomsOK d) {v : VarId} (hv : v.Valid d.length) (i : Nat) : ∀ (xs : List Int) (g : Graph), (∀ x ∈ xs, InI64 x) → Good A n g →
    RightOrOverflow (dropValues A l n d i v xs g) (fun g' => Good A n g' ∧ g'.initialised = g.initialised ∧ (∀ e ∈ g'.edges, e ∈ g.edges) ∧ (∀ e ∈ g'.edges, e.layer = i → e.val ∈ xs → Poss d v e.val) ∧
      ∀ p w, Path n g p w → (i < n → Poss d v (w i)) → Path n g' p w)
  | [], g, _, hg => .pure ⟨hg, rfl, fun _ h => h, (fun _ _ _ h => nomatch h), fun _ _ h _ => h⟩
  | x :: xs, g, hx, hg => by
    refine (inDomain_spec hd hv x (hx x (by simp))).bind fun b hb => ?_
    have hx' : ∀ y ∈ xs, InI64 y := fun y hy => hx y (by simp [hy])
    cases b with
    | true =>
      refine (dropValues_roo hl hd hv i xs g hx' hg).mono fun g' hg' => ⟨hg'.1, hg'.2.1, hg'.2.2.1, fun e he h1 h2 => ?_, hg'.2.2.2.2⟩
      rcases List.mem_cons.1 h2 with h | h
      · rw [h]; exact hb.1 rfl
      · exact hg'.2.2.2.1 e he h1 h
    | false =>
      obtain ⟨a1, a2, a3⟩ := dropValue_spec hl hg i x
      refine (dropValues_roo hl hd hv i xs _ hx' a1).mono fun g' hg' => ⟨hg'.1, hg'.2.1.trans a3.init, fun e he => a3.edges e (hg'.2.2.1 e he), fun e he h1 h2 => ?_, fun p w hp hw => ?_⟩
      · rcases List.mem_cons.1 h2 with h | h
        · exact absurd h ((a2.edges e h1).1 (hg'.2.2.1 e he)).2
        · exact hg'.2.2.2.1 e he h1 h
      · refine hg'.2.2.2.2 p w (a3.path p w hp ?_) hw
        rintro j hj ⟨h1, h2⟩
        simp only at h1 h2
        subst h1
        have := hb.2 (h2 ▸ hw hj)
        cases this

theorem mem_valuesAt {g : Graph} (hg : Good A n g) {i : Nat} {x : Int} : x ∈ g.valuesAt i ↔ ∃ e ∈ g.edges, e.layer = i ∧ e.val = x := by
  unfold Graph.valuesAt
  simp only [mem_toSet, List.mem_map, List.mem_filter, decide_eq_true_eq]
  constructor
  · rintro ⟨s, ⟨h1, h2⟩, rfl⟩
    obtain ⟨e, he, e1, e2, _⟩ := (hg.suppEdge s h1).resolve_left (fun h => h.elim)
    exact ⟨e, he, e1.trans h2, e2⟩
  · rintro ⟨e, he, rfl, rfl⟩
    exact ⟨_, ⟨(hg.edgeSupp e he).resolve_left (fun h => h.elim), rfl⟩, rfl⟩

theorem prune_roo (hl : Finds A l) {order : List Int → List Int} (hord : ∀ xs, (order xs).Perm xs) (hd : DomsOK d) : ∀ (vs : List VarId) (i : Nat) (g : Graph), (∀ v ∈ vs, v.Valid d.length) → Good A n g →
    RightOrOverflow (prune A l order n d i vs g) (fun g' => Good A n g' ∧ g'.initialised = g.initialised ∧ (∀ e ∈ g'.edges, e ∈ g.edges) ∧ Tight vs d i g' ∧
      ∀ p w, Path n g p w → (∀ (j : Nat) v, vs[j]? = some v → Poss d v (w (i + j))) → Path n g' p w)
  | [], i, g, _, hg => .pure ⟨hg, rfl, fun _ h => h, (fun _ _ _ _ h => nomatch h), fun _ _ h _ => h⟩
  | v :: vs, i, g, hv, hg => by
    refine (dropValues_roo hl hd (hv v (by simp)) i (order (g.valuesAt i)) g (fun x hx => ?_) hg).bind fun g1 h1 => ?_
    · obtain ⟨e, he, _, rfl⟩ := (mem_valuesAt hg).1 ((hord _).mem_iff.1 hx)
      exact (hg.real e he).2.2
    · refine (prune_roo hl hord hd vs (i + 1) g1 (fun w hw => hv w (by simp [hw])) h1.1).mono fun g2 h2 => ⟨h2.1, h2.2.1.trans h1.2.1, fun e he => h1.2.2.1 e (h2.2.2.1 e he), fun e he j u hj hl' => ?_, fun p w hp hw => ?_⟩
      · have he1 := h2.2.2.1 e he
        cases j with
        | zero =>
          cases hj
          exact h1.2.2.2.1 e he1 hl' ((hord _).mem_iff.2 ((mem_valuesAt hg).2 ⟨e, h1.2.2.1 e he1, hl', rfl⟩))
        | succ j => exact h2.2.2.2.1 e he j u (by simpa using hj) (by omega)
      · refine h2.2.2.2.2 p w (h1.2.2.2.2 p w hp fun _ => by simpa using hw 0 v rfl) fun j u hj => ?_
        have := hw (j + 1) u (by simpa using hj)
        rwa [show i + 1 + j = i + (j + 1) by omega]

/-- What is known of the graph that is stored. -/
def Stored (A : Auto) (vars : List VarId) (d : Doms) (g : Graph) : Prop := g.initialised = true → Good A vars.length g ∧ Keeps A vars d g

theorem update_roo (hA : ∀ i q v, (A.next i q v).Nodup) (hl : Finds A l) {order : List Int → List Int} (hord : ∀ xs, (order xs).Perm xs) (hd : DomsOK d) (hv : ∀ v ∈ vars, v.Valid d.length) {g : Graph} (hg : Stored A vars d g) :
    RightOrOverflow (update A l order vars g d) (fun g' => Good A vars.length g' ∧ Keeps A vars d g' ∧ Tight vars d 0 g') := by
  have start : RightOrOverflow (if g.initialised then .ok g else initialise A vars d) (fun g => g.initialised = true ∧ Good A vars.length g ∧ Keeps A vars d g) := by
    split
    · rename_i h; exact .inr ⟨g, rfl, h, hg h⟩
    · exact initialise_roo hA hd hv
  refine start.bind fun g1 h1 => (prune_roo hl hord hd vars 0 g1 hv h1.2.1).mono fun g2 h2 => ⟨h2.1, fun p w hr hf => h2.2.2.2.2 p w (h1.2.2 p w hr hf) fun j v hj => by simpa using hf j v hj, h2.2.2.2.1⟩

/-! ## The propagator -/

/-- Layer `i` has an edge with this value. -/
def Sup (g : Graph) (i : Nat) (x : Int) : Prop := ∃ s ∈ g.supp, s.1 = i ∧ s.2.1 = x

/-- The values that are given to the variables. -/
def word (vars : List VarId) (a : Asg) : Nat → Int := fun j => match vars[j]? with | some v => v.eval a | none => 0

theorem word_eq {a : Asg} {j : Nat} {v : VarId} (h : vars[j]? = some v) : word vars a j = v.eval a := by simp [word, h]

/-- Some run accepts the values. -/
def Accepted (A : Auto) (vars : List VarId) (a : Asg) : Prop := ∃ p, Run A vars.length p (word vars a)

variable {σ μ : Type} {J : Job}

theorem keepValue_ver {g : Graph} {i : Nat} {v : VarId} (ho : J.R .overflow) (hd : DomsOK d) (hl : d.length = J.n) (hv : v.Valid J.n) (hs : ∀ a, Within d a → J.C a → Sup g i (v.eval a)) {gen : List Int × Option Err} (hg : Lists (Poss d v) gen) :
    (Prog.forGen (keepValue (σ := σ) (μ := μ) g i v) gen).Ver J (fun _ => False) (fun _ d' => ∀ y, Poss d' v y → Sup g i y) d := by
  refine ver_mono (fun _ d' hq y hy => (hq.1.2.2 hq.2 y hy).resolve_left (by simp)) _ _ (ver_gen (J := J) (fun ys d' => (∀ y ∈ ys, y ∈ gen.1) ∧ (∀ a, Within d' a → Within d a) ∧
    (gen.2 = none → ∀ y, Poss d' v y → y ∈ ys ∨ Sup g i y)) hd hl (fun e he => hg.2.2 e he ▸ ho) ?_ ⟨fun _ h => h, fun _ h => h, fun e y hy => .inl (hg.2.1 e y hy)⟩)
  rintro y ys d1 hd1 hl1 ⟨i1, i2, i3⟩
  refine ver_onlyIf (fun hn => ?_) fun hn => ?_
  · refine ver_tell_last (.ne hv (hg.1 y (i1 y (by simp))).1) (fun a ha hc (e : v.eval a = y) => hn (e ▸ hs a (i2 a ha) hc)) fun d2 _ _ h3 =>
      ⟨fun z hz => i1 z (List.mem_cons_of_mem _ hz), fun a ha => i2 a ((h3 a).1 ha).1, fun e z hz => ?_⟩
    obtain ⟨b, hb, e'⟩ := hz
    have h := (h3 b).1 hb
    have hne : z ≠ y := e' ▸ h.2
    exact (i3 e z ⟨b, h.1, e'⟩).imp (fun h' => (List.mem_cons.1 h').resolve_left hne) id
  · have hn : Sup g i y := Classical.not_not.1 hn
    exact ⟨fun z hz => i1 z (List.mem_cons_of_mem _ hz), i2, fun e z hz => (i3 e z hz).elim (fun h => (List.mem_cons.1 h).elim (fun h => .inr (h ▸ hn)) .inl) .inr⟩

theorem keepValues_ver {g : Graph} (ho : J.R .overflow) : ∀ (vs : List VarId) (i : Nat) (d : Doms), DomsOK d → d.length = J.n → (∀ v ∈ vs, v.Valid J.n) → (∀ a, Within d a → J.C a → ∀ (j : Nat) v, vs[j]? = some v → Sup g (i + j) (v.eval a)) →
    (keepValues (σ := σ) (μ := μ) g i vs).Ver J (fun _ => False) (fun _ d' => ∀ (j : Nat) v, vs[j]? = some v → ∀ y, Poss d' v y → Sup g (i + j) y) d
  | [], _, _, _, _, _, _ => (fun _ _ h => nomatch h)
  | v :: vs, i, d, hd, hl, hv, hs => by
    refine ver_ask (f := (eachValue · v)) ho (listed_roo hd (hl ▸ hv v (by simp))) fun gen hg => ?_
    refine ver_seq hd hl (fun _ h => h) (keepValue_ver (i := i) ho hd hl (hv v (by simp)) (fun a ha hc => by simpa using hs a ha hc 0 v rfl) hg) fun _ d1 hd1 hl1 hs1 hq => ?_
    refine ver_mono (fun _ d2 hq2 j u hj y hy => ?_) _ _ (ver_facts _ _ hd1 hl1 (keepValues_ver (g := g) ho vs (i + 1) d1 hd1 hl1 (fun w hw => hv w (by simp [hw])) fun a ha hc j u hj => by
      have := hs a (hs1 a ha) hc (j + 1) u (by simpa using hj)
      rwa [show i + 1 + j = i + (j + 1) by omega]))
    cases j with
    | zero => cases hj; simpa using hq y (Inverse.Poss.mono hq2.1.2.2 hy)
    | succ j =>
      have := hq2.2 j u (by simpa using hj) y hy
      rwa [show i + 1 + j = i + (j + 1) by omega] at this

theorem Sup.edge {g : Graph} {n i : Nat} {x : Int} (hg : Good A n g) (h : Sup g i x) : ∃ e ∈ g.edges, e.layer = i ∧ e.val = x := by
  obtain ⟨s, hs, rfl, rfl⟩ := h
  obtain ⟨e, he, e1, e2, _⟩ := (hg.suppEdge s hs).resolve_left (fun h => h.elim)
  exact ⟨e, he, e1, e2⟩

theorem Keeps.sup {g : Graph} (hg : Good A vars.length g) (hk : Keeps A vars d g) {a : Asg} (ha : Within d a) (h : Accepted A vars a) {j : Nat} {v : VarId} (hj : vars[j]? = some v) : Sup g j (v.eval a) := by
  obtain ⟨p, hp⟩ := h
  have := (hk p _ hp fun i u hi => ⟨a, ha, (word_eq hi).symm⟩).2 j (List.getElem?_eq_some_iff.1 hj).1
  exact ⟨_, (hg.edgeSupp _ this).resolve_left (fun h => h.elim), rfl, word_eq hj⟩

/-- If the variables have values, there are no other values in the graph. -/
theorem accepted_of_sup {g : Graph} (hg : Good A vars.length g) (ht : Tight vars d 0 g) (hk : ∀ v ∈ vars, Known d v) {a : Asg} (ha : Within d a) {j : Nat} {v : VarId} (hj : vars[j]? = some v) (h : Sup g j (v.eval a)) :
    Accepted A vars a := by
  obtain ⟨e, he, _, _⟩ := h.edge hg
  obtain ⟨p, w, hp, hr, _⟩ := hg.through he
  refine ⟨p, hr.1, fun i hi => ?_, hr.2.2⟩
  obtain ⟨u, hu⟩ : ∃ u, vars[i]? = some u := ⟨_, List.getElem?_eq_getElem hi⟩
  obtain ⟨b, hb, e⟩ := ht _ (hp.2 i hi) i u hu (by simp)
  rw [word_eq hu, show u.eval a = w i from (hk u (List.mem_of_getElem? hu) a b ha hb).trans e]
  exact hr.2.1 i hi

variable {m : Nat} {R : Err → Prop} {root : Doms} {st : Store σ}

/-- What is known of the constraint states. -/
def Has (A : Auto) (vars : List VarId) (st : Store σ) (d : Doms) (z : List σ) : Prop := ∃ g, z[st.handle]? = some (st.kind.put g) ∧ Stored A vars d g

/-- Values come in some order. -/
def Store.OK (st : Store σ) : Prop := ∀ k xs, (st.order k xs).Perm xs

/-- What no inference loses. -/
theorem ver_keeps {α : Type} {J : Job} {S : α → Prop} {Q : α → Doms → Prop} : ∀ (p : Prog σ μ α) (d : Doms), p.Ver J S Q d → p.Ver J S (fun v d' => Q v d' ∧ ∀ a, Within d a → J.C a → Within d' a) d
  | .ret _, _, h => ⟨h, fun _ h _ => h⟩
  | .raise _, _, h => h
  | .fail, _, h => h
  | .read k, d, h => fun s e => ver_keeps (k s) d (h s e)
  | .infer _ _ k, _, h => ⟨h.1, h.2.1, fun d' h1 h2 h3 => ver_mono (fun _ _ h' => ⟨h'.1, fun a ha hc => h'.2 a ((h3 a).2 ⟨ha, h.2.1 a ha hc⟩) hc⟩) _ _ (ver_keeps (k true) d' (h.2.2.1 d' h1 h2 h3)), h.2.2.2⟩
  | .progress k, d, h => fun b => ver_keeps (k b) d (h b)
  | .watch _ _ k, d, h => ⟨h.1, h.2.1, h.2.2.1, h.2.2.2.1, ver_keeps k d h.2.2.2.2⟩
  | .clearWatches k, d, h => ⟨h.1, ver_keeps k d h.2⟩
  | .setWatchState _ _ k, d, h => ⟨h.1, ver_keeps k d h.2⟩
  | .setState _ _ k, d, h => ⟨h.1, ver_keeps k d h.2⟩
  | .setMem _ _, _, h => h.elim

/-- All values are supported. -/
def AllSup (g : Graph) (vars : List VarId) (a : Asg) : Prop := ∀ (j : Nat) v, vars[j]? = some v → Sup g j (v.eval a)

/-- What there is at the end of a call that starts with `d` and ends with `d'`. -/
structure Done (A : Auto) (vars : List VarId) (d d' : Doms) (g : Graph) : Prop where
  ok : DomsOK d'
  sub : ∀ a, Within d' a → Within d a
  good : Good A vars.length g
  keeps : Keeps A vars d g
  tight : Tight vars d 0 g
  sup : ∀ (j : Nat) v, vars[j]? = some v → ∀ y, Poss d' v y → Sup g j y
  rest : ∀ a, Within d a → AllSup g vars a → Within d' a

/-- A property of the domains and the graph at the end of a call. -/
theorem prop_verS {Q : PState → Doms → List σ → Prop} (hA : ∀ i q v, (A.next i q v).Nodup) (hl : Finds A l) (hst : st.OK) (hown : J.own st.handle) (ho : J.R .overflow) (hv : ∀ v ∈ vars, v.Valid J.n)
    (hC : ∀ a, J.C a → Accepted A vars a) {z : List σ} (hd : DomsOK d) (hn : d.length = J.n) (hz : z.length = J.m) (hI : Has A vars st d z)
    (hQ : ∀ g d', Done A vars d d' g → Q .enable d' (z.set st.handle (st.kind.put g))) :
    (prop (μ := μ) A l st vars).VerS J (fun _ => True) Q d z := by
  obtain ⟨g, hu, hg⟩ := hI
  have hlt := (List.getElem?_eq_some_iff.1 hu).1
  rintro s rfl rfl
  dsimp only
  rw [show (s.st.cstates.headD [])[st.handle]? = some (st.kind.put g) from hu]
  dsimp only
  rw [st.kind.get_put]
  dsimp only
  refine verS_ask (f := update A l (st.order s.total) vars g) ho (update_roo hA hl (hst _) hd (fun v h => hn ▸ hv v h) hg) fun g' hg' => ⟨⟨hz ▸ hlt, hown⟩, ?_⟩
  refine verS_bind (S := fun _ => False) (T := fun _ => True) (fun _ h => h.elim) _ _ _ hd hn (verS_mono ?_ _ _ _ (Ver.toS' (ver_weaken (J := { J with own := fun _ => False, C := AllSup g' vars }) (C := J.C) _ _ (fun a ha hc j v hj => hg'.2.1.sup hg'.1 ha (hC a hc) hj)
    (ver_keeps _ _ (keepValues_ver (J := { J with own := fun _ => False, C := AllSup g' vars }) ho vars 0 s.doms hd hn hv fun a _ hc j v hj => by simpa using hc j v hj)))))
  rintro _ d' z' ⟨hq, rfl⟩ k1 k2 k3
  exact hQ g' d' ⟨k1, k3, hg'.1, hg'.2.1, hg'.2.2, fun j v hj y hy => by simpa using hq.1 j v hj y hy, hq.2⟩

theorem prop_enforces (hA : ∀ i q v, (A.next i q v).Nodup) (hl : Finds A l) (hst : st.OK) (ho : R .overflow) (hv : ∀ v ∈ vars, v.Valid n) (hne : vars ≠ []) :
    EnforcesS n m R root (Has A vars st) (· = st.handle) (Accepted A vars) vars (prop (μ := μ) A l st vars) := by
  intro d z hd hn hz hI
  have hlt : st.handle < z.length := by obtain ⟨g, hu, _⟩ := hI; exact (List.getElem?_eq_some_iff.1 hu).1
  refine prop_verS (J := { n, m, R, C := fun a => Within root a ∧ Accepted A vars a, own := (· = st.handle) }) hA hl hst rfl ho hv (fun a h => h.2) hd hn hz hI fun g d' ⟨_, hsub, hg, hk, ht, hsup, _⟩ => ?_
  obtain ⟨v, vs, hvs⟩ : ∃ v vs, vars = v :: vs := by
    cases vars with
    | nil => exact absurd rfl hne
    | cons v vs => exact ⟨v, vs, rfl⟩
  have h0 : vars[0]? = some v := by rw [hvs]; rfl
  refine ⟨Enforced.intro (fun hkn a ha _ => accepted_of_sup hg ht hkn (hsub a ha) h0 (hsup 0 v h0 _ ⟨a, ha, rfl⟩)) (by rintro ⟨⟩) (by rintro ⟨⟩), g, List.getElem?_set_self hlt, fun _ => ⟨hg, hk.sub hsub⟩⟩

/-- Every value that is left is part of a word that is accepted. -/
theorem Done.consistent {g : Graph} (h : Done A vars d d' g) (hd : DomsOK d) (hn : (vars.filterMap VarId.underlyingIndex).Nodup) {v : VarId} (hv : v ∈ vars) {y : Int} (hy : Poss d' v y) : ∃ a, Within d' a ∧ v.eval a = y ∧ Accepted A vars a := by
  obtain ⟨j, hj⟩ := List.mem_iff_getElem?.1 hv
  obtain ⟨e, he, e1, e2⟩ := (h.sup j v hj y hy).edge h.good
  obtain ⟨p, w, hp, hr, hw⟩ := h.good.through he
  have lt : ∀ {i : Nat} {u : VarId}, vars[i]? = some u → i < vars.length := fun hi => (List.getElem?_eq_some_iff.1 hi).1
  obtain ⟨b, hb, hbw⟩ := exists_values hd vars hn w fun i u hi => h.tight _ (hp.2 i (lt hi)) i u hi (by simp)
  refine ⟨b, h.rest b hb fun i u hi => ⟨_, (h.good.edgeSupp _ (hp.2 i (lt hi))).resolve_left (fun h => h.elim), rfl, (hbw i u hi).symm⟩, by rw [hbw j v hj, ← e1, hw, e2], p, hr.1, fun i hi => ?_, hr.2.2⟩
  obtain ⟨u, hu⟩ : ∃ u, vars[i]? = some u := ⟨_, List.getElem?_eq_getElem hi⟩
  rw [word_eq hu, hbw i u hu]
  exact hr.2.1 i hi

theorem Has.sub {z : List σ} (hs : ∀ a, Within d' a → Within d a) (h : Has A vars st d z) : Has A vars st d' z := by
  obtain ⟨g, h1, h2⟩ := h
  exact ⟨g, h1, fun h => ⟨(h2 h).1, (h2 h).2.sub hs⟩⟩

theorem Has.only {z z' : List σ} (hz : ∀ h, h = st.handle → z'[h]? = z[h]?) (h : Has A vars st d z) : Has A vars st d z' := by
  obtain ⟨g, h1, h2⟩ := h
  exact ⟨g, (hz _ rfl).trans h1, h2⟩

theorem Has.start {z : List σ} (h : z[st.handle]? = some (st.kind.put .fresh)) : Has A vars st d z := ⟨_, h, fun h => nomatch h⟩

end
end Gcs.Layered
