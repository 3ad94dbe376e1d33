import Verif.Lemmas.Cons.CircuitScc

/-!
# Checking that all nodes are strongly connected
-/

namespace Gcs.Circuit
open IntervalSet AllDifferent Gac

section
variable {σ μ : Type} {J : Job} {succ : List VarId} {G : Nat → Nat → Prop} {s : Scc}

/-- Between the subtrees. -/
structure Tree (succ : List VarId) (G : Nat → Nat → Prop) (T : Prop) (s : Scc) (ws : List Int) (d : Doms) : Prop where
  num : Num succ.length s
  subs : Subtrees succ s d
  last : s.endPrev + 1 = s.count
  own : ∀ y, E succ d 0 y → (y : Int) ∈ ws ∨ ¬ T ∨ ∃ k, s.visit y = some k
  down : ∀ x k, x ≠ 0 → s.visit x = some k → Path G 0 x ∧ Down G s x k
  rng : Rng succ d
  graph : ∀ x y, E succ d x y → G x y
  todo : ∀ w ∈ ws, InI64 w ∧ 0 ≤ w ∧ w < succ.length ∧ G 0 w.toNat

theorem Tree.sub {T : Prop} {ws : List Int} {d d' : Doms} (h : Tree succ G T s ws d) (hs : ∀ a, Within d' a → Within d a) : Tree succ G T s ws d' :=
  ⟨h.num, h.subs.sub hs, h.last, fun y hy => h.own y (hy.sub hs), h.down, h.rng.sub hs, fun x y e => h.graph x y (e.sub hs), h.todo⟩

theorem Tree.skip {T : Prop} {w : Int} {ws : List Int} {d : Doms} (h : Tree succ G T s (w :: ws) d) {k : Nat} (hk : s.visit w.toNat = some k) : Tree succ G T s ws d := by
  refine ⟨h.num, h.subs, h.last, fun y hy => ?_, h.down, h.rng, h.graph, fun w hw => h.todo w (List.mem_cons_of_mem _ hw)⟩
  rcases h.own y hy with hm | hm | hm
  · rcases List.mem_cons.1 hm with e | hm
    · exact .inr (.inr ⟨k, by rw [show y = w.toNat by omega]; exact hk⟩)
    · exact .inl hm
  · exact .inr (.inl hm)
  · exact .inr (.inr hm)

/-- A tour uses one of the back edges. -/
theorem Tree.exit {T : Prop} {w : Int} {ws : List Int} {d d' : Doms} {r : Scc × List (Nat × Nat)} (h : Tree succ G T s (w :: ws) d) (hs : ∀ a, Within d' a → Within d a) (hr : Explored succ G s w.toNat r d') {a : Asg} (ha : Within d' a)
    (ht : Tour (succ.map (·.eval a))) : ∃ e ∈ r.2, fn succ a e.1 = e.2 := by
  apply Classical.byContradiction
  intro hno
  have hw := h.todo w List.mem_cons_self
  have hrng := h.rng.sub hs
  have hsub := (h.subs.sub hs).grown hr.grown
  have key : ∀ x < succ.length, (∃ k, r.1.visit x = some k ∧ s.count ≤ k) → ∃ k, r.1.visit (fn succ a x) = some k ∧ s.count ≤ k := by
    rintro x hx ⟨k, hk, hle⟩
    obtain ⟨j, h1, _, h3⟩ := hr.edges x k hk hle _ (fn_edge hrng ha hx)
    refine ⟨j, h1, Nat.le_of_not_lt fun hlt => hno ⟨_, h3 ⟨?_, ?_⟩, rfl⟩⟩
    · have := hsub.noSkip hr.grown.num hrng ha ht hx (fun i hi => by
        rw [hk] at hi; cases hi
        have := h.last
        rw [hr.grown.stop]; omega) j h1
      rw [hr.grown.start] at this; exact this
    · have := h.last; omega
  obtain ⟨k, h1, h2⟩ := (tour_loop ht).closed (P := fun x => ∃ k, r.1.visit x = some k ∧ s.count ≤ k) key (i := w.toNat) (j := 0) (by omega) (by omega) ⟨_, hr.num, Nat.le_refl _⟩
  rw [hr.grown.num.root] at h1
  cases h1
  have := h.num.pos
  omega

/-- A further subtree. -/
theorem Tree.explored {T : Prop} {w : Int} {ws : List Int} {d d' : Doms} {r : Scc × List (Nat × Nat)} (h : Tree succ G T s (w :: ws) d) (hs : ∀ a, Within d' a → Within d a) (hr : Explored succ G s w.toNat r d') :
    Tree succ G T { r.1 with startPrev := r.1.endPrev + 1, endPrev := r.1.count - 1 } ws d' := by
  have hw := h.todo w List.mem_cons_self
  have hc := (hr.grown.num.lt _ _ hr.num).2
  have hlast := h.last
  have hstop := hr.grown.stop
  refine ⟨⟨hr.grown.num.lt, hr.grown.num.inj, hr.grown.num.onto, hr.grown.num.root⟩, ⟨?_, ?_, ?_, ?_⟩, ?_, fun y hy => ?_, fun x k hx hk => ?_, h.rng.sub hs, fun x y e => h.graph x y (e.sub hs),
    fun w hw => h.todo w (List.mem_cons_of_mem _ hw)⟩
  · show Below succ (r.1.endPrev + 1) r.1 d'
    rw [hstop]
    exact (h.subs.upper.sub hs).grown hr.grown (by omega)
  · intro x i hx hi _ y hy
    have key : ∃ j, r.1.visit y = some j := by
      by_cases hlt : i < s.count
      · obtain ⟨j, h1, _⟩ := h.subs.upper x i hx (hr.grown.old x i hi hlt) (by omega) y (hy.sub hs)
        exact ⟨j, hr.grown.keep y j h1⟩
      · obtain ⟨j, h1, _⟩ := hr.edges x i hi (by omega) y hy
        exact ⟨j, h1⟩
    obtain ⟨j, h1⟩ := key
    have := (hr.grown.num.lt _ _ h1).2
    exact ⟨j, h1, show j < r.1.count - 1 + 1 by omega⟩
  · show r.1.endPrev + 1 ≤ r.1.count - 1
    omega
  · show r.1.count - 1 < r.1.count
    omega
  · show r.1.count - 1 + 1 = r.1.count
    omega
  · rcases h.own y (hy.sub hs) with hm | hm | ⟨k, hk⟩
    · rcases List.mem_cons.1 hm with e | hm
      · exact .inr (.inr ⟨_, by rw [show y = w.toNat by omega]; exact hr.num⟩)
      · exact .inl hm
    · exact .inr (.inl hm)
    · exact .inr (.inr ⟨k, hr.grown.keep y k hk⟩)
  · by_cases hlt : k < s.count
    · obtain ⟨h1, h2⟩ := h.down x k hx (hr.grown.old x k hk hlt)
      exact ⟨h1, h2.grow hr.grown.keep⟩
    · obtain ⟨h1, y, j, h2, h3, h4⟩ := hr.down x k hk (by omega)
      exact ⟨.on hw.2.2.2 h1, y, j, h2, h3, h4⟩

theorem useBackEdges_ver (o : Options) (ho : J.R .overflow) (hC : ∀ a, J.C a → Tour (succ.map (·.eval a))) (hv : ∀ x ∈ succ, x.Valid J.n) {d : Doms} (hd : DomsOK d) (hl : d.length = J.n) (hrng : Rng succ d) {bs : List (Nat × Nat)}
    (hb : ∀ e ∈ bs, e.1 < succ.length ∧ InI64 (e.2 : Int)) (h : ∀ a, Within d a → Tour (succ.map (·.eval a)) → ∃ e ∈ bs, fn succ a e.1 = e.2) :
    (useBackEdges o succ bs : Prog σ μ Unit).Ver J (fun _ => False) (fun _ _ => True) d := by
  match bs with
  | [] =>
    intro a ha hCa
    obtain ⟨e, he, _⟩ := h a ha (hC a hCa)
    cases he
  | [e] =>
    obtain ⟨he, hi⟩ := hb e List.mem_cons_self
    have hx : succ[e.1]? = some succ[e.1] := List.getElem?_eq_getElem he
    have hxv := hv _ (List.getElem_mem he)
    refine ver_onlyIf (fun _ => ?_) fun _ => trivial
    refine ver_lift (x := vecAt succ e.1) (P := fun y => y = succ[e.1]) ho (.inr ⟨_, vecAt_get hx, rfl⟩) fun y hy => ?_
    subst hy
    refine ver_ask (f := (optionalSingleValue · succ[e.1])) ho (single_pin hd (hl ▸ hxv)) fun v _ => ?_
    refine ver_onlyIf (fun _ => ?_) fun _ => trivial
    refine ver_tell_last (.eq hxv hi) (fun a ha hCa => ?_) fun _ _ _ _ => trivial
    obtain ⟨e', he', hf⟩ := h a ha (hC a hCa)
    rw [List.mem_singleton] at he'
    subst he'
    rw [Lit.holds_eq, ← hf]
    exact (fn_cast hrng ha hx).symm
  | _ :: _ :: _ => trivial

theorem subtree_ver (o : Options) (ho : J.R .overflow) (hC : ∀ a, J.C a → Tour (succ.map (·.eval a))) (hv : ∀ x ∈ succ, x.Valid J.n) {T : Prop} {w : Int} {ws : List Int} {d : Doms} (hd : DomsOK d) (hl : d.length = J.n)
    (h : Tree succ G T s (w :: ws) d) : (subtree o succ s w : Prog σ μ Scc).Ver J (fun _ => False) (fun s' d' => Tree succ G T s' ws d') d := by
  have hw := h.todo w List.mem_cons_self
  unfold subtree
  rw [toNode_roo ⟨hw.2.1, hw.2.2.1⟩]
  show Prog.Ver _ _ _ (match s.visit w.toNat with | some _ => _ | none => _) d
  split
  · rename_i k hk
    exact h.skip hk
  · rename_i hu
    refine ver_seq (S := fun _ => False) hd hl (fun _ h => h) (explore_ver o ho hC hv (succ.length + 1) w.toNat s d hd hl (by omega) h.num hu h.rng h.subs h.graph (by omega)) fun r d' hd' hl' hs hr => ?_
    refine ver_seq (S := fun _ => False) hd' hl' (fun _ h => h) (useBackEdges_ver o ho hC hv hd' hl' (h.rng.sub hs) hr.back fun a ha ht => h.exit hs hr ha ht) fun _ d'' _ _ hs' _ => ?_
    exact (h.explored hs hr).sub hs'

/-- Everything is strongly connected. -/
def Strong (G : Nat → Nat → Prop) (n : Nat) : Prop := ∀ x < n, Path G 0 x ∧ Path G x 0

theorem Tree.strong {T : Prop} {ws : List Int} {d : Doms} (h : Tree succ G T s ws d) (hc : s.count = succ.length) : Strong G succ.length := by
  have back : ∀ k, ∀ x, s.visit x = some k → Path G x 0 := by
    intro k
    induction k using Nat.strongRecOn with
    | _ k ih =>
      intro x hk
      by_cases hx : x = 0
      · rw [hx]; exact .here 0
      · obtain ⟨_, y, j, h1, h2, h3⟩ := h.down x k hx hk
        exact h1.trans (ih j h3 y h2)
  intro x hx
  obtain ⟨k, hk⟩ := h.num.full hc hx
  refine ⟨?_, back k x hk⟩
  by_cases e : x = 0
  · rw [e]; exact .here 0
  · exact (h.down x k e hk).1

theorem Tree.allVisited {d : Doms} (h : Tree succ G True s [] d) {a : Asg} (ha : Within d a) (ht : Tour (succ.map (·.eval a))) : s.count = succ.length := by
  refine h.num.count_eq fun u hu => ?_
  refine (tour_loop ht).closed (P := fun x => ∃ k, s.visit x = some k) (fun x hx hk => ?_) (i := 0) (by omega) hu ⟨0, h.num.root⟩
  obtain ⟨k, hk⟩ := hk
  have hy := fn_edge h.rng ha hx
  by_cases e : x = 0
  · subst e
    rcases h.own _ hy with hm | hm | hm
    · cases hm
    · exact absurd trivial hm
    · exact hm
  · obtain ⟨j, h1, _⟩ := h.subs.upper x k e hk (by have := (h.num.lt x k hk).2; have := h.last; omega) _ hy
    exact ⟨j, h1⟩

/-- The root does not lead to anything but the last subtree. -/
theorem Tree.notRoot {T : Prop} {ws : List Int} {d : Doms} (h : Tree succ G T s ws d) (hp : s.startPrev > 1) (hc : s.count = succ.length) {a : Asg} (ha : Within d a) (ht : Tour (succ.map (·.eval a))) :
    ¬ ∀ k, s.visit (fn succ a 0) = some k → k < s.startPrev := by
  intro hk
  have h1 := h.subs.le
  have h2 := h.subs.count
  obtain ⟨w, hw⟩ := h.num.onto s.startPrev (by omega)
  have hL := tour_loop ht
  have h0 : 0 < succ.length := (h.num.lt 0 0 h.num.root).1
  have hwl := (h.num.lt w _ hw).1
  have hw0 : w ≠ 0 := by
    rintro rfl
    rw [h.num.root] at hw
    have := Option.some.inj hw; omega
  obtain ⟨k, hk'⟩ := h.num.full hc (hL.lt 0 h0)
  obtain ⟨i, hi, hlt⟩ := hL.avoid_closed (P := fun x => ∃ i, s.visit x = some i ∧ i < s.startPrev) (h.subs.lower.closed h.rng ha) (hL.lt 0 h0) ⟨k, hk', hk k hk'⟩ (hL.fromRoot h0 hwl hw0)
  rw [hw] at hi; cases hi; omega

theorem checkSccs_ver (o : Options) (ho : J.R .overflow) (hC : ∀ a, J.C a → Tour (succ.map (·.eval a))) (hv : ∀ x ∈ succ, x.Valid J.n) (hne : 0 < succ.length) {d : Doms} (hd : DomsOK d) (hl : d.length = J.n) (hrng : Rng succ d) :
    (checkSccs o succ : Prog σ μ Unit).Ver J (fun _ => False) (fun _ _ => Strong (E succ d) succ.length) d := by
  match succ, hne with
  | x :: xs, _ =>
    have hxv := hv x List.mem_cons_self
    unfold checkSccs
    refine ver_seq (S := fun _ => False) hd hl (fun _ h => h) (ver_overValues (Tree (x :: xs) (E (x :: xs) d)) ho hd hl hxv (fun g hg => ?_) fun T s w ws d' h1 h2 h3 => subtree_ver o ho hC hv h1 h2 h3) fun s d' hd' hl' _ h => ?_
    · refine ⟨Num.init (by simp), ⟨?_, ?_, Nat.le_refl _, Nat.one_pos⟩, rfl, fun y hy => ?_, fun y k hy hk => ?_, hrng, fun _ _ h => h, fun w hw => ?_⟩
      · intro y i hy hi hlt; exact absurd hlt (Nat.not_lt_zero _)
      · intro y i hy hi
        simp only [Scc.init] at hi
        rw [put_ne _ _ hy] at hi; cases hi
      · by_cases hT : g.2 = none
        · obtain ⟨x', hx', hp⟩ := hy
          cases hx'
          exact .inl (hg.2.1 hT _ hp)
        · exact .inr (.inl hT)
      · simp only [Scc.init] at hk
        rw [put_ne _ _ hy] at hk; cases hk
      · obtain ⟨h1, a, ha, e⟩ := hg.1 w hw
        have := hrng x List.mem_cons_self a ha
        rw [e] at this
        refine ⟨h1, this.1, this.2, x, rfl, a, ha, ?_⟩
        rw [Int.toNat_of_nonneg this.1]; exact e
    · split
      · rename_i hc
        exact fun a ha hCa => hc (h.allVisited ha (hC a hCa))
      · rename_i hc
        have hc : s.count = (x :: xs).length := by simpa using hc
        have hst := h.strong hc
        refine ver_onlyIf (fun hp => ?_) fun _ => hst
        refine ver_ask (f := (eachValue · x)) ho (listed_roo hd' (hl' ▸ hxv)) fun g hg => ?_
        refine ver_forGen hd' hl' (fun e he => by rw [hg.2.2 e he]; exact ho) ?_
        refine ver_mono (Q := fun _ d'' => (∀ w ∈ ([] : List Int), w ∈ g.1) ∧ ∀ a, Within d'' a → Within d' a) (fun _ _ _ => hst) _ _
          (ver_forEach (fun ws d'' => (∀ w ∈ ws, w ∈ g.1) ∧ ∀ a, Within d'' a → Within d' a) ?_ g.1 d' hd' hl' ⟨fun _ h => h, fun _ h => h⟩)
        intro w ws d2 hd2 hl2 hw
        obtain ⟨h1, a0, ha0, e0⟩ := hg.1 w (hw.1 w List.mem_cons_self)
        have hwr := h.rng x List.mem_cons_self a0 ha0
        rw [e0] at hwr
        unfold cutRoot
        rw [toNode_roo hwr]
        refine ver_onlyIf (fun hk => ?_) fun _ => ⟨fun v hv => hw.1 v (List.mem_cons_of_mem _ hv), hw.2⟩
        refine ver_tell_last (.ne hxv h1) (fun a ha hCa => ?_) fun d3 _ _ h3 => ⟨fun v hv => hw.1 v (List.mem_cons_of_mem _ hv), fun a ha => hw.2 a ((h3 a).1 ha).1⟩
        rw [Lit.holds_ne]
        intro e
        refine h.notRoot hp.2 hc (hw.2 a ha) (hC a hCa) ?_
        rw [fn_eq (x := x) rfl, e]
        exact hk

end
end Gcs.Circuit
