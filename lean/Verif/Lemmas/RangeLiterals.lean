import Verif.Spec.RangeLiterals

/-!
# Lemmas on range literals in proofs
-/

namespace Gcs.Ranges

theorem Settled.mono {cs ds : List Clause} {a : Ivl → Option Bool} (h : Settled ds a) (hs : ∀ c ∈ cs, c ∈ ds) : Settled cs a :=
  fun c m => h c (hs c m)

theorem Settled.edge {cs : List Clause} {a : Ivl → Option Bool} (h : Settled cs a) {i j : Ivl} (m : Ranges.edge i j ∈ cs) (hj : a j = some false) :
    a i = some false := by
  have := h _ m [] ⟨false, i⟩ [⟨true, j⟩] rfl (by simpa [Lit.Out] using hj)
  simpa [Lit.In] using this

theorem Settled.cover {cs : List Clause} {a : Ivl → Option Bool} (h : Settled cs a) {i : Ivl} {ds : List Ivl}
    (m : (⟨false, i⟩ :: ds.map (⟨true, ·⟩) : Clause) ∈ cs) (hd : ∀ d ∈ ds, a d = some false) : a i = some false := by
  have := h _ m [] ⟨false, i⟩ (ds.map (⟨true, ·⟩)) rfl (by
    intro l hl
    simp only [List.nil_append, List.mem_map] at hl
    obtain ⟨d, hd', rfl⟩ := hl
    simpa [Lit.Out] using hd d hd')
  simpa [Lit.In] using this

theorem Settled.root {cs : List Clause} {a : Ivl → Option Bool} (h : Settled cs a) {ds : List Ivl} (hne : ds ≠ [])
    (m : (ds.map (⟨true, ·⟩) : Clause) ∈ cs) (hd : ∀ d ∈ ds, a d = some false) : False := by
  obtain ⟨d, ds, rfl⟩ := List.exists_cons_of_ne_nil hne
  have := h _ m [] ⟨true, d⟩ (ds.map (⟨true, ·⟩)) rfl (by
    intro l hl
    simp only [List.nil_append, List.mem_map] at hl
    obtain ⟨e, he, rfl⟩ := hl
    simpa [Lit.Out] using hd e (List.mem_cons_of_mem _ he))
  have e := hd d List.mem_cons_self
  simp [Lit.In, e] at this

/-! ## Immediate containment -/

theorem scanLeast_sub : ∀ {l : List Ivl} {b : Option Int} {x : Ivl}, x ∈ scanLeast b l → x ∈ l
  | [], _, _, h => by simp [scanLeast] at h
  | y :: l, b, x, h => by
    unfold scanLeast at h
    split at h
    · rcases List.mem_cons.1 h with rfl | h
      · exact List.mem_cons_self
      · exact List.mem_cons_of_mem _ (scanLeast_sub h)
    · exact List.mem_cons_of_mem _ (scanLeast_sub h)

theorem scanGreatest_sub : ∀ {l : List Ivl} {b : Option Int} {x : Ivl}, x ∈ scanGreatest b l → x ∈ l
  | [], _, _, h => by simp [scanGreatest] at h
  | y :: l, b, x, h => by
    unfold scanGreatest at h
    split at h
    · rcases List.mem_cons.1 h with rfl | h
      · exact List.mem_cons_self
      · exact List.mem_cons_of_mem _ (scanGreatest_sub h)
    · exact List.mem_cons_of_mem _ (scanGreatest_sub h)

theorem scanLeast_min : ∀ {l : List Ivl} {b : Option Int}, l.Pairwise (fun x y => upOrder x y = true) → ∀ x ∈ l,
    (∃ y ∈ scanLeast b l, x.1 ≤ y.1 ∧ y.2 ≤ x.2) ∨ ∃ m, b = some m ∧ m ≤ x.2
  | [], _, _, _, h => by simp at h
  | z :: l, b, hp, x, h => by
    obtain ⟨hz, hp⟩ := List.pairwise_cons.1 hp
    unfold scanLeast
    split
    · rename_i hb
      refine .inl ?_
      rcases List.mem_cons.1 h with rfl | h
      · exact ⟨x, List.mem_cons_self, Int.le_refl _, Int.le_refl _⟩
      · rcases scanLeast_min (b := some z.2) hp x h with ⟨y, hy, k⟩ | ⟨m, hm, k⟩
        · exact ⟨y, List.mem_cons_of_mem _ hy, k⟩
        · cases hm
          have := hz x h
          refine ⟨z, List.mem_cons_self, ?_, k⟩
          unfold upOrder at this
          split at this <;> simp at this <;> omega
    · rename_i hb
      rcases List.mem_cons.1 h with rfl | h
      · refine .inr ?_
        cases b with
        | none => simp at hb
        | some m => exact ⟨m, rfl, by simpa using hb⟩
      · exact scanLeast_min hp x h

theorem scanGreatest_max : ∀ {l : List Ivl} {b : Option Int}, l.Pairwise (fun x y => downOrder x y = true) → ∀ x ∈ l,
    (∃ y ∈ scanGreatest b l, y.1 ≤ x.1 ∧ x.2 ≤ y.2) ∨ ∃ m, b = some m ∧ x.2 ≤ m
  | [], _, _, _, h => by simp at h
  | z :: l, b, hp, x, h => by
    obtain ⟨hz, hp⟩ := List.pairwise_cons.1 hp
    unfold scanGreatest
    split
    · rename_i hb
      refine .inl ?_
      rcases List.mem_cons.1 h with rfl | h
      · exact ⟨x, List.mem_cons_self, Int.le_refl _, Int.le_refl _⟩
      · rcases scanGreatest_max (b := some z.2) hp x h with ⟨y, hy, k⟩ | ⟨m, hm, k⟩
        · exact ⟨y, List.mem_cons_of_mem _ hy, k⟩
        · cases hm
          have := hz x h
          refine ⟨z, List.mem_cons_self, ?_, k⟩
          unfold downOrder at this
          split at this <;> simp at this <;> omega
    · rename_i hb
      rcases List.mem_cons.1 h with rfl | h
      · refine .inr ?_
        cases b with
        | none => simp at hb
        | some m => exact ⟨m, rfl, by simpa using hb⟩
      · exact scanGreatest_max hp x h

/-- What is linked has nothing else inside it. -/
theorem scanLeast_minimal : ∀ {l : List Ivl} {b : Option Int}, l.Pairwise (fun x y => upOrder x y = true) → ∀ y ∈ scanLeast b l,
    (∀ m, b = some m → y.2 < m) ∧ ∀ x ∈ l, y.1 ≤ x.1 → x.2 ≤ y.2 → x = y
  | [], _, _, _, h => by simp [scanLeast] at h
  | z :: l, b, hp, y, h => by
    obtain ⟨hz, hp⟩ := List.pairwise_cons.1 hp
    unfold scanLeast at h
    split at h
    · rename_i hb
      have hb' : ∀ m, b = some m → z.2 < m := by rintro m rfl; simpa using hb
      rcases List.mem_cons.1 h with rfl | h
      · refine ⟨hb', fun x hx h1 h2 => ?_⟩
        rcases List.mem_cons.1 hx with e | hx
        · exact e
        · have := hz x hx
          unfold upOrder at this
          split at this <;> simp at this
          · exact Prod.ext (by omega) (by omega)
          · omega
      · obtain ⟨k1, k2⟩ := scanLeast_minimal hp y h
        have := k1 _ rfl
        refine ⟨fun m e => by have := hb' m e; omega, fun x hx h1 h2 => ?_⟩
        rcases List.mem_cons.1 hx with rfl | hx
        · omega
        · exact k2 x hx h1 h2
    · rename_i hb
      obtain ⟨k1, k2⟩ := scanLeast_minimal hp y h
      refine ⟨k1, fun x hx h1 h2 => ?_⟩
      rcases List.mem_cons.1 hx with rfl | hx
      · cases b with
        | none => simp at hb
        | some m => have := k1 m rfl; simp at hb; omega
      · exact k2 x hx h1 h2

/-- And nothing else around it. -/
theorem scanGreatest_maximal : ∀ {l : List Ivl} {b : Option Int}, l.Pairwise (fun x y => downOrder x y = true) → ∀ y ∈ scanGreatest b l,
    (∀ m, b = some m → y.2 > m) ∧ ∀ x ∈ l, x.1 ≤ y.1 → y.2 ≤ x.2 → x = y
  | [], _, _, _, h => by simp [scanGreatest] at h
  | z :: l, b, hp, y, h => by
    obtain ⟨hz, hp⟩ := List.pairwise_cons.1 hp
    unfold scanGreatest at h
    split at h
    · rename_i hb
      have hb' : ∀ m, b = some m → z.2 > m := by rintro m rfl; simpa using hb
      rcases List.mem_cons.1 h with rfl | h
      · refine ⟨hb', fun x hx h1 h2 => ?_⟩
        rcases List.mem_cons.1 hx with e | hx
        · exact e
        · have := hz x hx
          unfold downOrder at this
          split at this <;> simp at this
          · exact Prod.ext (by omega) (by omega)
          · omega
      · obtain ⟨k1, k2⟩ := scanGreatest_maximal hp y h
        have := k1 _ rfl
        refine ⟨fun m e => by have := hb' m e; omega, fun x hx h1 h2 => ?_⟩
        rcases List.mem_cons.1 hx with rfl | hx
        · omega
        · exact k2 x hx h1 h2
    · rename_i hb
      obtain ⟨k1, k2⟩ := scanGreatest_maximal hp y h
      refine ⟨k1, fun x hx h1 h2 => ?_⟩
      rcases List.mem_cons.1 hx with rfl | hx
      · cases b with
        | none => simp at hb
        | some m => have := k1 m rfl; simp at hb; omega
      · exact k2 x hx h1 h2

theorem mem_insertBy {le : Ivl → Ivl → Bool} {x z : Ivl} : ∀ {l : List Ivl}, z ∈ insertBy le x l ↔ z = x ∨ z ∈ l
  | [] => by simp [insertBy]
  | y :: l => by
    unfold insertBy
    split
    · simp
    · rw [List.mem_cons, mem_insertBy, List.mem_cons]; grind

theorem mem_sortBy {le : Ivl → Ivl → Bool} {z : Ivl} : ∀ {l : List Ivl}, z ∈ sortBy le l ↔ z ∈ l
  | [] => by simp [sortBy]
  | y :: l => by
    show z ∈ insertBy le y (sortBy le l) ↔ _
    rw [mem_insertBy, mem_sortBy, List.mem_cons]

theorem sortBy_sorted {le : Ivl → Ivl → Bool} (trans : ∀ a b c, le a b = true → le b c = true → le a c = true) (total : ∀ a b, (le a b || le b a) = true) :
    ∀ l : List Ivl, (sortBy le l).Pairwise fun a b => le a b = true
  | [] => List.Pairwise.nil
  | y :: l => by
    have ins : ∀ l : List Ivl, l.Pairwise (fun a b => le a b = true) → (insertBy le y l).Pairwise fun a b => le a b = true := by
      intro l
      induction l with
      | nil => intro _; simp [insertBy]
      | cons z l ih =>
        intro h
        obtain ⟨h1, h2⟩ := List.pairwise_cons.1 h
        unfold insertBy
        split
        · rename_i k
          refine List.pairwise_cons.2 ⟨fun w hw => ?_, h⟩
          rcases List.mem_cons.1 hw with rfl | hw
          · exact k
          · exact trans _ _ _ k (h1 w hw)
        · rename_i k
          refine List.pairwise_cons.2 ⟨fun w hw => ?_, ih h2⟩
          rcases mem_insertBy.1 hw with rfl | hw
          · have := total w z; simpa [k] using this
          · exact h1 w hw
    exact ins _ (sortBy_sorted trans total l)

theorem up_sorted (l : List Ivl) : (sortBy upOrder l).Pairwise (fun x y => upOrder x y = true) := by
  refine sortBy_sorted (fun a b c => ?_) (fun a b => ?_) l
  · unfold upOrder; split <;> split <;> split <;> simp <;> omega
  · unfold upOrder; split <;> split <;> simp <;> omega

theorem down_sorted (l : List Ivl) : (sortBy downOrder l).Pairwise (fun x y => downOrder x y = true) := by
  refine sortBy_sorted (fun a b c => ?_) (fun a b => ?_) l
  · unfold downOrder; split <;> split <;> split <;> simp <;> omega
  · unfold downOrder; split <;> split <;> simp <;> omega

/-- What is true of the literals and the clauses, leaving the partition out. -/
structure Base (lb ub : Int) (st : St) : Prop where
  eqsNodup : st.eqs.Nodup
  invarsNodup : st.invars.Nodup
  wide : ∀ I ∈ st.invars, I.1 < I.2
  noTree : st.tree = none → st.invars = []
  tree : ∀ t, st.tree = some t → ∀ I, I ∈ t ↔ st.Has I
  has : ∀ c ∈ st.clauses, ∀ l ∈ c, st.Has l.ivl
  holds : ∀ c ∈ st.clauses, ∀ x, lb ≤ x → x ≤ ub → ∃ l ∈ c, l.Holds x
  down : ∀ a, Settled st.clauses a → ∀ I J, st.Has I → st.Has J → J.1 ≤ I.1 → I.2 ≤ J.2 → a J = some false → a I = some false

theorem Base.le {lb ub : Int} {st : St} (h : Base lb ub st) {I : Ivl} (hI : st.Has I) : I.1 ≤ I.2 := by
  rcases hI with h' | h'
  · omega
  · have := h.wide I h'; omega

theorem edge_holds {i j : Ivl} (h1 : j.1 ≤ i.1) (h2 : i.2 ≤ j.2) (x : Int) : ∃ l ∈ edge i j, l.Holds x := by
  by_cases k : i.1 ≤ x ∧ x ≤ i.2
  · exact ⟨⟨true, j⟩, by simp [edge], by simp [Lit.Holds]; omega⟩
  · exact ⟨⟨false, i⟩, by simp [edge], by simpa [Lit.Holds] using k⟩

/-- What linking a literal writes. -/
structure Links (s : Ivl) (t : List Ivl) (new : List Clause) : Prop where
  lits : ∀ c ∈ new, ∃ i j, c = edge i j ∧ j.1 ≤ i.1 ∧ i.2 ≤ j.2 ∧ ((i = s ∧ j ∈ t) ∨ (j = s ∧ i ∈ t))
  up : ∀ J ∈ t, J.1 ≤ s.1 → s.2 ≤ J.2 → J ≠ s → ∃ M ∈ t, edge s M ∈ new ∧ J.1 ≤ M.1 ∧ M.2 ≤ J.2
  down : s.1 ≠ s.2 → ∀ J ∈ t, s.1 ≤ J.1 → J.2 ≤ s.2 → J ≠ s → ∃ M ∈ t, edge M s ∈ new ∧ M.1 ≤ J.1 ∧ J.2 ≤ M.2

theorem link_eq (s : Ivl) {st : St} {t : List Ivl} (ht : st.tree = some t) :
    ∃ new, link s st = { st with clauses := st.clauses ++ new } ∧ Links s t new := by
  unfold link
  rw [ht]
  refine ⟨_, rfl, ?_, ?_, ?_⟩
  · intro c hc
    rcases List.mem_append.1 hc with hc | hc
    · obtain ⟨j, hj, rfl⟩ := List.mem_map.1 hc
      have := scanLeast_sub hj
      rw [mem_sortBy, List.mem_filter] at this
      simp only [decide_eq_true_eq] at this
      exact ⟨s, j, rfl, this.2.1, this.2.2.1, .inl ⟨rfl, this.1⟩⟩
    · obtain ⟨j, hj, rfl⟩ := List.mem_map.1 hc
      split at hj
      · have := scanGreatest_sub hj
        rw [mem_sortBy, List.mem_filter] at this
        simp only [decide_eq_true_eq] at this
        exact ⟨j, s, rfl, this.2.1, this.2.2.1, .inr ⟨rfl, this.1⟩⟩
      · simp at hj
  · intro J hJ h1 h2 hne
    have hm : J ∈ sortBy upOrder (t.filter fun c => c.1 ≤ s.1 ∧ s.2 ≤ c.2 ∧ c ≠ s) := by
      rw [mem_sortBy, List.mem_filter]; simpa using ⟨hJ, h1, h2, hne⟩
    rcases scanLeast_min (b := none) (up_sorted _) J hm with ⟨M, hM, k1, k2⟩ | ⟨_, h, _⟩
    · have := scanLeast_sub hM
      rw [mem_sortBy, List.mem_filter] at this
      exact ⟨M, this.1, List.mem_append_left _ (List.mem_map_of_mem hM), k1, k2⟩
    · simp at h
  · intro hw J hJ h1 h2 hne
    have hm : J ∈ sortBy downOrder (t.filter fun c => s.1 ≤ c.1 ∧ c.2 ≤ s.2 ∧ c ≠ s) := by
      rw [mem_sortBy, List.mem_filter]; simpa using ⟨hJ, h1, h2, hne⟩
    rcases scanGreatest_max (b := none) (down_sorted _) J hm with ⟨M, hM, k1, k2⟩ | ⟨_, h, _⟩
    · have := scanGreatest_sub hM
      rw [mem_sortBy, List.mem_filter] at this
      exact ⟨M, this.1, List.mem_append_right _ (List.mem_map.2 ⟨M, by simpa [hw] using hM, rfl⟩), k1, k2⟩
    · simp at h

/-- A new literal, linked to all there are. -/
theorem links_down {lb ub : Int} {st : St} (h : Base lb ub st) {s : Ivl} (hs : s.1 ≤ s.2) {t : List Ivl} {new : List Clause} (ht : ∀ I, I ∈ t ↔ st.Has I)
    (hl : Links s t new) (a : Ivl → Option Bool) (ha : Settled (st.clauses ++ new) a) (I J : Ivl) (hI : st.Has I ∨ I = s) (hJ : st.Has J ∨ J = s)
    (h1 : J.1 ≤ I.1) (h2 : I.2 ≤ J.2) (hf : a J = some false) : a I = some false := by
  have ha' : Settled st.clauses a := ha.mono fun c m => List.mem_append_left _ m
  by_cases e : I = J
  · rw [e]; exact hf
  rcases hI with hI | rfl
  · rcases hJ with hJ | rfl
    · exact h.down a ha' I J hI hJ h1 h2 hf
    · have := h.le hI
      have hw : J.1 ≠ J.2 := by
        intro k; exact e (Prod.ext (by omega) (by omega))
      obtain ⟨M, hM, hM', k1, k2⟩ := hl.down hw I ((ht I).2 hI) h1 h2 e
      exact h.down a ha' I M hI ((ht M).1 hM) k1 k2 (ha.edge (List.mem_append_right _ hM') hf)
  · rcases hJ with hJ | rfl
    · obtain ⟨M, hM, hM', k1, k2⟩ := hl.up J ((ht J).2 hJ) h1 h2 (Ne.symm e)
      exact ha.edge (List.mem_append_right _ hM') (h.down a ha' M J ((ht M).1 hM) hJ k1 k2 hf)
    · exact absurd rfl e

/-- How defining a literal changes what is kept. -/
structure Grows (st st' : St) (s : Ivl) : Prop where
  has : ∀ I, st'.Has I ↔ st.Has I ∨ I = s
  clauses : ∀ c ∈ st.clauses, c ∈ st'.clauses
  cuts : st'.cuts = st.cuts
  invars : ∀ I ∈ st'.invars, I ∈ st.invars ∨ I = s

theorem definePlain_ok {lb ub : Int} {st : St} (h : Base lb ub st) {s : Ivl} (hs : s.1 < s.2) (hn : s ∉ st.invars) :
    Base lb ub (definePlain s st) ∧ Grows st (definePlain s st) s := by
  obtain ⟨t, ht, hT⟩ : ∃ t, st.tree.getD (st.eqs.map fun v => (v, v)) = t ∧ ∀ I, I ∈ t ↔ st.Has I := by
    refine ⟨_, rfl, fun I => ?_⟩
    cases k : st.tree with
    | some t => exact h.tree t k I
    | none =>
      simp only [Option.getD_none, List.mem_map, St.Has, h.noTree k, List.not_mem_nil, or_false]
      constructor
      · rintro ⟨v, hv, rfl⟩; exact ⟨rfl, hv⟩
      · rintro ⟨e, hv⟩; exact ⟨I.1, hv, Prod.ext rfl e⟩
  obtain ⟨new, e, hl⟩ := link_eq s (st := { st with invars := st.invars ++ [s], tree := some t }) rfl
  have hd : definePlain s st = { st with invars := st.invars ++ [s], tree := some (if s ∈ t then t else s :: t), clauses := st.clauses ++ new } := by
    unfold definePlain
    simp only [ht, e, treeInsert, Option.map_some]
  have hH : ∀ I, (definePlain s st).Has I ↔ st.Has I ∨ I = s := by
    intro I; rw [hd]; simp [St.Has, or_assoc]
  refine ⟨⟨?_, ?_, ?_, ?_, ?_, ?_, ?_, ?_⟩, hH, ?_, ?_, ?_⟩
  · rw [hd]; exact h.eqsNodup
  · rw [hd]; refine List.nodup_append.2 ⟨h.invarsNodup, by simp, ?_⟩
    intro x hx y hy; simp at hy; subst hy; rintro rfl; exact hn hx
  · rw [hd]; intro I hI
    rcases List.mem_append.1 hI with hI | hI
    · exact h.wide I hI
    · simp at hI; subst hI; exact hs
  · rw [hd]; intro k; simp at k
  · intro t' k I
    rw [hH]; rw [hd] at k; simp only [Option.some.injEq] at k
    rw [← k, ← hT]
    split <;> grind
  · intro c hc l hlc
    rw [hH]; rw [hd] at hc
    rcases List.mem_append.1 hc with hc | hc
    · exact .inl (h.has c hc l hlc)
    · obtain ⟨i, j, rfl, _, _, k⟩ := hl.lits c hc
      simp only [edge, List.mem_cons, List.not_mem_nil, or_false] at hlc
      grind
  · intro c hc x hx hy
    rw [hd] at hc
    rcases List.mem_append.1 hc with hc | hc
    · exact h.holds c hc x hx hy
    · obtain ⟨i, j, rfl, k1, k2, _⟩ := hl.lits c hc
      exact edge_holds k1 k2 x
  · intro a ha I J hI hJ h1 h2 hf
    rw [hH] at hI hJ; rw [hd] at ha
    exact links_down h (Int.le_of_lt hs) hT hl a ha I J hI hJ h1 h2 hf
  · rw [hd]; exact fun c m => List.mem_append_left _ m
  · rw [hd]
  · rw [hd]; intro I hI; simpa using hI

/-- `need_direct_encoding_for` before the partition is looked at. -/
def addEq (v : Int) (st : St) : St := treeInsert (v, v) (link (v, v) { st with eqs := st.eqs ++ [v] })

theorem addEq_ok {lb ub : Int} {st : St} (h : Base lb ub st) {v : Int} (hn : v ∉ st.eqs) : Base lb ub (addEq v st) ∧ Grows st (addEq v st) (v, v) := by
  have fresh : ∀ I, ({ st with eqs := st.eqs ++ [v] } : St).Has I ↔ st.Has I ∨ I = (v, v) := by
    intro I
    simp only [St.Has, List.mem_append, List.mem_cons, List.not_mem_nil, or_false]
    constructor
    · rintro (⟨k, k' | k'⟩ | k)
      · exact .inl (.inl ⟨k, k'⟩)
      · exact .inr (Prod.ext k' (k ▸ k'))
      · exact .inl (.inr k)
    · rintro ((⟨k, k'⟩ | k) | rfl)
      · exact .inl ⟨k, .inl k'⟩
      · exact .inr k
      · exact .inl ⟨rfl, .inr rfl⟩
  have nodup : (st.eqs ++ [v]).Nodup := by
    refine List.nodup_append.2 ⟨h.eqsNodup, by simp, ?_⟩
    intro x hx y hy; simp at hy; subst hy; rintro rfl; exact hn hx
  cases k : st.tree with
  | none =>
    have hd : addEq v st = { st with eqs := st.eqs ++ [v] } := by
      unfold addEq link; simp [k, treeInsert]
    rw [hd]
    refine ⟨⟨nodup, h.invarsNodup, h.wide, h.noTree, ?_, ?_, h.holds, ?_⟩, fresh, fun c m => m, rfl, fun I hI => .inl hI⟩
    · intro t k'; simp [k] at k'
    · intro c hc l hlc; rw [fresh]; exact .inl (h.has c hc l hlc)
    · intro a ha I J hI hJ h1 h2 hf
      have inv := h.noTree k
      have hI' : I.1 = I.2 := by rcases hI with hI | hI; exact hI.1; simp [inv] at hI
      have hJ' : J.1 = J.2 := by rcases hJ with hJ | hJ; exact hJ.1; simp [inv] at hJ
      have : I = J := Prod.ext (by omega) (by omega)
      rw [this]; exact hf
  | some t =>
    obtain ⟨new, e, hl⟩ := link_eq (v, v) (st := { st with eqs := st.eqs ++ [v] }) k
    have hT := h.tree t k
    have hd : addEq v st = { st with eqs := st.eqs ++ [v], tree := some (if (v, v) ∈ t then t else (v, v) :: t), clauses := st.clauses ++ new } := by
      unfold addEq; rw [e]; simp [treeInsert, k]
    have hH : ∀ I, (addEq v st).Has I ↔ st.Has I ∨ I = (v, v) := by
      intro I; rw [hd]; exact fresh I
    refine ⟨⟨?_, ?_, ?_, ?_, ?_, ?_, ?_, ?_⟩, hH, ?_, ?_, ?_⟩
    · rw [hd]; exact nodup
    · rw [hd]; exact h.invarsNodup
    · rw [hd]; exact h.wide
    · rw [hd]; intro k; simp at k
    · intro t' k I
      rw [hH]; rw [hd] at k; simp only [Option.some.injEq] at k
      rw [← k, ← hT]
      split <;> grind
    · intro c hc l hlc
      rw [hH]; rw [hd] at hc
      rcases List.mem_append.1 hc with hc | hc
      · exact .inl (h.has c hc l hlc)
      · obtain ⟨i, j, rfl, _, _, k⟩ := hl.lits c hc
        simp only [edge, List.mem_cons, List.not_mem_nil, or_false] at hlc
        grind
    · intro c hc x hx hy
      rw [hd] at hc
      rcases List.mem_append.1 hc with hc | hc
      · exact h.holds c hc x hx hy
      · obtain ⟨i, j, rfl, k1, k2, _⟩ := hl.lits c hc
        exact edge_holds k1 k2 x
    · intro a ha I J hI hJ h1 h2 hf
      rw [hH] at hI hJ; rw [hd] at ha
      exact links_down h (Int.le_refl _) hT hl a ha I J hI hJ h1 h2 hf
    · rw [hd]; exact fun c m => List.mem_append_left _ m
    · rw [hd]
    · rw [hd]; intro I hI; exact .inl hI

end Gcs.Ranges
