import Verif.Model.Cons.RegularStrategy
import Verif.Props.Cons.Layered

/-!
# C63: the proof strategies of Regular
-/

namespace Gcs
open IntervalSet Layered

namespace Regular

theorem single_ok : ∀ {m : List (Int × List Int)} {u : List (Int × Int)}, single m = .ok u → u.map (·.1) = m.map (·.1) ∧ ∀ x y, (x, y) ∈ u ↔ ∃ s, (x, s) ∈ m ∧ toSet s = [y]
  | [], u, h => by cases h; simp
  | (x, s) :: m, u, h => by
    unfold single at h
    split at h
    · rename_i y hy
      obtain ⟨r, hr, h⟩ := bind_ok h
      cases h
      obtain ⟨h1, h2⟩ := single_ok hr
      refine ⟨by simp [h1], fun x' y' => ?_⟩
      simp only [List.mem_cons, Prod.mk.injEq, h2]
      constructor
      · rintro (⟨rfl, rfl⟩ | ⟨s', h, k⟩)
        · exact ⟨s, .inl ⟨rfl, rfl⟩, hy⟩
        · exact ⟨s', .inr h, k⟩
      · rintro ⟨s', ⟨rfl, rfl⟩ | h, k⟩
        · rw [hy] at k; cases k; exact .inl ⟨rfl, rfl⟩
        · exact .inr ⟨s', h, k⟩
    · cases h

theorem dfa_ok : ∀ {t : List (List (Int × List Int))} {u : List (List (Int × Int))}, dfa t = .ok u → u.length = t.length ∧ ∀ (q : Nat) m, u[q]? = some m → ∃ m', t[q]? = some m' ∧ single m' = .ok m
  | [], u, h => by cases h; exact ⟨rfl, fun q m h => by simp at h⟩
  | m :: t, u, h => by
    unfold dfa at h
    obtain ⟨v, hv, h⟩ := bind_ok h
    obtain ⟨r, hr, h⟩ := bind_ok h
    cases h
    obtain ⟨h1, h2⟩ := dfa_ok hr
    refine ⟨by simp [h1], fun q m' hq => ?_⟩
    cases q with
    | zero => cases hq; exact ⟨m, rfl, hv⟩
    | succ q => exact h2 q m' (by simpa using hq)

/-- One target for each state and value. -/
def Deterministic (t : List (List (Int × List Int))) : Prop := ∀ m ∈ t, ∀ p ∈ m, ∃ y, ∀ z, z ∈ p.2 ↔ z = y

theorem toSet_single {s : List Int} : (∃ y, toSet s = [y]) ↔ ∃ y, ∀ z, z ∈ s ↔ z = y := by
  constructor
  · rintro ⟨y, h⟩
    exact ⟨y, fun z => by rw [← mem_toSet (l := s), h]; simp⟩
  · rintro ⟨y, h⟩
    have hn := nodup_toSet s
    have hm : ∀ z, z ∈ toSet s ↔ z = y := fun z => by rw [mem_toSet]; exact h z
    cases e : toSet s with
    | nil => rw [e] at hm; exact absurd ((hm y).2 rfl) (by simp)
    | cons a l =>
      rw [e] at hm hn
      cases l with
      | nil => exact ⟨a, rfl⟩
      | cons b l =>
        have h1 := (hm a).1 (by simp)
        have h2 := (hm b).1 (by simp)
        exact absurd (h1.trans h2.symm) (fun h => (List.nodup_cons.1 hn).1 (by simp [h]))

theorem single_total : ∀ (m : List (Int × List Int)), (∃ u, single m = .ok u) ∧ (∀ p ∈ m, ∃ y, ∀ z, z ∈ p.2 ↔ z = y) ∨ single m = .error .unimplemented ∧ ¬ ∀ p ∈ m, ∃ y, ∀ z, z ∈ p.2 ↔ z = y
  | [] => .inl ⟨⟨_, rfl⟩, fun _ h => nomatch h⟩
  | (x, s) :: m => by
    unfold single
    split
    · rename_i y hy
      have hs := toSet_single.1 ⟨y, hy⟩
      rcases single_total m with ⟨⟨u, hu⟩, h⟩ | ⟨hu, h⟩
      · rw [hu]
        refine .inl ⟨⟨_, rfl⟩, fun p hp => ?_⟩
        rcases List.mem_cons.1 hp with rfl | hp
        · exact hs
        · exact h p hp
      · rw [hu]
        exact .inr ⟨rfl, fun k => h fun p hp => k p (List.mem_cons_of_mem _ hp)⟩
    · rename_i hne
      refine .inr ⟨rfl, fun k => ?_⟩
      obtain ⟨y, hy⟩ := toSet_single.2 (k _ List.mem_cons_self)
      exact hne y hy

theorem dfa_total : ∀ (t : List (List (Int × List Int))), (∃ u, dfa t = .ok u) ∧ Deterministic t ∨ dfa t = .error .unimplemented ∧ ¬ Deterministic t
  | [] => .inl ⟨⟨_, rfl⟩, fun _ h => nomatch h⟩
  | m :: t => by
    unfold dfa
    rcases single_total m with ⟨⟨v, hv⟩, h1⟩ | ⟨hv, h1⟩
    · rw [hv]
      rcases dfa_total t with ⟨⟨u, hu⟩, h2⟩ | ⟨hu, h2⟩
      · refine .inl ⟨⟨v :: u, ?_⟩, fun m' hm => ?_⟩
        · show (do let r ← dfa t; return v :: r) = _
          rw [hu]; rfl
        · rcases List.mem_cons.1 hm with rfl | hm
          · exact h1
          · exact h2 m' hm
      · refine .inr ⟨?_, fun k => h2 fun m' hm => k m' (List.mem_cons_of_mem _ hm)⟩
        show (do let r ← dfa t; return v :: r) = _
        rw [hu]; rfl
    · rw [hv]
      exact .inr ⟨rfl, fun k => h1 (k m List.mem_cons_self)⟩

variable {numStates : Nat} {t : List (List (Int × List Int))} {u : List (List (Int × Int))}

theorem isMap_dfa (hu : dfa t = .ok u) (hm : ∀ m ∈ t, IsMap m) : ∀ m ∈ u, IsMap m := fun m hmem => by
  obtain ⟨q, hq⟩ := List.getElem?_of_mem hmem
  obtain ⟨m', h1, h2⟩ := (dfa_ok hu).2 q m hq
  unfold IsMap
  rw [(single_ok h2).1]
  exact hm m' (List.mem_of_getElem? h1)

theorem moves_dfa (hu : dfa t = .ok u) (i q : Nat) (x : Int) (q' : Nat) : MapMoves u i q x q' ↔ Moves t i q x q' := by
  have key : ∀ {s : List Int} {y : Int}, toSet s = [y] → ((q' : Int) ∈ s ↔ (q' : Int) = y) := fun {s y} h => by rw [← mem_toSet (l := s), h]; simp
  unfold MapMoves Moves
  constructor
  · rintro ⟨m, hq, h⟩
    obtain ⟨m', h1, h2⟩ := (dfa_ok hu).2 q m hq
    obtain ⟨s, hs, e⟩ := ((single_ok h2).2 _ _).1 h
    exact ⟨m', s, h1, hs, (key e).2 rfl⟩
  · rintro ⟨m', s, hq, hs, h⟩
    have hlt : q < u.length := by rw [(dfa_ok hu).1]; exact (List.getElem?_eq_some_iff.1 hq).1
    obtain ⟨m'', h1, h2⟩ := (dfa_ok hu).2 q _ (List.getElem?_eq_getElem hlt)
    rw [hq] at h1
    cases h1
    refine ⟨_, List.getElem?_eq_getElem hlt, ((single_ok h2).2 _ _).2 ⟨s, hs, ?_⟩⟩
    rcases single_total m' with ⟨_, k⟩ | ⟨k, _⟩
    · obtain ⟨y, hy⟩ := toSet_single.2 (k _ hs)
      rw [hy, (key hy).1 h]
    · rw [h2] at k; cases k

/-- What is in range stays so. -/
theorem inRange_dfa (hu : dfa t = .ok u) (hr : RegularBacchus.inRange numStates u = true) : MDD.inRange [u] [1, numStates] = true := by
  simp only [RegularBacchus.inRange, Bool.and_eq_true, List.all_eq_true, decide_eq_true_eq] at hr
  simp only [MDD.inRange, List.all_eq_true, decide_eq_true_eq, List.mem_range, List.length_singleton]
  intro i hi m hm p hp
  obtain rfl : i = 0 := by omega
  exact hr.2 m hm p hp

theorem bacchus_next (final : List Int) (hu : dfa t = .ok u) (hm : ∀ m ∈ t, IsMap m) (hr : RegularBacchus.inRange numStates u = true) (i q : Nat) (x : Int) (q' : Nat) :
    q' ∈ (RegularBacchus.auto u final).next i q x ↔ Moves t i q x q' := by
  rw [← moves_dfa hu]
  refine (MDD.next_iff (layers := [u]) (final := final) (inRange_dfa hu hr) (fun l hl => by rw [List.mem_singleton.1 hl]; exact isMap_dfa hu hm) 0 q x q').trans ?_
  simp [MDD.Moves, MapMoves]

theorem bacchus_length (u : List (List (Int × Int))) (final : List Int) (i q : Nat) (x : Int) : ((RegularBacchus.auto u final).next i q x).length ≤ 1 := MDD.next_length [u] final 0 q x

end Regular

section
variable {σ μ : Type} {n m : Nat} {R : Err → Prop} {root : Doms} {vars : List VarId} {st : Store σ} {z0 : List σ} {final : List Int} {numStates : Nat} {t : List (List (Int × List Int))} {strategy : Regular.Strategy}
open Regular

/-- C63: whatever the proof strategy, `Regular` is right. Missing: the Bacchus strategy for no variables at all, if the first state is not a final one. For that this is false, see `regularStrategy_empty_wrong`. -/
theorem regularStrategy_right_partial (ho : R .overflow) (hv : ∀ v ∈ vars, v.Valid n) (hm : ∀ m ∈ t, IsMap m) (hst : st.OK) (hz : z0[st.handle]? = some (st.kind.put .fresh)) (hne : strategy = .bacchus → vars = [] → (0 : Int) ∈ final) :
    (Posted.mk (fun _ => installWith (μ := μ) strategy numStates t final st vars) (fun a => Accepts (Moves t) final 0 0 (vars.map (·.eval a))) vars).Serves n m R root z0 (· = st.handle) := by
  intro items h
  cases strategy with
  | upfront => exact Regular.serves ho hv hm hst hz h
  | perCall => exact Regular.serves ho hv hm hst hz h
  | bacchus =>
    obtain ⟨u, hu, h⟩ := bind_ok h
    unfold RegularBacchus.install at h
    split at h
    · rename_i hr
      cases h
      have hacc := fun a => accepted_iff (A := RegularBacchus.auto u final) (vars := vars) (bacchus_next final hu hm hr) a
      have enf : EnforcesS n m R root (Has (RegularBacchus.auto u final) vars st) (· = st.handle) (Accepted (RegularBacchus.auto u final) vars) vars (Layered.prop (μ := μ) (RegularBacchus.auto u final) .automaton st vars) := by
        by_cases hv0 : vars = []
        · subst hv0
          have h0 : ∀ a, Accepted (RegularBacchus.auto u final) [] a := fun a => (hacc a).2 (hne rfl rfl)
          intro d z hd hn hz hI
          have hlt : st.handle < z.length := by obtain ⟨g, hu, _⟩ := hI; exact (List.getElem?_eq_some_iff.1 hu).1
          refine prop_verS (J := { n, m, R, C := fun a => Within root a ∧ Accepted (RegularBacchus.auto u final) [] a, own := (· = st.handle) }) (fun i q x => MDD.nodup_of_length (bacchus_length u final i q x)) (.inr (bacchus_length u final)) hst rfl ho hv
            (fun a h => h.2) hd hn hz hI fun g d' ⟨_, hsub, hg, hk, _, _, _⟩ => ?_
          exact ⟨Enforced.intro (fun _ a _ _ => h0 a) (by rintro ⟨⟩) (by rintro ⟨⟩), g, List.getElem?_set_self hlt, fun _ => ⟨hg, hk.sub hsub⟩⟩
        · exact prop_enforces (fun i q x => MDD.nodup_of_length (bacchus_length u final i q x)) (.inr (bacchus_length u final)) hst ho hv hv0
      exact ⟨_, _, rfl, Linear.served_prop (fun a _ => (hacc a).symm) enf (fun _ h => h) (fun x hx v hv => ⟨x, .inl hx, hv⟩) rfl (fun _ _ _ hs hi => hi.sub hs) (fun _ _ _ hz hi => hi.only hz) fun _ => .start hz⟩
    · cases h

/-- C63: with an automaton whose states exist, posting succeeds, except that the Bacchus strategy refuses what is not deterministic. -/
theorem regularStrategy_refuses (h0 : 0 < numStates) (hn : numStates ≤ t.length) (ht : ∀ m ∈ t, ∀ p ∈ m, ∀ q ∈ p.2, 0 ≤ q ∧ q < numStates) :
    (strategy = .bacchus ∧ ¬ Deterministic t ∧ installWith (μ := μ) strategy numStates t final st vars = .error .unimplemented) ∨
    ((strategy = .bacchus → Deterministic t) ∧ ∃ items, installWith (μ := μ) strategy numStates t final st vars = .ok items) := by
  cases strategy with
  | upfront => exact .inr ⟨(fun h => nomatch h), regular_posts h0 hn ht⟩
  | perCall => exact .inr ⟨(fun h => nomatch h), regular_posts h0 hn ht⟩
  | bacchus =>
    rcases dfa_total t with ⟨⟨u, hu⟩, h⟩ | ⟨hu, h⟩
    · refine .inr ⟨fun _ => h, ?_⟩
      have hr : RegularBacchus.inRange numStates u = true := by
        simp only [RegularBacchus.inRange, Bool.and_eq_true, List.all_eq_true, decide_eq_true_eq]
        refine ⟨⟨h0, by rw [(dfa_ok hu).1]; exact hn⟩, fun m hmem p hp => .inr ?_⟩
        obtain ⟨q, hq⟩ := List.getElem?_of_mem hmem
        obtain ⟨m', h1, h2⟩ := (dfa_ok hu).2 q m hq
        obtain ⟨s, hs, e⟩ := ((single_ok h2).2 p.1 p.2).1 hp
        exact ht m' (List.mem_of_getElem? h1) _ hs p.2 (by rw [← mem_toSet (l := s), e]; simp)
      unfold installWith
      rw [hu]
      show ∃ items, RegularBacchus.install numStates u final st vars = .ok items
      unfold RegularBacchus.install
      rw [if_pos hr]
      exact ⟨_, rfl⟩
    · refine .inl ⟨rfl, h, ?_⟩
      unfold installWith
      rw [hu]
      rfl

/-- C63: with the Bacchus strategy, a call of the propagator achieves what it does with the others (`regular_consistent`), if there are variables: it fails only if no word is left, and otherwise each value that is left is part of a word that is accepted. -/
theorem regularBacchus_consistent {u : List (List (Int × Int))} {c : Ctx} {s s' : Sys σ μ} {r : Res PState} (hu : dfa t = .ok u) (hrange : RegularBacchus.inRange numStates u = true) (hm : ∀ m ∈ t, IsMap m) (hst : st.OK)
    (hv : ∀ v ∈ vars, v.Valid n) (hs : Runnable n m s) (hg : GraphOK (RegularBacchus.auto u final) vars st s.doms s.top) (hr : runProg c (Layered.prop (RegularBacchus.auto u final) .automaton st vars) s = .ok (r, s')) :
    (Failed r s' → ∀ a, Within s.doms a → ¬ Accepts (Moves t) final 0 0 (vars.map (·.eval a))) ∧
    (¬ Failed r s' → (vars.filterMap VarId.underlyingIndex).Nodup → ∀ v ∈ vars, ∀ y, Poss s'.doms v y → ∃ a, Within s'.doms a ∧ v.eval a = y ∧ Accepts (Moves t) final 0 0 (vars.map (·.eval a))) := by
  have hacc := fun a => accepted_iff (A := RegularBacchus.auto u final) (vars := vars) (bacchus_next final hu hm hrange) a
  obtain ⟨h1, h2⟩ := layered_run (A := RegularBacchus.auto u final) (fun i q x => MDD.nodup_of_length (bacchus_length u final i q x)) (.inr (bacchus_length u final)) hst hv hs hg hr
  refine ⟨fun hf a ha h => h1 hf a ha ((hacc a).2 h), fun hf hn v hv y hy => ?_⟩
  obtain ⟨_, _, g, hD⟩ := h2 hf
  obtain ⟨a, a1, a2, a3⟩ := hD.consistent hs.domsOK hn hv hy
  exact ⟨a, a1, a2, (hacc a).1 a3⟩

end

/-! Concrete cases, and runs. -/

namespace Regular.Demo
open Layered.Demo

/-- Two states, a value of 1 changes between them; 2 is only allowed in the second, and is given twice. -/
def parity : List (List (Int × List Int)) := [[(0, [0]), (1, [1])], [(0, [1]), (1, [0]), (2, [1, 1])]]
def vars : List VarId := [.simple 0, .view 1 true 2]

theorem parity_maps : ∀ m ∈ parity, IsMap m := by unfold IsMap parity; decide

example : dfa parity = .ok [[(0, 0), (1, 1)], [(0, 1), (1, 0), (2, 1)]] := by decide
example : dfa nfa = .error .unimplemented := by decide
example (s : Strategy) : (Posted.mk (fun _ => installWith (μ := Unit) s 2 parity [1] (store 0) vars) (fun a => Accepts (Moves parity) [1] 0 0 (vars.map (·.eval a))) vars).Serves 2 1 (· = .overflow) [[(0, 2)], [(0, 2)]] [.fresh] (· = 0) :=
  regularStrategy_right_partial rfl (by decide) parity_maps (store_ok 0) rfl (fun _ h => nomatch h)
example (s : Strategy) : ∃ items, installWith (μ := Unit) s 2 parity [1] (store 0) vars = .ok items := by
  rcases regularStrategy_refuses (σ := Graph) (μ := Unit) (strategy := s) (numStates := 2) (t := parity) (final := [1]) (st := store 0) (vars := vars) (by decide) (by decide) (by decide) with ⟨rfl, _, h⟩ | ⟨_, h⟩
  · exact absurd h (by intro h; cases h)
  · exact h
example : (installWith (μ := Unit) .bacchus 4 nfa [2] (store 0) word).map List.length = .error .unimplemented := by decide
example : (installWith (μ := Unit) .perCall 4 nfa [2] (store 0) word).map List.length = .ok 1 := by decide

/-- The hypotheses of `regularBacchus_consistent` are met at the start. -/
example {d : Doms} (hd : DomsOK d) (hl : d.length = 2) {w : Watches} {r : Res PState} {s' : Sys Graph Unit}
    (hr : runProg ⟨0, []⟩ (Layered.prop (RegularBacchus.auto [[(0, 0), (1, 1)], [(0, 1), (1, 0), (2, 1)]] [1]) .automaton (store 0) vars) (Sys.start d [.fresh] () w) = .ok (r, s')) (hf : ¬ Failed r s') {v : Int} (hv : Poss s'.doms (.simple 0) v) :
    ∃ a, Within s'.doms a ∧ (VarId.simple 0).eval a = v ∧ Accepts (Moves parity) [1] 0 0 (vars.map (·.eval a)) :=
  (regularBacchus_consistent (n := 2) (m := 1) (s := Sys.start d [.fresh] () w) (t := parity) (numStates := 2) (by decide) (by decide) parity_maps (store_ok 0) (by decide) ⟨hd, hl, by simp [Sys.start], rfl, rfl⟩ (stored_fresh rfl) hr).2 hf (by decide) _ (by decide) v hv

def left (d : Doms) : Option (Res PState × Doms) :=
  (runProg ⟨0, []⟩ (Layered.prop (μ := Unit) (RegularBacchus.auto [[(0, 0), (1, 1)], [(0, 1), (1, 0), (2, 1)]] [1]) .automaton (store 0) vars) (Sys.start d [.fresh] () (Run.setup d []).watches)).toOption.map fun p => (p.1, p.2.doms)
/-- The first is not 2, then the second is 1, or also 0 or 2 after a 1. -/
example : left [[(0, 2)], [(0, 2)]] = some (.val .enable, [[(0, 1)], [(0, 2)]]) := by decide +kernel
example : left [[(0, 0)], [(0, 2)]] = some (.val .enable, [[(0, 0)], [(1, 1)]]) := by decide +kernel
example : (left [[(0, 0)], [(0, 0)]]).map (·.1) = some .failed := by decide +kernel

/-! No variables at all, and a first state that is not final. -/

def root : Doms := [[(0, 1)]]
def empty (s : Strategy) : Posted Graph Unit := ⟨fun _ => installWith s 2 parity [1] (store 0) [], fun a => Accepts (Moves parity) [1] 0 0 (([] : List VarId).map (·.eval a)), []⟩
def S (s : Strategy) : Setup Graph Unit := (Setup.create root 0 ([empty s].map (·.install)) Setup.empty).toOption.getD Setup.empty
def env (s : Strategy) : SearchEnv Graph Unit where
  engine := (S s).engine
  abort := fun _ => false
  branch := fun _ s => branchWith (dom [.simple 0]) largestFirst s.doms
  solution := fun _ _ => true
  trace := fun _ _ => true
  minimise := none
  learn := none

end Regular.Demo

open Regular Regular.Demo in
/-- C63: the strategy changes the solutions: the same constraint on no variables, which nothing satisfies, has no solutions with two of the strategies, but two with the third. regular.hh:26-27 and :56-57 say that the choice never changes the solutions. -/
theorem regularStrategy_empty_wrong : (∀ s a, ¬ (empty s).holds a) ∧ ∀ s, ∃ res has s' t, solve (env s) (S s) 14 1 none (Sys.start root [.fresh] () (S s).watches) = .ok ((res, has, s', t), true) ∧
    t.found = (match s with | .upfront => [] | .perCall => [] | .bacchus => [[[(1, 1)]], [[(0, 0)]]]) := by
  refine ⟨fun s a (h : (0 : Int) ∈ ([1] : List Int)) => absurd h (by decide), fun s => ?_⟩
  have h : (match solve (env s) (S s) 14 1 none (Sys.start root [.fresh] () (S s).watches) with
    | .ok ((_, _, _, t), true) => decide (t.found = (match s with | .upfront => [] | .perCall => [] | .bacchus => [[[(1, 1)]], [[(0, 0)]]]))
    | _ => false) = true := by cases s <;> decide +kernel
  split at h
  · exact ⟨_, _, _, _, by assumption, of_decide_eq_true h⟩
  · cases h

end Gcs
