import Verif.Props.Solve
import Verif.Lemmas.Watched

/-!
# Nogoods and restarts (C24, C27)

C24 is about the propagator with refined watches, at every node of a search, whatever happened before. C27 is about whole searches with restarts, where nogoods are learned when a pass is abandoned:
for the scanning propagator (`GCS_LEARNED_NOGOODS_SCAN`), and for the one with refined watches, which is the default.

For refined watches both are proved when no other propagator claims to be idempotent. With honoured claims they are false of the code: see the end of the file, where a solution is reported twice.
-/

namespace Gcs
open IntervalSet Queue Nogoods

section
variable {σ μ : Type} {n m : Nat} {R : Err → Prop}

/-! ## C24 -/

section
variable {E : Engine σ μ} {l : List (Prog σ μ PState × Triggers)} {cell : Cell μ NogoodMem} {me : Nat} {abort : Nat → Bool} {S : List (List Cond)} {s : Sys σ μ}

/-- C24. At every node, a nogood there was at the start of the pass has a literal that is false, or at least two, at different places, that are not known to be true. So no nogood is
violated, and none is unit with its consequence not inferred. Missing: other propagators may not claim to be idempotent (and must not arm watches on literals already true). -/
theorem nogoods_propagated_partial (h : Hosted n m R E l cell me) (hw : Watcher n E l cell me) (hv : Visited n m E cell abort S s) {g : List Cond} (hg : g ∈ S) :
    (∃ c ∈ g, ∀ a, Within s.doms a → ¬ c.holds a) ∨
    ∃ (p q : Nat) (x y : Cond), p ≠ q ∧ g[p]? = some x ∧ g[q]? = some y ∧ (∃ a, Within s.doms a ∧ ¬ x.holds a) ∧ ∃ a, Within s.doms a ∧ ¬ y.holds a := by
  obtain ⟨_, _, hk, hpre, hup⟩ := visited_kept h hw hv
  obtain ⟨ni, hni⟩ := List.mem_iff_getElem?.1 hg
  have hlt := (List.getElem?_eq_some_iff.1 hni).1
  have hst : (cell.get s.mem).store[ni]? = some g := by
    obtain ⟨z, hz⟩ := hpre
    rw [← hz, List.getElem?_append_left hlt]; exact hni
  have key : ∀ {x : Cond}, ¬ Entailed s.doms (.cond x) → ∃ a, Within s.doms a ∧ ¬ x.holds a := by
    intro x hx
    exact Classical.byContradiction fun hn => hx fun a ha => Classical.byContradiction fun hh => hn ⟨a, ha, hh⟩
  rcases hk.unit (by omega) hst with h1 | ⟨p, q, x, y, h1, h2, h3, h4, h5⟩
  · exact .inl h1
  · exact .inr ⟨p, q, x, y, h1, h2, h3, key h4, key h5⟩

/-- C24. Where everything the nogood is about is fixed, it is not violated. -/
theorem nogoods_not_violated_partial (h : Hosted n m R E l cell me) (hw : Watcher n E l cell me) (hv : Visited n m E cell abort S s) {g : List Cond} (hg : g ∈ S)
    (hf : ∀ c ∈ g, ∀ a b, Within s.doms a → Within s.doms b → c.holds a → c.holds b) : ∀ a, Within s.doms a → ¬ ∀ c ∈ g, c.holds a := by
  intro a ha hall
  rcases nogoods_propagated_partial h hw hv hg with ⟨c, hc, hn⟩ | ⟨p, _, x, _, _, hx, _, ⟨b, hb, hn⟩, _⟩
  · exact hn a ha (hall c hc)
  · have := List.mem_of_getElem? hx
    exact hn (hf x this a b ha hb (hall x this))

/-- C24. Whatever the watches and messages, the propagator never loses an assignment that violates no nogood, and leaves the nogoods as they are. -/
theorem refined_nogoods_sound (me : Nat) {c : Ctx} {s s' : Sys σ μ} (hs : Runnable n m s) {r : Res PState} (e : runProg ⟨me, c.scope⟩ (refined cell me) s = .ok (r, s')) {a : Asg} (ha : Within s.doms a)
    (hg : ∀ g ∈ (cell.get s.mem).store, ¬ ∀ c ∈ g, c.holds a) : r = .val .enable ∧ Within s'.doms a ∧ (cell.get s'.mem).store = (cell.get s.mem).store := by
  rcases refined_run hs e with ⟨_, h1, _⟩ | ⟨h1, h2⟩
  · obtain ⟨g, hm, hfb⟩ := h1 a ha
    exact absurd hfb (hg g hm)
  · exact ⟨h1, h2.keep a ha hg, h2.store⟩

/-- C24. The same for the scanning propagator. When it has run, every nogood has a literal that was not known to be true before, or is false now. -/
theorem scan_nogoods_sound {c : Ctx} {s s' : Sys σ μ} (hs : Runnable n m s) {r : Res PState} (e : runProg c (scan cell) s = .ok (r, s')) :
    (∀ a, Within s.doms a → (∀ g ∈ (cell.get s.mem).store, ¬ ∀ c ∈ g, c.holds a) → r = .val .enable ∧ Within s'.doms a ∧ (cell.get s'.mem).store = (cell.get s.mem).store) ∧
    (r = .val .enable → ∀ g ∈ (cell.get s.mem).store, ∃ c ∈ g, (∃ a, Within s.doms a ∧ ¬ c.holds a) ∨ ∀ a, Within s'.doms a → ¬ c.holds a) := by
  rcases scan_run hs e with ⟨h0, h1, _⟩ | ⟨h1, h2, h3⟩
  · refine ⟨fun a ha hg => ?_, fun h => by rw [h0] at h; cases h⟩
    obtain ⟨g, hm, hfb⟩ := h1 a ha
    exact absurd hfb (hg g hm)
  · refine ⟨fun a ha hg => ⟨h1, h2.keep a ha hg, h2.store⟩, fun _ g hg => ?_⟩
    obtain ⟨x, hx, h⟩ := h3 g hg
    refine ⟨x, hx, ?_⟩
    rcases h with h | h
    · exact .inl (Classical.byContradiction fun hn => h fun a ha => Classical.byContradiction fun hh => hn ⟨a, ha, hh⟩)
    · exact .inr h

end

/-! ## C27 -/

/-- A problem searched with restarts: constraints that are sound, check themselves and do not touch the learned nogoods; a right heuristic, which may be different in each pass, and branches on everything
constraints and objective are about; last, the propagator `f` for learned nogoods. -/
structure RestartsOK (n m : Nat) (R : Err → Prop) (V : SearchEnv σ μ) (root : Doms) (ps : List (Posting σ μ)) (vars : List VarId) (cell : Cell μ NogoodMem) (f : Prog σ μ PState) (t : Triggers) : Prop where
  built : Built n m R V.engine ((ps.map fun p => (p.prog, p.triggers)) ++ [(f, t)])
  enabled : ∀ p, p ≤ ps.length → V.engine.permDisabled[p]? = some false
  sound : ∀ p ∈ ps, ∀ a, Within root a → (∀ q ∈ ps, q.holds a) → p.prog.Truthful n a
  checks : ∀ p ∈ ps, Checks n p.prog p.triggers (fun a => Within root a → p.holds a) p.about
  spares : ∀ p ∈ ps, Spares n m cell p.prog
  branches : BranchesOn n m V vars
  covered : Covered V ps vars n
  monotone : ∀ i j, i ≤ j → V.abort i = true → V.abort j = true
  learn : V.learn = some fun g x => cell.set ((cell.get x).add g) x

variable {V : SearchEnv σ μ} {rt : Doms} {ps : List (Posting σ μ)} {vars : List VarId} {cell : Cell μ NogoodMem} {f : Prog σ μ PState} {t : Triggers}

theorem RestartsOK.learner (h : RestartsOK n m R V rt ps vars cell f t) :
    Learner n m R V ((ps.map fun p => (p.prog, p.triggers)) ++ [(f, t)]) cell ps.length (fun a => Within rt a ∧ ∀ p ∈ ps, p.holds a) (fun a => Within rt a → ∀ p ∈ ps, p.holds a)
      (fun p a => Within rt a → (ps[p]?.map (·.holds)).getD (fun _ => True) a)
      (fun p => (ps[p]?.map (·.about)).getD []) (vars.filterMap VarId.underlyingIndex) := by
  have hlen : ∀ p, p ≠ ps.length → V.engine.permDisabled[p]? = some false → p < ps.length := by
    intro p hp h1
    have h1 := (List.getElem?_eq_some_iff.1 h1).1
    have h2 := h.built.wf.permLen
    have h3 : V.engine.progs.length = ps.length + 1 := by rw [h.built.progs]; simp
    omega
  have hprog : ∀ (p : Nat) g, p ≠ ps.length → V.engine.progs[p]? = some g → ∃ x : Posting σ μ, ps[p]? = some x ∧ x.prog = g := by
    intro p g hp hg
    rw [h.built.progs] at hg
    have hlt : p < ps.length := by
      have := (List.getElem?_eq_some_iff.1 hg).1
      simp at this; omega
    rw [List.map_append, List.getElem?_append_left (by simpa using hlt), List.getElem?_map, List.getElem?_map, List.getElem?_eq_getElem hlt] at hg
    exact ⟨ps[p], List.getElem?_eq_getElem hlt, by simpa using hg⟩
  refine ⟨h.built, h.enabled _ (Nat.le_refl _), ?_, ?_, ?_, ?_, ?_, ?_, h.branches.branch, h.monotone, h.learn⟩
  · intro p g hp hg _ a ha
    obtain ⟨x, hx, rfl⟩ := hprog p g hp hg
    exact h.sound x (List.mem_of_getElem? hx) a ha.1 ha.2
  · intro p g u hp hl hpd
    have hlt := hlen p hp hpd
    rw [List.getElem?_append_left (by simpa using hlt), List.getElem?_map, List.getElem?_eq_getElem hlt] at hl
    cases hl
    rw [List.getElem?_eq_getElem hlt]
    exact h.checks _ (List.getElem_mem hlt)
  · intro p g hp hg _
    obtain ⟨x, hx, rfl⟩ := hprog p g hp hg
    exact h.spares x (List.mem_of_getElem? hx)
  · intro a ha hin p hm
    obtain ⟨i, hi⟩ := List.mem_iff_getElem?.1 hm
    have hlt := (List.getElem?_eq_some_iff.1 hi).1
    have := ha i (by omega) (h.enabled i (by omega)) hin
    simpa [hi] using this
  · intro p hp hen v hv
    have hlt := hlen p hp hen
    rw [List.getElem?_eq_getElem hlt] at hv
    obtain ⟨x, hx, e⟩ := h.covered.about _ (List.getElem_mem hlt) v hv
    exact List.mem_filterMap.2 ⟨x, hx, e⟩
  · intro o ho
    refine ⟨(h.covered.objective o ho).1, fun v hv => ?_⟩
    obtain ⟨x, hx, e⟩ := (h.covered.objective o ho).2 v hv
    exact List.mem_filterMap.2 ⟨x, hx, e⟩

theorem RestartsOK.last (h : RestartsOK n m R V rt ps vars cell f t) : ((ps.map fun p => (p.prog, p.triggers)) ++ [(f, t)])[ps.length]? = some (f, t) := by
  rw [List.getElem?_append_right (by simp)]; simp

/-- The contract of `Spec/Search.lean` is met with the scanning propagator, subscribed to every variable branched on; so everything in `Props/Search.lean` applies. -/
theorem restarts_contract_scan (h : RestartsOK n m R V rt ps vars cell (scan cell) t) (ht : ∀ x ∈ vars, x ∈ t.onChange) :
    ∃ I, SearchContract n m R V (fun a => Within rt a ∧ ∀ p ∈ ps, p.holds a) (fun d => ∀ v ∈ vars.filterMap VarId.underlyingIndex, Fixed d v) (fun x => (cell.get x).store)
      (Grows cell n (vars.filterMap VarId.underlyingIndex)) (fun s => AllGuesses n (vars.filterMap VarId.underlyingIndex) (cell.get s.mem).store ∧ Rooted rt s) I :=
  ⟨_, (scan_contract h.learner ⟨t, h.last, fun v hv => by
    obtain ⟨x, hx, e⟩ := List.mem_filterMap.1 hv
    exact ⟨x, ht x hx, e⟩⟩).relative fun _ h1 h2 => ⟨h1, h2 h1⟩⟩

/-- No posted propagator claims to be idempotent, or arms a watch on a literal that is already true. -/
structure WatchesWork (n : Nat) (ps : List (Posting σ μ)) : Prop where
  noClaims : ∀ p ∈ ps, ∀ d, DomsOK d → d.length = n → p.prog.Wp n (fun r _ => r ≠ .enableButIdempotent) d
  arms : ∀ p ∈ ps, ∀ d, DomsOK d → d.length = n → p.prog.ArmsOpen n d

theorem RestartsOK.watcher (h : RestartsOK n m R V rt ps vars cell (refined cell ps.length) {}) (hw : WatchesWork n ps) :
    Watcher n V.engine ((ps.map fun p => (p.prog, p.triggers)) ++ [(refined cell ps.length, ({} : Triggers))]) cell ps.length := by
  have hprog : ∀ (p : Nat) g, p ≠ ps.length → V.engine.progs[p]? = some g → ∃ x ∈ ps, x.prog = g := by
    intro p g hp hg
    rw [h.built.progs] at hg
    have hlt : p < ps.length := by
      have := (List.getElem?_eq_some_iff.1 hg).1
      simp at this; omega
    rw [List.map_append, List.getElem?_append_left (by simpa using hlt), List.getElem?_map, List.getElem?_map, List.getElem?_eq_getElem hlt] at hg
    exact ⟨ps[p], List.getElem_mem hlt, by simpa using hg⟩
  refine ⟨h.last, ?_, ?_⟩
  · intro p g hp hg _ d hd hl
    obtain ⟨x, hx, rfl⟩ := hprog p g hp hg
    exact hw.noClaims x hx d hd hl
  · intro p g hp hg d hd hl
    obtain ⟨x, hx, rfl⟩ := hprog p g hp hg
    exact hw.arms x hx d hd hl

/-- The contract of `Spec/Search.lean` is met with refined watches, if watches work. -/
theorem restarts_contract_partial (h : RestartsOK n m R V rt ps vars cell (refined cell ps.length) {}) (hw : WatchesWork n ps) :
    ∃ I, SearchContract n m R V (fun a => Within rt a ∧ ∀ p ∈ ps, p.holds a) (fun d => ∀ v ∈ vars.filterMap VarId.underlyingIndex, Fixed d v) (fun x => (cell.get x).store)
      (GrowsOnly cell n (vars.filterMap VarId.underlyingIndex)) (fun s => (AllGuesses n (vars.filterMap VarId.underlyingIndex) (cell.get s.mem).store ∧ Kept cell ps.length s) ∧ Rooted rt s) I :=
  ⟨_, (refined_contract h.learner (h.watcher hw)).relative fun _ h1 h2 => ⟨h1, h2 h1⟩⟩

/-- Where the search starts: within the domains at the time of posting, nothing guessed, nothing learned, and no watch on a literal that is already true. -/
structure FreshStart (n m : Nat) (E : Engine σ μ) (root : Doms) (cell : Cell μ NogoodMem) (s : Sys σ μ) : Prop where
  ready : RootOK n m E s
  inside : Rooted root s
  guesses : s.st.guesses = []
  store : (cell.get s.mem).store = []
  setUp : (cell.get s.mem).setUp = 0
  watches : ∀ v, ∀ x ∈ armed s.w v, ¬ Entailed s.doms x.literal

theorem FreshStart.scan {B : List Nat} {s : Sys σ μ} (h : FreshStart n m V.engine rt cell s) : StartOK n m V (fun x => (cell.get x).store) (fun s => AllGuesses n B (cell.get s.mem).store ∧ Rooted rt s) s :=
  ⟨h.ready, ⟨by rw [h.store]; exact fun g hg => by simp at hg, h.inside⟩, h.guesses, h.store⟩

theorem FreshStart.refined {B : List Nat} {me : Nat} {s : Sys σ μ} (h : FreshStart n m V.engine rt cell s) :
    StartOK n m V (fun x => (cell.get x).store) (fun s => (AllGuesses n B (cell.get s.mem).store ∧ Kept cell me s) ∧ Rooted rt s) s :=
  ⟨h.ready, ⟨⟨by rw [h.store]; exact fun g hg => by simp at hg, by rw [h.setUp]; exact Nat.zero_le _, fun ni g hni => by rw [h.setUp] at hni; omega, h.watches⟩, h.inside⟩, h.guesses, h.store⟩

section
variable {s s' : Sys σ μ} {depthFuel fuel : Nat} {sched : Option Restarts} {res : SearchResult} {has done : Bool} {ty : Tally}

/-- What a contract for these assignments gives. -/
theorem contract_restarts {J : Sys σ μ → Prop} {I : Nat → Sys σ μ → Prop} {Le : μ → μ → Prop}
    (hC : SearchContract n m R V (fun a => Within rt a ∧ ∀ p ∈ ps, p.holds a) (fun d => ∀ v ∈ vars.filterMap VarId.underlyingIndex, Fixed d v) (fun x => (cell.get x).store) Le J I)
    (hst : StartOK n m V (fun x => (cell.get x).store) J s) (hin : Rooted rt s) (hen : Enough V s depthFuel fuel sched)
    (ho : V.minimise = none) (hr : search V depthFuel fuel sched s = .ok ((res, has, s', ty), done)) :
    ty.found.Pairwise (Distinguished vars) ∧ (∀ d ∈ ty.found, (∃ a, Within d a) ∧ ∀ a, Within d a → (∀ p ∈ ps, p.holds a) ∧ Within s.doms a) ∧
    (done = true → ∀ a, (∀ p ∈ ps, p.holds a) → Within s.doms a → ∃ d ∈ ty.found, Within d a) := by
  refine ⟨enumeration_distinct hC hst hen hr ho, fun d hd => ?_, fun hd a ha hw => ?_⟩
  · obtain ⟨_, _, h3, h4⟩ := reported_are_solutions hC hst hen hr d hd
    exact ⟨h3, fun a ha => ⟨(h4 a ha).1.2, (h4 a ha).2⟩⟩
  · obtain ⟨i, d, h1, h2, _⟩ := (enumeration_exactly_once hC hst hen hr ho hd a).1 ⟨⟨hin a hw, ha⟩, hw⟩
    exact ⟨d, List.mem_of_getElem? h1, h2⟩

/-- C27, scanning. Whatever the restart schedule and the heuristic: no two solutions reported agree on all variables branched on, also if the search is stopped, and each solution reported is one. If the search completes, every
solution is reported. -/
theorem restarts_enumerate (h : RestartsOK n m R V rt ps vars cell (scan cell) t) (ht : ∀ x ∈ vars, x ∈ t.onChange) (hs : FreshStart n m V.engine rt cell s) (hen : Enough V s depthFuel fuel sched)
    (ho : V.minimise = none) (hr : search V depthFuel fuel sched s = .ok ((res, has, s', ty), done)) :
    ty.found.Pairwise (Distinguished vars) ∧ (∀ d ∈ ty.found, (∃ a, Within d a) ∧ ∀ a, Within d a → (∀ p ∈ ps, p.holds a) ∧ Within s.doms a) ∧
    (done = true → ∀ a, (∀ p ∈ ps, p.holds a) → Within s.doms a → ∃ d ∈ ty.found, Within d a) := by
  obtain ⟨I, hC⟩ := restarts_contract_scan h ht
  exact contract_restarts hC hs.scan hs.inside hen ho hr

/-- The same with an objective. -/
theorem contract_restarts_optimise {J : Sys σ μ → Prop} {I : Nat → Sys σ μ → Prop} {Le : μ → μ → Prop}
    (hC : SearchContract n m R V (fun a => Within rt a ∧ ∀ p ∈ ps, p.holds a) (fun d => ∀ v ∈ vars.filterMap VarId.underlyingIndex, Fixed d v) (fun x => (cell.get x).store) Le J I)
    (hst : StartOK n m V (fun x => (cell.get x).store) J s) (hin : Rooted rt s) (hen : Enough V s depthFuel fuel sched)
    {o : VarId} (ho : V.minimise = some o) (hr : search V depthFuel fuel sched s = .ok ((res, has, s', ty), true)) :
    (ty.found = [] ∧ ∀ a, Within s.doms a → ¬ ∀ p ∈ ps, p.holds a) ∨
    ∃ d v, ty.found.getLast? = some d ∧ (∃ a, Within d a) ∧ (∀ a, Within d a → (∀ p ∈ ps, p.holds a) ∧ Within s.doms a ∧ o.eval a = v) ∧
      ∀ b, (∀ p ∈ ps, p.holds b) → Within s.doms b → v ≤ o.eval b := by
  rcases optimisation_optimal hC hst hen hr ho rfl with ⟨h1, _, h3⟩ | ⟨d, v, h1, _, h3, h4⟩
  · exact .inl ⟨h1, fun a ha hp => h3 a ha ⟨hin a ha, hp⟩⟩
  · exact .inr ⟨d, v, h1, (reported_are_solutions hC hst hen hr d (List.mem_of_getLast? h1)).2.2.1, fun a ha => ⟨(h3 a ha).1.2, (h3 a ha).2⟩, fun b hb hw => h4 b ⟨hin b hw, hb⟩ hw⟩

/-- C27, scanning, with an objective: if the search completes, the last solution is optimal, or there is none. -/
theorem restarts_optimise (h : RestartsOK n m R V rt ps vars cell (scan cell) t) (ht : ∀ x ∈ vars, x ∈ t.onChange) (hs : FreshStart n m V.engine rt cell s) (hen : Enough V s depthFuel fuel sched)
    {o : VarId} (ho : V.minimise = some o) (hr : search V depthFuel fuel sched s = .ok ((res, has, s', ty), true)) :
    (ty.found = [] ∧ ∀ a, Within s.doms a → ¬ ∀ p ∈ ps, p.holds a) ∨
    ∃ d v, ty.found.getLast? = some d ∧ (∃ a, Within d a) ∧ (∀ a, Within d a → (∀ p ∈ ps, p.holds a) ∧ Within s.doms a ∧ o.eval a = v) ∧
      ∀ b, (∀ p ∈ ps, p.holds b) → Within s.doms b → v ≤ o.eval b := by
  obtain ⟨I, hC⟩ := restarts_contract_scan h ht
  exact contract_restarts_optimise hC hs.scan hs.inside hen ho hr

/-- C27, refined watches. Missing: propagators that claim to be idempotent; `Restart.claims_repeat_solution` shows that then it is false. -/
theorem restarts_enumerate_partial (h : RestartsOK n m R V rt ps vars cell (refined cell ps.length) {}) (hw : WatchesWork n ps) (hs : FreshStart n m V.engine rt cell s) (hen : Enough V s depthFuel fuel sched)
    (ho : V.minimise = none) (hr : search V depthFuel fuel sched s = .ok ((res, has, s', ty), done)) :
    ty.found.Pairwise (Distinguished vars) ∧ (∀ d ∈ ty.found, (∃ a, Within d a) ∧ ∀ a, Within d a → (∀ p ∈ ps, p.holds a) ∧ Within s.doms a) ∧
    (done = true → ∀ a, (∀ p ∈ ps, p.holds a) → Within s.doms a → ∃ d ∈ ty.found, Within d a) := by
  obtain ⟨I, hC⟩ := restarts_contract_partial h hw
  refine ⟨enumeration_distinct hC hs.refined hen hr ho, fun d hd => ?_, fun hd a ha hw => ?_⟩
  · obtain ⟨_, _, h3, h4⟩ := reported_are_solutions hC hs.refined hen hr d hd
    exact ⟨h3, fun a ha => ⟨(h4 a ha).1.2, (h4 a ha).2⟩⟩
  · obtain ⟨i, d, h1, h2, _⟩ := (enumeration_exactly_once hC hs.refined hen hr ho hd a).1 ⟨⟨hs.inside a hw, ha⟩, hw⟩
    exact ⟨d, List.mem_of_getElem? h1, h2⟩

/-- C27, refined watches, with an objective. Missing: as above. -/
theorem restarts_optimise_partial (h : RestartsOK n m R V rt ps vars cell (refined cell ps.length) {}) (hw : WatchesWork n ps) (hs : FreshStart n m V.engine rt cell s) (hen : Enough V s depthFuel fuel sched)
    {o : VarId} (ho : V.minimise = some o) (hr : search V depthFuel fuel sched s = .ok ((res, has, s', ty), true)) :
    (ty.found = [] ∧ ∀ a, Within s.doms a → ¬ ∀ p ∈ ps, p.holds a) ∨
    ∃ d v, ty.found.getLast? = some d ∧ (∃ a, Within d a) ∧ (∀ a, Within d a → (∀ p ∈ ps, p.holds a) ∧ Within s.doms a ∧ o.eval a = v) ∧
      ∀ b, (∀ p ∈ ps, p.holds b) → Within s.doms b → v ≤ o.eval b := by
  obtain ⟨I, hC⟩ := restarts_contract_partial h hw
  rcases optimisation_optimal hC hs.refined hen hr ho rfl with ⟨h1, _, h3⟩ | ⟨d, v, h1, _, h3, h4⟩
  · exact .inl ⟨h1, fun a ha hp => h3 a ha ⟨hs.inside a ha, hp⟩⟩
  · exact .inr ⟨d, v, h1, (reported_are_solutions hC hs.refined hen hr d (List.mem_of_getLast? h1)).2.2.1, fun a ha => ⟨(h3 a ha).1.2, (h3 a ha).2⟩, fun b hb hw => h4 b ⟨hs.inside b hw, hb⟩ hw⟩

end
end
/-! ## A concrete problem

Three 0-1 variables, `z = 1 → x = 0 ∧ y = 0` and `¬ (x = 0 ∧ y = 1)`, the latter checked only when all is fixed. The heuristic changes when something has been learned. -/

namespace Restart

def x : VarId := .simple 0
def y : VarId := .simple 1
def z : VarId := .simple 2

/-- If `z = 1`, infer `x = 0` and `y = 0`; then say `r`. -/
def imply (r : PState) : Prog Unit NogoodMem PState :=
  (Prog.ask (testLiteral · (.cond (Cond.eq z 1)))).bind fun t =>
    if t = .definitelyTrue then .infer (.cond (Cond.eq x 0)) false fun _ => .infer (.cond (Cond.eq y 0)) false fun _ => .ret r else .ret .enable

/-- Fail if everything is fixed, `x = 0` and `y = 1`. -/
def clash : Prog Unit NogoodMem PState :=
  (Prog.ask fun d => do
    let a ← testLiteral d (.cond (Cond.eq x 0))
    let b ← testLiteral d (.cond (Cond.eq y 1))
    let c ← hasSingleValue d z
    return (a, b, c)).bind fun t => if t.1 = .definitelyTrue ∧ t.2.1 = .definitelyTrue ∧ t.2.2 = true then .fail else .ret .enable

def tr : Triggers := { onInstantiated := [x, y, z] }

def ps (r : PState) : List (Posting Unit NogoodMem) :=
  [⟨imply r, tr, fun a => a 2 = 1 → a 0 = 0 ∧ a 1 = 0, [0, 1, 2]⟩, ⟨clash, tr, fun a => ¬ (a 0 = 0 ∧ a 1 = 1), [0, 1, 2]⟩]

def cell : Cell NogoodMem NogoodMem := ⟨id, fun x _ => x, fun _ _ => rfl⟩

/-- The engine: the two constraints, then the nogoods. -/
def E (r : PState) (f : Prog Unit NogoodMem PState) (t : Triggers) : Engine Unit NogoodMem := ((Engine.empty.install 0 (imply r) tr).install 1 clash tr).install 2 f t

/-- In order with the smallest value first, until something has been learned; from then on `z` first, and the largest value first. -/
def env (r : PState) (f : Prog Unit NogoodMem PState) (t : Triggers) : SearchEnv Unit NogoodMem where
  engine := E r f t
  abort := fun _ => false
  branch := fun _ s => if s.mem.store = [] then branchWith (inOrder [x, y, z]) smallestFirst s.doms else branchWith (inOrder [z, x, y]) largestFirst s.doms
  solution := fun _ _ => true
  trace := fun _ _ => true
  minimise := none
  learn := some fun g x => x.add g

def s0 : Sys Unit NogoodMem :=
  ⟨⟨[[[(0, 1)], [(0, 1)], [(0, 1)]]], [[]], [[]], [], [], none, none⟩, .fresh, .empty, ⟨[], [], 0, 0, 0⟩, [], [], 0, 0, 0, [], {}, 0, []⟩

def Bad (e : Err) : Prop := e = .overflow ∨ e = .ub

theorem test_ask (v : VarId) (hv : v.Valid 3) (k : Int) (hk : InI64 k) (d : Doms) (hd : DomsOK d) (hl : d.length = 3) :
    RightOrOverflow (testLiteral d (.cond (Cond.eq v k))) (fun t => t = .definitelyTrue ↔ ∀ a, Within d a → v.eval a = k) :=
  (testLiteral_spec d (.cond (Cond.eq v k)) hd ⟨by rw [hl]; exact hv, hk, show InI64 0 by decide⟩ (by rintro (h | h) <;> cases h)).mono fun _ ht => ht.1

theorem lit_ok (v : VarId) (hv : v.Valid 3) (k : Int) (hk : InI64 k) : (Lit.cond (Cond.eq v k)).Valid 3 := ⟨hv, hk, show InI64 0 by decide⟩

theorem wakes : ∀ x' ∈ [x, y, z], ∀ v, x'.underlyingIndex = some v → ∃ y', (y' ∈ tr.onChange ∨ y' ∈ tr.onBounds ∨ y' ∈ tr.onInstantiated) ∧ y'.underlyingIndex = some v :=
  fun x' hx v hv => ⟨x', .inr (.inr hx), hv⟩

theorem imply_right (r : PState) : Implements 3 0 Bad s0.doms (imply r) tr (fun a => a 2 = 1 → a 0 = 0 ∧ a 1 = 0) (fun a => a 2 = 1 → a 0 = 0 ∧ a 1 = 0) [x, y, z] where
  wakes := wakes
  refined := by simp [tr]
  ver := by
    intro d hd hl
    refine ver_mono (fun _ _ h => Enforced.when h) _ _ ?_
    refine ver_ask (.inl rfl) (test_ask z (show 2 < 3 by decide) 1 (by decide) d hd hl) fun t ht => ?_
    split
    · rename_i h
      refine ⟨lit_ok x (show 0 < 3 by decide) 0 (by decide), fun a ha hs => (hs.2 (ht.1 h a ha)).1, fun d1 _ _ h1 => ?_, nofun⟩
      refine ⟨lit_ok y (show 1 < 3 by decide) 0 (by decide), fun a ha hs => (hs.2 (ht.1 h a ((h1 a).1 ha).1)).2, fun d2 _ _ h2 => ?_, nofun⟩
      have key : ∀ a, Within d2 a → a 0 = 0 ∧ a 1 = 0 := fun a ha => ⟨((h1 a).1 ((h2 a).1 ha).1).2, ((h2 a).1 ha).2⟩
      exact .intro (fun _ a ha _ _ => key a ha) (fun _ _ a ha _ _ => key a ha) fun _ a ha _ _ => key a ha
    · rename_i h
      refine Enforced.intro (fun hk a ha _ hz => absurd (ht.2 fun b hb => ?_) h) nofun nofun
      rw [hk z (by simp) b a hb ha]; exact hz

theorem clash_right : Implements 3 0 Bad s0.doms clash tr (fun a => ¬ (a 0 = 0 ∧ a 1 = 1)) (fun a => ¬ (a 0 = 0 ∧ a 1 = 1)) [x, y, z] where
  wakes := wakes
  refined := by simp [tr]
  ver := by
    intro d hd hl
    refine ver_mono (fun _ _ h => Enforced.when h) _ _ ?_
    refine ver_ask (P := fun t => (t.1 = .definitelyTrue ↔ ∀ a, Within d a → a 0 = 0) ∧ (t.2.1 = .definitelyTrue ↔ ∀ a, Within d a → a 1 = 1) ∧ (Known d z → t.2.2 = true)) (.inl rfl) ?_ fun t ht => ?_
    · refine (test_ask x (show 0 < 3 by decide) 0 (by decide) d hd hl).bind fun a ha => (test_ask y (show 1 < 3 by decide) 1 (by decide) d hd hl).bind fun b hb => ?_
      obtain ⟨c, e, hc⟩ := hasSingleValue_spec (v := z) hd (by rw [hl]; show 2 < 3; decide)
      simp only [e, bind, Except.bind]
      refine .pure ⟨ha, hb, fun hk => hc.2 ?_⟩
      obtain ⟨a0, h0⟩ := exists_within hd
      refine ⟨z.eval a0, fun w => ⟨?_, fun h => h ▸ h0.poss z⟩⟩
      rintro ⟨b, hb, rfl⟩
      exact hk b a0 hb h0
    · split
      · rename_i h
        exact fun a ha hs => hs.2 ⟨ht.1.1 h.1 a ha, ht.2.1.1 h.2.1 a ha⟩
      · rename_i h
        refine Enforced.intro (fun hk a ha _ hc => h ⟨ht.1.2 fun b hb => ?_, ht.2.1.2 fun b hb => ?_, ht.2.2 (hk z (by simp))⟩) nofun nofun
        · exact (hk x (by simp) b a hb ha).trans hc.1
        · exact (hk y (by simp) b a hb ha).trans hc.2

section
variable {r : PState} {f : Prog Unit NogoodMem PState} {t : Triggers}

theorem built (hf : f.Safe 3 0 Bad) (ht : t.refined = []) : Built 3 0 Bad (E r f t) ((ps r).map (fun p => (p.prog, p.triggers)) ++ [(f, t)]) :=
  .install 2 f t (.install 1 clash tr (.install 0 (imply r) tr .empty (imply_right r).safe (by simp [tr])) clash_right.safe (by simp [tr])) hf (by simp [ht])

theorem vars_valid {vs : List VarId} (h : ∀ v ∈ vs, v = x ∨ v = y ∨ v = z) : ∀ v ∈ vs, v.Valid 3 := by
  intro v hv
  rcases h v hv with rfl | rfl | rfl
  · show 0 < 3; decide
  · show 1 < 3; decide
  · show 2 < 3; decide

theorem branches : BranchesOn 3 0 (env r f t) [x, y, z] where
  valid := vars_valid (by simp)
  shape := fun _ s hs => by
    have hl : s.doms.length = 3 := hs.call.domsLen
    have hval : ∀ v ∈ [x, y, z], v.Valid s.doms.length := by rw [hl]; exact vars_valid (by simp)
    by_cases h : s.mem.store = []
    · refine ⟨inOrder [x, y, z], smallestFirst, by simp [env, h], inOrder_picks hs.call.domsOK hval, fun v hv ho => ?_, smallestFirst_guesses⟩
      exact (smallestFirst_branches_partial hs.call.domsOK (hval v hv) ho).mono fun _ h => h.1
    · refine ⟨inOrder [z, x, y], largestFirst, by simp [env, h], (inOrder_picks hs.call.domsOK (by rw [hl]; exact vars_valid (by simp))).mono fun p hp => ?_, fun v hv ho => ?_, largestFirst_guesses⟩
      · cases p with
        | none => intro v hv; exact hp v (by simp only [List.mem_cons, List.not_mem_nil, or_false] at hv ⊢; rcases hv with h | h | h <;> simp [h])
        | some v => exact ⟨by have := hp.1; simp only [List.mem_cons, List.not_mem_nil, or_false] at this ⊢; rcases this with h | h | h <;> simp [h], hp.2⟩
      · exact (largestFirst_branches hs.call.domsOK (hval v hv) ho).mono fun _ h => h.1

theorem ps_cases {p : Posting Unit NogoodMem} (hp : p ∈ ps r) :
    (Implements 3 0 Bad s0.doms p.prog p.triggers p.holds p.holds [x, y, z] ∧ p.about = [0, 1, 2]) ∧ (p.prog = imply r ∨ p.prog = clash) := by
  simp only [ps, List.mem_cons, List.not_mem_nil, or_false] at hp
  rcases hp with rfl | rfl
  · exact ⟨⟨imply_right r, rfl⟩, .inl rfl⟩
  · exact ⟨⟨clash_right, rfl⟩, .inr rfl⟩

/-- The problem meets the requirements, with either propagator for nogoods and also if `imply` claims to be idempotent: it is. -/
theorem restarts_ok (hf : f.Safe 3 0 Bad) (ht : t.refined = []) : RestartsOK 3 0 Bad (env r f t) s0.doms (ps r) [x, y, z] cell f t where
  built := built hf ht
  enabled := by
    intro p hp
    have : p ≤ 2 := hp
    have e : (env r f t).engine.permDisabled = [false, false, false] := by
      simp only [env, E, (install_fields _ _ _ _).2.1]; rfl
    rw [e]
    match p, this with
    | 0, _ => rfl
    | 1, _ => rfl
    | 2, _ => rfl
  sound := fun p hp a hr ha => (ps_cases hp).1.1.truthful hr (ha p hp)
  checks := fun p hp => by rw [(ps_cases hp).1.2]; exact (ps_cases hp).1.1.checks
  spares := fun p hp => (ps_cases hp).1.1.spares cell
  branches := branches
  covered := by
    refine ⟨fun p hp v hv => ?_, fun o ho => nomatch ho⟩
    rw [(ps_cases hp).1.2] at hv
    simp only [List.mem_cons, List.not_mem_nil, or_false] at hv
    rcases hv with rfl | rfl | rfl
    · exact ⟨x, by simp, rfl⟩
    · exact ⟨y, by simp, rfl⟩
    · exact ⟨z, by simp, rfl⟩
  monotone := by intro i j _ h; cases h
  learn := rfl

theorem start : FreshStart 3 0 (E r f t) s0.doms cell s0 where
  ready := {
    call := {
      domsOK := by
        intro s hs
        have : s = [(0, 1)] := by simpa [Sys.doms, s0] using hs
        subst this; exact Demo.dom_ok 0 1 (by decide) (by decide) (by decide)
      domsLen := rfl
      varsNe := by simp [s0]
      cstatesLen := rfl
      epochs := by simp [s0]
      watches := by intro v ws x hv; simp [s0, Watches.empty] at hv
      boxes := by simp [box, s0, Watches.empty]
      inv := fun h => absurd rfl h }
    ids := by simp [IdsOK, s0, Watches.empty, armed]
    aligned := by constructor <;> simp [s0, Watches.empty] }
  inside := fun _ h => h
  guesses := rfl
  store := rfl
  setUp := rfl
  watches := by simp [s0, Watches.empty, armed]

theorem enough : Enough (env r f t) s0 10 40 (some ⟨1, 1⟩) := by
  refine ⟨by decide, by decide, fun q hq => ?_⟩
  cases hq
  exact ⟨rfl, rfl, 31, by decide, by decide, by decide +kernel⟩

end

theorem works : WatchesWork 3 (ps .enable) where
  noClaims := by
    intro p hp d hd hl
    rcases (ps_cases hp).2 with e | e <;> rw [e]
    · refine wp_ask fun t _ => ?_
      split
      · exact fun _ _ _ _ _ _ _ _ => nofun
      · exact nofun
    · refine wp_ask fun t _ => ?_
      split
      · trivial
      · exact nofun
  arms := fun p hp d hd hl => (ps_cases hp).1.1.armsOpen d hd hl

theorem scan_safe : (scan cell : Prog Unit NogoodMem PState).Safe 3 0 Bad := (scan_ok cell (.inl rfl) (.inr rfl)).safe
theorem refined_safe : (refined cell 2 : Prog Unit NogoodMem PState).Safe 3 0 Bad := (refined_ok cell 2 (.inl rfl) (.inr rfl)).safe

def scanEnv : SearchEnv Unit NogoodMem := env .enableButIdempotent (scan cell) { onChange := [x, y, z] }
def refinedEnv (r : PState) : SearchEnv Unit NogoodMem := env r (refined cell 2) {}

/-- With the scanning propagator, although `imply` claims to be idempotent, the search restarts, learns, and finds the four solutions. -/
theorem scan_runs : ∃ res has s' t, search scanEnv 10 40 (some ⟨1, 1⟩) s0 = .ok ((res, has, s', t), true) ∧ t.found.length = 4 ∧ 2 ≤ s'.mem.store.length := by
  have h : (match search scanEnv 10 40 (some ⟨1, 1⟩) s0 with
    | .ok ((_, _, s', t), true) => decide (t.found.length = 4 ∧ 2 ≤ s'.mem.store.length)
    | _ => false) = true := by decide +kernel
  split at h
  · exact ⟨_, _, _, _, by assumption, of_decide_eq_true h⟩
  · cases h

theorem refined_runs : ∃ res has s' t, search (refinedEnv .enable) 10 40 (some ⟨1, 1⟩) s0 = .ok ((res, has, s', t), true) ∧
    t.found.length = 4 ∧ 2 ≤ s'.mem.store.length := by
  have h : (match search (refinedEnv .enable) 10 40 (some ⟨1, 1⟩) s0 with
    | .ok ((_, _, s', t), true) => decide (t.found.length = 4 ∧ 2 ≤ s'.mem.store.length)
    | _ => false) = true := by decide +kernel
  split at h
  · exact ⟨_, _, _, _, by assumption, of_decide_eq_true h⟩
  · cases h

example : ∃ t : Tally, t.found.length = 4 ∧ t.found.Pairwise (Distinguished [x, y, z]) ∧ ∀ a, (∀ p ∈ ps .enableButIdempotent, p.holds a) → Within s0.doms a → ∃ d ∈ t.found, Within d a := by
  obtain ⟨res, has, s', t, h, hl, _⟩ := scan_runs
  obtain ⟨h1, _, h3⟩ := restarts_enumerate (restarts_ok scan_safe rfl) (fun _ h => h) start enough rfl h
  exact ⟨t, hl, h1, h3 rfl⟩

example : ∃ t : Tally, t.found.length = 4 ∧ t.found.Pairwise (Distinguished [x, y, z]) ∧ ∀ a, (∀ p ∈ ps .enable, p.holds a) → Within s0.doms a → ∃ d ∈ t.found, Within d a := by
  obtain ⟨res, has, s', t, h, hl, _⟩ := refined_runs
  obtain ⟨h1, _, h3⟩ := restarts_enumerate_partial (restarts_ok (r := .enable) (t := {}) refined_safe rfl) works start enough rfl h
  exact ⟨t, hl, h1, h3 rfl⟩

/-- C27 is false of the code when claims are honoured. The problem meets `RestartsOK` (`restarts_ok`), and the claim `imply` makes is true, but the watches on what it inferred are not
fired, so a learned nogood is missed and the same solution is reported twice. -/
theorem claims_repeat_solution : ∃ res has s' t, search (refinedEnv .enableButIdempotent) 10 40 (some ⟨1, 1⟩) s0 = .ok ((res, has, s', t), true) ∧
    2 ≤ t.found.count [[(0, 0)], [(0, 0)], [(1, 1)]] := by
  have h : (match search (refinedEnv .enableButIdempotent) 10 40 (some ⟨1, 1⟩) s0 with
    | .ok ((_, _, _, t), true) => decide (2 ≤ t.found.count [[(0, 0)], [(0, 0)], [(1, 1)]])
    | _ => false) = true := by decide +kernel
  split at h
  · exact ⟨_, _, _, _, by assumption, of_decide_eq_true h⟩
  · cases h

example : RestartsOK 3 0 Bad (refinedEnv .enableButIdempotent) s0.doms (ps .enableButIdempotent) [x, y, z] cell (refined cell 2) {} := restarts_ok refined_safe rfl

/-! Two nodes as in C24: the root of a pass, with one nogood, and below it the node where the first literal is guessed and the second is refuted. -/

def s1 : Sys Unit NogoodMem := { s0 with mem := ⟨[[Cond.eq x 0, Cond.eq y 0]], 0, []⟩ }

theorem s1_ready : RootOK 3 0 (E .enable (refined cell 2) {}) s1 := by
  have h : RootOK 3 0 (E .enable (refined cell 2) {}) s0 := start.ready
  exact ⟨⟨h.call.domsOK, h.call.domsLen, h.call.varsNe, h.call.cstatesLen, h.call.epochs, h.call.watches, h.call.boxes, fun h => absurd rfl h⟩, h.ids, h.aligned⟩

theorem start_within : Within [[(0, 1)], [(0, 1)], [(0, 1)]] fun _ => 0 := by
  intro i s hs
  match i, hs with
  | 0, hs => cases hs; exact ⟨(0, 1), by simp, by decide, by decide⟩
  | 1, hs => cases hs; exact ⟨(0, 1), by simp, by decide, by decide⟩
  | 2, hs => cases hs; exact ⟨(0, 1), by simp, by decide, by decide⟩
  | i + 3, hs => simp at hs

theorem visits : ∃ s, Visited 3 0 (E .enable (refined cell 2) {}) cell (fun _ => false) [[Cond.eq x 0, Cond.eq y 0]] s ∧ s.doms = [[(0, 0)], [(1, 1)], [(0, 1)]] := by
  have h : (match Sys.propagate (E .enable (refined cell 2) {}) [] (fun _ => false) s1 with
    | .ok (true, p) => (match p.st.newEpoch false with
      | .ok (_, st1) => (match st1.guess (.cond (Cond.eq x 0)) with
        | .ok st2 => (match Sys.propagate (E .enable (refined cell 2) {}) [.cond (Cond.eq x 0)] (fun _ => false) { p with st := st2 } with
          | .ok (true, s) => decide (s.doms = [[(0, 0)], [(1, 1)], [(0, 1)]] ∧ p.doms = [[(0, 1)], [(0, 1)], [(0, 1)]])
          | _ => false)
        | _ => false)
      | _ => false)
    | _ => false) = true := by decide +kernel
  split at h
  · rename_i p e1
    have hp : Visited 3 0 (E .enable (refined cell 2) {}) cell (fun _ => false) [[Cond.eq x 0, Cond.eq y 0]] p := .root s1 p s1_ready rfl (by simp [s1, s0, Watches.empty, armed]) e1 (fun _ _ => rfl)
    split at h
    · rename_i ts st1 e2
      split at h
      · rename_i st2 e3
        split at h
        · rename_i s e4
          obtain ⟨h1, h2⟩ := of_decide_eq_true h
          obtain ⟨st1', e5, h5⟩ := open_child (l := .cond (Cond.eq x 0)) (visited_kept (restarts_ok (r := .enable) (t := {}) refined_safe rfl).learner.hosted ((restarts_ok (r := .enable) (t := {}) refined_safe rfl).watcher works) hp).1
            (lit_ok x (show 0 < 3 by decide) 0 (by decide)) ⟨fun _ => 0, by
              rw [h2]
              exact start_within, rfl⟩ p.clock (Nat.le_refl _)
          rw [e2] at e5; cases e5
          rcases h5 with h5 | ⟨st2', e6, hc⟩
          · rw [e3] at h5; cases h5
          · rw [e3] at e6; cases e6
            exact ⟨s, .child _ p _ s _ hp (lit_ok x (show 0 < 3 by decide) 0 (by decide)) hc e4 (fun _ _ => rfl), h1⟩
        · cases h
      · cases h
    · cases h
  · cases h

example : ∃ s : Sys Unit NogoodMem, s.doms = [[(0, 0)], [(1, 1)], [(0, 1)]] ∧ ∀ a, Within s.doms a → ¬ ∀ c ∈ [Cond.eq x 0, Cond.eq y 0], c.holds a := by
  obtain ⟨s, hv, hd⟩ := visits
  refine ⟨s, hd, nogoods_not_violated_partial (restarts_ok (r := .enable) (t := {}) refined_safe rfl).learner.hosted ((restarts_ok (r := .enable) (t := {}) refined_safe rfl).watcher works) hv (by simp) ?_⟩
  intro c hc a b ha hb h
  rw [hd] at ha hb
  have a0 := ha 0 _ rfl; have a1 := ha 1 _ rfl; have b0 := hb 0 _ rfl; have b1 := hb 1 _ rfl
  simp only [Mem, List.mem_singleton, exists_eq_left] at a0 a1 b0 b1
  simp only [List.mem_cons, List.not_mem_nil, or_false] at hc
  rcases hc with rfl | rfl
  · show b 0 = 0; omega
  · have : a 1 = 0 := h; omega

end Restart
end Gcs
