import Verif.Model.Solve
import Verif.Lemmas.Problem

/-!
# Solving a problem (C25, C26, C28, C48)

For a problem whose constraints install the right things (`Posted.OK`, proved for the constraints of the library in `Props/Cons`), installing them, running the initialisers and searching
reports exactly the assignments within the variables' domains that satisfy every constraint.
-/

namespace Gcs
open IntervalSet Queue Nogoods

section
variable {σ μ : Type} {n m : Nat} {R : Err → Prop}

/-- A problem with domains `root` and constraints `cs`, of which `S` was made, searched by `V` branching on `vars`. Everything a constraint or the objective mentions is branched on. -/
structure ProblemOK (n m : Nat) (R : Err → Prop) (root : Doms) (cs : List (Posted σ μ)) (S : Setup σ μ) (V : SearchEnv σ μ) (vars : List VarId) : Prop where
  domsOK : DomsOK root
  domsLen : root.length = n
  constraints : ∀ c ∈ cs, c.OK n m R root
  created : Setup.create root 0 (cs.map (·.install)) Setup.empty = .ok S
  branches : BranchesOn n m V vars
  covered : ∀ c ∈ cs, ∀ x ∈ c.about, ∀ v, x.underlyingIndex = some v → ∃ y ∈ vars, y.underlyingIndex = some v
  objective : ∀ o, V.minimise = some o → o.Valid n ∧ ∀ v, o.underlyingIndex = some v → ∃ y ∈ vars, y.underlyingIndex = some v
  monotone : ∀ i j, i ≤ j → V.abort i = true → V.abort j = true

variable {root : Doms} {cs : List (Posted σ μ)} {S : Setup σ μ} {V : SearchEnv σ μ} {vars : List VarId}

theorem Prepared.postings {s : Sys σ μ} {ps : List (Posting σ μ)} (h : Prepared n m R cs root S s ps) (he : V.engine = S.engine) : PostingsOK n m R V.engine s.doms ps := by
  rw [he]; exact ⟨h.built, h.enabled, h.sound, h.checks⟩

theorem ProblemOK.cover {s : Sys σ μ} {ps : List (Posting σ μ)} (hp : ProblemOK n m R root cs S V vars) (h : Prepared n m R cs root S s ps) : Covered V ps vars n :=
  ⟨fun p hm v hv => by obtain ⟨c, hc, x, hx, e⟩ := h.about p hm v hv; exact hp.covered c hc x hx v e, hp.objective⟩

section
variable {sts : List σ} {x : μ} {depthFuel fuel : Nat} {res : SearchResult} {has : Bool} {s' : Sys σ μ} {t : Tally}

/-- C25, C26: every assignment that satisfies all constraints is in exactly one reported solution, and no other assignment is in any. A reported solution fixes every variable branched on, and no two agree on all of these. -/
theorem problem_enumerates (hp : ProblemOK n m R root cs S V vars) (he : V.engine = S.engine) (hm : sts.length = m) (hlearn : V.learn = none) (hd : root.card < depthFuel) (hf : 0 < fuel)
    (ho : V.minimise = none) (hr : solve V S depthFuel fuel none (Sys.start root sts x S.watches) = .ok ((res, has, s', t), true)) :
    (∀ a, (∀ c ∈ cs, c.holds a) ∧ Within root a ↔ ∃ (i : Nat) (d : Doms), t.found[i]? = some d ∧ Within d a ∧ ∀ (j : Nat) (e : Doms), t.found[j]? = some e → Within e a → j = i) ∧
    (∀ d ∈ t.found, ∀ x ∈ vars, ∃ v, ∀ a, Within d a → x.eval a = v) ∧ t.found.Pairwise (Distinguished vars) := by
  unfold solve at hr
  obtain ⟨⟨b, s⟩, e1, hr⟩ := bind_ok hr
  have key := prepare_spec hp.domsOK hp.domsLen hm hp.constraints hp.created e1
  cases b with
  | false =>
    cases hr
    refine ⟨fun a => ⟨fun h => absurd h.1 (key a h.2), ?_⟩, by simp, .nil⟩
    rintro ⟨i, d, h, _⟩
    simp at h
  | true =>
    obtain ⟨ps, hpr, hmem⟩ := key
    obtain ⟨h1, h2⟩ := solve_enumerates (hpr.postings he) hp.branches (hp.cover hpr) hp.monotone hlearn (he ▸ hpr.ready) hpr.guesses (fun _ h => h) (Nat.lt_of_le_of_lt hpr.smaller hd) hf ho hr
    exact ⟨fun a => (hpr.same a).trans (h1 a), h2⟩

/-- C28: with an objective, the last solution reported satisfies every constraint and no assignment that does is better; or no assignment does and nothing is reported. -/
theorem problem_optimises (hp : ProblemOK n m R root cs S V vars) (he : V.engine = S.engine) (hm : sts.length = m) (hlearn : V.learn = none) (hd : root.card < depthFuel) (hf : 0 < fuel)
    {o : VarId} (ho : V.minimise = some o) (hr : solve V S depthFuel fuel none (Sys.start root sts x S.watches) = .ok ((res, has, s', t), true)) :
    (t.found = [] ∧ ∀ a, Within root a → ¬ ∀ c ∈ cs, c.holds a) ∨
    ∃ d v, t.found.getLast? = some d ∧ (∃ a, Within d a) ∧ (∀ a, Within d a → (∀ c ∈ cs, c.holds a) ∧ Within root a ∧ o.eval a = v) ∧
      ∀ b, (∀ c ∈ cs, c.holds b) → Within root b → v ≤ o.eval b := by
  unfold solve at hr
  obtain ⟨⟨b, s⟩, e1, hr⟩ := bind_ok hr
  have key := prepare_spec hp.domsOK hp.domsLen hm hp.constraints hp.created e1
  cases b with
  | false => cases hr; exact .inl ⟨rfl, key⟩
  | true =>
    obtain ⟨ps, hpr, hmem⟩ := key
    rcases solve_optimises (hpr.postings he) hp.branches (hp.cover hpr) hp.monotone hlearn (he ▸ hpr.ready) hpr.guesses (fun _ h => h) (Nat.lt_of_le_of_lt hpr.smaller hd) hf ho hr with
      ⟨h1, h2⟩ | ⟨d, v, h1, h2, h3, h4⟩
    · exact .inl ⟨h1, fun a ha hh => by have := (hpr.same a).1 ⟨hh, ha⟩; exact h2 a this.2 this.1⟩
    · refine .inr ⟨d, v, h1, h2, fun a ha => ?_, fun b hb hw => ?_⟩
      · obtain ⟨k1, k2, k3⟩ := h3 a ha
        have := (hpr.same a).2 ⟨k1, k2⟩
        exact ⟨this.1, this.2, k3⟩
      · have := (hpr.same b).1 ⟨hb, hw⟩
        exact h4 b this.1 this.2

/-- C48: if some initialiser already fails, no assignment satisfies the constraints; otherwise the domains the search starts from have lost no assignment that does. -/
theorem initialise_keeps_solutions (hd : DomsOK root) (hl : root.length = n) (hm : sts.length = m) (hcs : ∀ c ∈ cs, c.OK n m R root) (hc : Setup.create root 0 (cs.map (·.install)) Setup.empty = .ok S)
    {b : Bool} {s : Sys σ μ} (hi : Sys.initialise S.order (Sys.start root sts x S.watches) = .ok (b, s)) (a : Asg) (ha : ∀ c ∈ cs, c.holds a) (hw : Within root a) : b = true ∧ Within s.doms a := by
  have key := prepare_spec hd hl hm hcs hc hi
  cases b with
  | false => exact absurd ha (key a hw)
  | true =>
    obtain ⟨ps, hpr, _⟩ := key
    exact ⟨rfl, ((hpr.same a).1 ⟨ha, hw⟩).2⟩

/-- Restarts with learned nogoods, whose propagator is installed last. -/
theorem Prepared.restarts {s : Sys σ μ} {ps : List (Posting σ μ)} (h : Prepared n m R cs root S s ps) (hp : ProblemOK n m R root cs S V vars) {cell : Cell μ NogoodMem} {k : Nat}
    {f : Prog σ μ PState} {tr : Triggers} (hf : f.Safe n m R) (ht : tr.refined = []) (he : V.engine = S.engine.install k f tr) (hlearn : V.learn = some fun g x => cell.set ((cell.get x).add g) x) :
    RestartsOK n m R V s.doms ps vars cell f tr where
  built := by rw [he]; exact .install k f tr h.built hf (by simp [ht])
  enabled := by
    intro p hp
    rw [he, (install_fields S.engine k f tr).2.1]
    have h1 := h.built.wf.permLen
    have h2 : S.engine.progs.length = ps.length := by rw [h.built.progs]; simp
    by_cases hlt : p < ps.length
    · rw [List.getElem?_append_left (by omega)]; exact h.enabled p hlt
    · rw [List.getElem?_append_right (by omega), show p - S.engine.permDisabled.length = 0 by omega]; rfl
  sound := h.sound
  checks := h.checks
  spares := fun p hm => h.spares p hm cell
  branches := hp.branches
  covered := hp.cover h
  monotone := hp.monotone
  learn := hlearn

theorem Prepared.ready' {s : Sys σ μ} {ps : List (Posting σ μ)} (h : Prepared n m R cs root S s ps) {k : Nat} {f : Prog σ μ PState} {tr : Triggers} : RootOK n m (S.engine.install k f tr) s := by
  have hr := h.ready
  refine ⟨⟨hr.call.domsOK, hr.call.domsLen, hr.call.varsNe, hr.call.cstatesLen, hr.call.epochs, hr.call.watches.mono ?_, hr.call.boxes, fun h => absurd rfl h⟩, hr.ids, hr.aligned⟩
  rw [(install_fields S.engine k f tr).1]; simp

/-- Bounds that are generous enough for the initial domains are so after the initialisers. -/
theorem Prepared.enough {s : Sys σ μ} {ps : List (Posting σ μ)} {sched : Option Restarts} (h : Prepared n m R cs root S s ps) (hp : ProblemOK n m R root cs S V vars)
    (he : Enough V (Sys.start root sts x S.watches) depthFuel fuel sched) : Enough V s depthFuel fuel sched where
  depth := Nat.lt_of_le_of_lt h.smaller he.depth
  passes := he.passes
  sched := by
    intro r hr
    obtain ⟨h1, h2, N, h3, h4, h5⟩ := he.sched r hr
    exact ⟨h1, h2, N, h3, h4, Nat.lt_of_le_of_lt (size_le h.ready.call.domsOK (h.ready.call.domsLen.trans hp.domsLen.symm) h.inside) h5⟩

variable {cell : Cell μ NogoodMem} {tr : Triggers} {k : Nat} {sched : Option Restarts} {done : Bool}

/-- C27, scanning, for a whole problem: with restarts, no two reports agree on all variables branched on and every report is a solution, also if the search is stopped; if it completes, every solution is reported. -/
theorem problem_restarts (hp : ProblemOK n m R root cs S V vars) (hf : (scan (σ := σ) cell).Safe n m R) (ht : tr.refined = []) (hv : ∀ x ∈ vars, x ∈ tr.onChange)
    (he : V.engine = S.engine.install k (scan cell) tr) (hm : sts.length = m) (hlearn : V.learn = some fun g x => cell.set ((cell.get x).add g) x) (hst : (cell.get x).store = []) (hset : (cell.get x).setUp = 0)
    (hwat : S.watches.byVar = []) (hen : Enough V (Sys.start root sts x S.watches) depthFuel fuel sched)
    (ho : V.minimise = none) (hr : solve V S depthFuel fuel sched (Sys.start root sts x S.watches) = .ok ((res, has, s', t), done)) :
    t.found.Pairwise (Distinguished vars) ∧ (∀ d ∈ t.found, (∃ a, Within d a) ∧ ∀ a, Within d a → (∀ c ∈ cs, c.holds a) ∧ Within root a) ∧
    (done = true → ∀ a, (∀ c ∈ cs, c.holds a) → Within root a → ∃ d ∈ t.found, Within d a) := by
  unfold solve at hr
  obtain ⟨⟨b, s⟩, e1, hr⟩ := bind_ok hr
  have key := prepare_spec hp.domsOK hp.domsLen hm hp.constraints hp.created e1
  cases b with
  | false => cases hr; exact ⟨.nil, by simp, fun _ a ha hw => absurd ha (key a hw)⟩
  | true =>
    obtain ⟨ps, hpr, hmem⟩ := key
    have hs : FreshStart n m V.engine s.doms cell s := ⟨he ▸ hpr.ready', fun _ h => h, hpr.guesses, by rw [hmem]; exact hst, by rw [hmem]; exact hset, fun v y hy => by
      rw [hpr.watches] at hy; unfold armed at hy; rw [hwat] at hy; simp at hy⟩
    obtain ⟨h1, h2, h3⟩ := restarts_enumerate (hpr.restarts hp hf ht he hlearn) hv hs (hpr.enough hp hen) ho hr
    refine ⟨h1, fun d hd => ⟨(h2 d hd).1, fun a ha => (hpr.same a).2 ((h2 d hd).2 a ha)⟩, fun hdn a ha hw => ?_⟩
    have := (hpr.same a).1 ⟨ha, hw⟩
    exact h3 hdn a this.1 this.2

end
end
end Gcs
