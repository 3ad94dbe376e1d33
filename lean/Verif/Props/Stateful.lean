import Verif.Lemmas.Guard
import Verif.Props.Problem

/-!
# Problems with constraints that keep state (C25, C26, C27, C28)

The same as `Props/Problem.lean`, for constraints that keep constraint states, or whose propagation functions rely on what their initialisers have established. Each constraint has an invariant of
domains and constraint states, about states it alone writes. That what the search does is right depends on these invariants being there whenever a function runs, whatever was propagated, guessed and
undone before.
-/

namespace Gcs
open IntervalSet Queue Nogoods

section
variable {σ μ : Type} {n m : Nat} {R : Err → Prop}

/-- A problem with domains `root`, constraints `cs` and constraint states `sts`, of which `S` was made, searched by `V` branching on `vars`. Constraint number `i` writes the constraint states in `own i`, which no
other constraint does. -/
structure ProblemServed (n m : Nat) (R : Err → Prop) (root : Doms) (cs : List (Posted σ μ)) (sts : List σ) (own : Nat → Nat → Prop) (S : Setup σ μ) (V : SearchEnv σ μ) (vars : List VarId) : Prop where
  domsOK : DomsOK root
  domsLen : root.length = n
  statesLen : sts.length = m
  overflow : R .overflow
  constraints : ∀ (i : Nat) (c : Posted σ μ), cs[i]? = some c → c.Serves n m R root sts (own i)
  apart : ∀ i j k, own i k → own j k → i = j
  created : Setup.create root 0 (cs.map (·.install)) Setup.empty = .ok S
  branches : BranchesOn n m V vars
  covered : ∀ c ∈ cs, ∀ x ∈ c.about, ∀ v, x.underlyingIndex = some v → ∃ y ∈ vars, y.underlyingIndex = some v
  objective : ∀ o, V.minimise = some o → o.Valid n ∧ ∀ v, o.underlyingIndex = some v → ∃ y ∈ vars, y.underlyingIndex = some v
  monotone : ∀ i j, i ≤ j → V.abort i = true → V.abort j = true

/-- A constraint that keeps no state. -/
theorem Posted.OK.serves {root : Doms} {c : Posted σ μ} (h : c.OK n m R root) (z0 : List σ) (own : Nat → Prop) : c.Serves n m R root z0 own := by
  intro items e
  obtain ⟨es, h1, h2, h3⟩ := h items e
  refine ⟨fun _ _ => True, es, h1, fun p hp => ?_, h3, fun _ _ _ _ _ _ _ => trivial, fun _ _ _ _ _ => trivial, fun _ _ _ _ => trivial⟩
  have := h2 p hp
  obtain ⟨it, e⟩ := p
  cases it with
  | init _ f => exact this
  | prop f t =>
    obtain ⟨ys, k1, k2⟩ := this
    refine ⟨ys, k1, k2.wakes, k2.refined, fun d z hd hl _ _ => ?_⟩
    exact verS_own (J := { n, m, R, C := fun a => Within root a ∧ c.holds a }) (fun _ h => h.elim) f d z
      (verS_mono (fun _ _ _ hq => ⟨hq.1, trivial⟩) _ _ _ (Ver.toS (J := { n, m, R, C := fun a => Within root a ∧ c.holds a }) (fun _ => id) f d z (k2.ver d hd hl)))

variable {root : Doms} {cs : List (Posted σ μ)} {sts : List σ} {own : Nat → Nat → Prop} {S : Setup σ μ} {V : SearchEnv σ μ} {vars : List VarId} {x : μ}

/-- What the initialisers leave behind, in terms of the engine with guarded functions. -/
theorem ProblemServed.prepare (hp : ProblemServed n m R root cs sts own S V vars) {b : Bool} {s : Sys σ μ} (hi : Sys.initialise S.order (Sys.start root sts x S.watches) = .ok (b, s)) :
    if b then ∃ K : Doms → List σ → Prop, ∃ ps cs', Prepared n m R cs' root (S.guard K) s ps ∧ s.mem = x ∧ Agree n m K S.engine (S.guard K).engine ∧ Shrinks n K ∧ Held K s ∧
      cs'.map (·.holds) = cs.map (·.holds) ∧ cs'.map (·.about) = cs.map (·.about)
    else ∀ a, Within root a → ¬ ∀ c ∈ cs, c.holds a := by
  obtain ⟨fam, rfl, hfam⟩ := family_of (own := own) 0 (fun i c hc => by rw [Nat.zero_add]; exact hp.constraints i c hc)
    fun c hc => create_installs hp.created c.install (List.mem_map.2 ⟨c, hc, rfl⟩)
  have hfam : ∀ (i : Nat) x, fam[i]? = some x → x.OK n m R root sts (own i) := fun i x hx => by have := hfam i x hx; rwa [Nat.zero_add] at this
  have hg : ∀ x ∈ fam.map (Family.guard (Together m fam)), x.Good n m R root := by
    intro y hy
    obtain ⟨x, hx, rfl⟩ := List.mem_map.1 hy
    obtain ⟨i, hi⟩ := List.mem_iff_getElem?.1 hx
    exact (hfam i x hi).good hp.overflow fun d z hk => ⟨hk.1, hk.2 x hx⟩
  have hcr := create_guard (Together m fam) (fam.map (·.1)) 0 hp.created
  have hm : ((fam.map (·.1)).map (Posted.guard (Together m fam))).map (·.install) = (fam.map (Family.guard (Together m fam))).map (·.1.install) := by simp [Family.guard, Function.comp_def]
  rw [hm] at hcr
  have key := prepare_parts (S := S.guard (Together m fam)) hp.domsOK hp.domsLen hp.statesLen hg hcr hi
  have hholds : ∀ a, (∀ c ∈ (fam.map (Family.guard (Together m fam))).map (·.1), c.holds a) ↔ ∀ c ∈ fam.map (·.1), c.holds a := by
    intro a; simp only [List.mem_map]
    constructor
    · rintro h c ⟨x, hx, rfl⟩; exact h (x.guard (Together m fam)).1 ⟨_, ⟨x, hx, rfl⟩, rfl⟩
    · rintro h c ⟨_, ⟨x, hx, rfl⟩, rfl⟩; exact h x.1 ⟨x, hx, rfl⟩
  cases b with
  | false => exact fun a ha hh => key a ha ((hholds a).2 hh)
  | true =>
    obtain ⟨⟨ps, hpr⟩, hmem, htop, hinit⟩ := key
    refine ⟨Together m fam, ps, _, hpr, hmem, family_agree hp.overflow hfam hp.apart hp.created, together_shrinks hfam, ⟨by rw [htop]; exact hp.statesLen, fun y hy => ?_⟩, ?_, ?_⟩
    · rw [htop]
      obtain ⟨i, hi⟩ := List.mem_iff_getElem?.1 hy
      refine (hfam i y hi).served.start s.doms hpr.ready.call.domsOK hpr.ready.call.domsLen fun a ha => ⟨hpr.inside a ha, fun p hp ⟨q, f, e⟩ => ?_⟩
      exact hinit (y.guard (Together m fam)) (List.mem_map.2 ⟨y, hy, rfl⟩) (p.1.guard (Together m fam), p.2) (List.mem_map.2 ⟨p, hp, rfl⟩) ⟨q, f, by rw [e]; rfl⟩ a ha
    · simp [Family.guard, Posted.guard, Function.comp_def]
    · simp [Family.guard, Posted.guard, Function.comp_def]

theorem forall_of_map {α β : Type} {f : α → β} {l l' : List α} (h : l'.map f = l.map f) (P : β → Prop) : (∀ c ∈ l', P (f c)) ↔ ∀ c ∈ l, P (f c) := by
  constructor
  · intro k c hc
    obtain ⟨y, hy, e⟩ := List.mem_map.1 (h ▸ List.mem_map.2 ⟨c, hc, rfl⟩ : f c ∈ l'.map f)
    exact e ▸ k y hy
  · intro k c hc
    obtain ⟨y, hy, e⟩ := List.mem_map.1 (h ▸ List.mem_map.2 ⟨c, hc, rfl⟩ : f c ∈ l.map f)
    exact e ▸ k y hy

/-- The heuristic is right for the engine with guarded functions, as that does not matter for it. -/
theorem BranchesOn.twin {E' : Engine σ μ} (hb : BranchesOn n m V vars) (hl : E'.progs.length = V.engine.progs.length) : BranchesOn n m { V with engine := E' } vars :=
  ⟨hb.valid, fun i s hs => hb.shape i s (hs.twin hl.symm)⟩

theorem ProblemServed.cover {s : Sys σ μ} {ps : List (Posting σ μ)} {cs' : List (Posted σ μ)} {S' : Setup σ μ} {E' : Engine σ μ} (hp : ProblemServed n m R root cs sts own S V vars)
    (h : Prepared n m R cs' root S' s ps) (ha : cs'.map (·.about) = cs.map (·.about)) : Covered { V with engine := E' } ps vars n :=
  ⟨fun p hm v hv => by
    obtain ⟨c, hc, y, hy, e⟩ := h.about p hm v hv
    exact (forall_of_map ha (fun ys => ∀ y ∈ ys, ∀ v, y.underlyingIndex = some v → ∃ z ∈ vars, z.underlyingIndex = some v)).2 hp.covered c hc y hy v e, hp.objective⟩

section
variable {depthFuel fuel : Nat} {res : SearchResult} {has : Bool} {s' : Sys σ μ} {t : Tally}

/-- C25, C26: every assignment that satisfies all constraints is in exactly one reported solution, and no other assignment is in any. A reported solution fixes every variable branched on, and no two agree on all of these. -/
theorem stateful_enumerates (hp : ProblemServed n m R root cs sts own S V vars) (he : V.engine = S.engine) (hlearn : V.learn = none) (hd : root.card < depthFuel) (hf : 0 < fuel)
    (ho : V.minimise = none) (hr : solve V S depthFuel fuel none (Sys.start root sts x S.watches) = .ok ((res, has, s', t), true)) :
    (∀ a, (∀ c ∈ cs, c.holds a) ∧ Within root a ↔ ∃ (i : Nat) (d : Doms), t.found[i]? = some d ∧ Within d a ∧ ∀ (j : Nat) (e : Doms), t.found[j]? = some e → Within e a → j = i) ∧
    (∀ d ∈ t.found, ∀ x ∈ vars, ∃ v, ∀ a, Within d a → x.eval a = v) ∧ t.found.Pairwise (Distinguished vars) := by
  unfold solve at hr
  obtain ⟨⟨b, s⟩, e1, hr⟩ := bind_ok hr
  have key := hp.prepare e1
  cases b with
  | false =>
    cases hr
    refine ⟨fun a => ⟨fun h => absurd h.1 (key a h.2), ?_⟩, by simp, .nil⟩
    rintro ⟨i, d, h, _⟩
    simp at h
  | true =>
    obtain ⟨K, ps, cs', hpr, _, hag, hsh, hK, hh, hab⟩ := key
    obtain ⟨I, hC⟩ := solve_contract (V := { V with engine := (S.guard K).engine }) (rt := s.doms) (hpr.postings rfl) (hp.branches.twin (by rw [he]; exact hag.len)) (hp.cover hpr hab) hp.monotone hlearn
    have hC' := SearchPre.twin hC (he ▸ hag) hpr.built.wf hsh
    obtain ⟨h1, h2⟩ := contract_enumerates hC' ⟨he ▸ hpr.ready.twin hag.len.symm, ⟨⟨trivial, fun _ h => h⟩, hK⟩, hpr.guesses, rfl⟩ (fun _ h => h) (Nat.lt_of_le_of_lt hpr.smaller hd) hf ho hr
    exact ⟨fun a => by rw [← h1 a, ← hpr.same a, forall_of_map hh (fun P => P a)], h2⟩

/-- C28: with an objective, the last solution reported satisfies every constraint and no assignment that does is better; or no assignment does and nothing is reported. -/
theorem stateful_optimises (hp : ProblemServed n m R root cs sts own S V vars) (he : V.engine = S.engine) (hlearn : V.learn = none) (hd : root.card < depthFuel) (hf : 0 < fuel)
    {o : VarId} (ho : V.minimise = some o) (hr : solve V S depthFuel fuel none (Sys.start root sts x S.watches) = .ok ((res, has, s', t), true)) :
    (t.found = [] ∧ ∀ a, Within root a → ¬ ∀ c ∈ cs, c.holds a) ∨
    ∃ d v, t.found.getLast? = some d ∧ (∃ a, Within d a) ∧ (∀ a, Within d a → (∀ c ∈ cs, c.holds a) ∧ Within root a ∧ o.eval a = v) ∧
      ∀ b, (∀ c ∈ cs, c.holds b) → Within root b → v ≤ o.eval b := by
  unfold solve at hr
  obtain ⟨⟨b, s⟩, e1, hr⟩ := bind_ok hr
  have key := hp.prepare e1
  cases b with
  | false => cases hr; exact .inl ⟨rfl, key⟩
  | true =>
    obtain ⟨K, ps, cs', hpr, _, hag, hsh, hK, hh, hab⟩ := key
    obtain ⟨I, hC⟩ := solve_contract (V := { V with engine := (S.guard K).engine }) (rt := s.doms) (hpr.postings rfl) (hp.branches.twin (by rw [he]; exact hag.len)) (hp.cover hpr hab) hp.monotone hlearn
    have hC' := SearchPre.twin hC (he ▸ hag) hpr.built.wf hsh
    have hsame : ∀ a, (∀ c ∈ cs, c.holds a) ∧ Within root a ↔ (∀ p ∈ ps, p.holds a) ∧ Within s.doms a := fun a => by rw [← hpr.same a, forall_of_map hh (fun P => P a)]
    rcases contract_optimises hC' ⟨he ▸ hpr.ready.twin hag.len.symm, ⟨⟨trivial, fun _ h => h⟩, hK⟩, hpr.guesses, rfl⟩ (fun _ h => h) (Nat.lt_of_le_of_lt hpr.smaller hd) hf ho hr with
      ⟨h1, h2⟩ | ⟨d, v, h1, h2, h3, h4⟩
    · exact .inl ⟨h1, fun a ha hh => by have := (hsame a).1 ⟨hh, ha⟩; exact h2 a this.2 this.1⟩
    · refine .inr ⟨d, v, h1, h2, fun a ha => ?_, fun b hb hw => ?_⟩
      · obtain ⟨k1, k2, k3⟩ := h3 a ha
        have := (hsame a).2 ⟨k1, k2⟩
        exact ⟨this.1, this.2, k3⟩
      · have := (hsame b).1 ⟨hb, hw⟩
        exact h4 b this.1 this.2

variable {cell : Cell μ NogoodMem} {tr : Triggers} {k : Nat} {sched : Option Restarts} {done : Bool}

/-- C27, scanning: with restarts, no two reports agree on all variables branched on and every report is a solution, also if the search is stopped; if it completes, every solution is reported. -/
theorem stateful_restarts (hp : ProblemServed n m R root cs sts own S V vars) (hf : (scan (σ := σ) cell).Safe n m R) (ht : tr.refined = []) (hv : ∀ x ∈ vars, x ∈ tr.onChange)
    (he : V.engine = S.engine.install k (scan cell) tr) (hlearn : V.learn = some fun g x => cell.set ((cell.get x).add g) x) (hst : (cell.get x).store = [])
    (hen : Enough V (Sys.start root sts x S.watches) depthFuel fuel sched)
    (ho : V.minimise = none) (hr : solve V S depthFuel fuel sched (Sys.start root sts x S.watches) = .ok ((res, has, s', t), done)) :
    t.found.Pairwise (Distinguished vars) ∧ (∀ d ∈ t.found, (∃ a, Within d a) ∧ ∀ a, Within d a → (∀ c ∈ cs, c.holds a) ∧ Within root a) ∧
    (done = true → ∀ a, (∀ c ∈ cs, c.holds a) → Within root a → ∃ d ∈ t.found, Within d a) := by
  unfold solve at hr
  obtain ⟨⟨b, s⟩, e1, hr⟩ := bind_ok hr
  have key := hp.prepare e1
  cases b with
  | false => cases hr; exact ⟨.nil, by simp, fun _ a ha hw => absurd ha (key a hw)⟩
  | true =>
    obtain ⟨K, ps, cs', hpr, hmem, hag, hsh, hK, hh, hab⟩ := key
    have hag' : Agree n m K V.engine ((S.guard K).engine.install k (scan cell) tr) := by rw [he]; exact hag.install hsh (scan_stateless cell) hf k tr
    have hR : RestartsOK n m R { V with engine := (S.guard K).engine.install k (scan cell) tr } s.doms ps vars cell (scan cell) tr := by
      refine ⟨.install k (scan cell) tr hpr.built hf (by simp [ht]), ?_, hpr.sound, hpr.checks, fun p hm => hpr.spares p hm cell, hp.branches.twin hag'.len, hp.cover hpr hab, hp.monotone, hlearn⟩
      intro p hp'
      show ((S.guard K).engine.install k (scan cell) tr).permDisabled[p]? = _
      rw [(install_fields (S.guard K).engine k (scan cell) tr).2.1]
      have h1 := hpr.built.wf.permLen
      have h2 : (S.guard K).engine.progs.length = ps.length := by rw [hpr.built.progs]; simp
      by_cases hlt : p < ps.length
      · rw [List.getElem?_append_left (by omega)]; exact hpr.enabled p hlt
      · rw [List.getElem?_append_right (by omega), show p - (S.guard K).engine.permDisabled.length = 0 by omega]; rfl
    obtain ⟨I, hC⟩ := restarts_contract_scan hR hv
    have hC' := SearchPre.twin hC hag' (hR.built.wf) hsh
    have hroot : RootOK n m V.engine s := (hpr.ready' (k := k) (f := scan cell) (tr := tr)).twin hag'.len.symm
    have hen' : Enough V s depthFuel fuel sched := by
      refine ⟨Nat.lt_of_le_of_lt hpr.smaller hen.depth, hen.passes, fun r hr => ?_⟩
      obtain ⟨h1, h2, N, h3, h4, h5⟩ := hen.sched r hr
      exact ⟨h1, h2, N, h3, h4, Nat.lt_of_le_of_lt (size_le hpr.ready.call.domsOK (hpr.ready.call.domsLen.trans hp.domsLen.symm) hpr.inside) h5⟩
    obtain ⟨h1, h2, h3⟩ := contract_restarts hC' ⟨hroot, ⟨⟨by rw [hmem, hst]; exact fun g hg => by simp at hg, fun _ h => h⟩, hK⟩, hpr.guesses, by rw [hmem]; exact hst⟩ (fun _ h => h) hen' ho hr
    have hsame : ∀ a, (∀ c ∈ cs, c.holds a) ∧ Within root a ↔ (∀ p ∈ ps, p.holds a) ∧ Within s.doms a := fun a => by rw [← hpr.same a, forall_of_map hh (fun P => P a)]
    refine ⟨h1, fun d hd => ⟨(h2 d hd).1, fun a ha => (hsame a).2 ((h2 d hd).2 a ha)⟩, fun hdn a ha hw => ?_⟩
    have := (hsame a).1 ⟨ha, hw⟩
    exact h3 hdn a this.1 this.2

end
end
end Gcs
