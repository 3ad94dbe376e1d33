import Verif.Spec.Checks
import Verif.Lemmas.SearchTop
import Verif.Lemmas.Prefix

/-!
# The search (C25 to C31)

About `search` (`Model/Search.lean`), the search part of `solve_with`, for any engine, heuristic, callbacks, abort flag, objective and restart schedule that meet `SearchContract` (`Spec/Search.lean`). The
contract is what the rest of the system owes the search; `Lemmas/Checks.lean` shows that every engine made of sound propagators that check their constraints meets it, and `Props/Solve.lean`
puts the two together. `t.found` are the domains shown to the solution callback, in order; an assignment is reported if it is within one of them.
-/

namespace Gcs
open IntervalSet Queue

section
variable {σ μ : Type} {n m : Nat} {R : Err → Prop} {V : SearchEnv σ μ} {Sol : Asg → Prop} {Leaf : Doms → Prop} {store : μ → List (List Cond)} {Le : μ → μ → Prop}
  {J : Sys σ μ → Prop} {I : Nat → Sys σ μ → Prop} {s s' : Sys σ μ} {depthFuel fuel : Nat} {sched : Option Restarts} {res : SearchResult} {has done : Bool} {t : Tally}

/-- The search ends: it does not exceed the bounds on depth and number of passes. It returns, or throws overflow or what propagators and heuristics throw, and the pass it returns from was not cut off. -/
theorem search_ends (hC : SearchContract n m R V Sol Leaf store Le J I) (h : StartOK n m V store J s) (hf : Enough V s depthFuel fuel sched) :
    Thrown R (search V depthFuel fuel sched s) ∨ ∃ res has s' t done, search V depthFuel fuel sched s = .ok ((res, has, s', t), done) ∧ res ≠ .cutoff := by
  rcases search_spec hC h hf with h | ⟨res, has, s', t, h1, h2⟩
  · exact .inl h
  · exact .inr ⟨res, has, s', t, _, h1, h2.ends⟩

/-- There are such bounds. For restarts with scale greater than 0 provided there are fewer than `2^63` assignments: beyond that, cutoffs in the code wrap. -/
theorem enough_exists (V : SearchEnv σ μ) (s : Sys σ μ) (sched : Option Restarts)
    (h : ∀ r, sched = some r → V.learn.isSome = true ∧ r.index = 1 ∧ 0 < r.scale ∧ r.scale < 2 ^ 64 ∧ s.doms.size < 2 ^ 63) : ∃ depthFuel fuel, Enough V s depthFuel fuel sched := by
  cases sched with
  | none => exact ⟨s.doms.card + 1, 1, ⟨by omega, by omega, by simp⟩⟩
  | some r =>
    obtain ⟨h1, h2, h3, h4, h5⟩ := h r rfl
    obtain ⟨j, h6, _, h7⟩ := cutoff_unbounded r.scale s.doms.size h3 h4 h5
    have : 1 ≤ 2 ^ j := Nat.one_le_two_pow
    have hj : 2 ^ (j + 1) = 2 * 2 ^ j := by rw [Nat.pow_succ, Nat.mul_comm]
    refine ⟨s.doms.card + 1, 2 ^ (j + 1), ⟨by omega, by omega, ?_⟩⟩
    intro r' hr
    cases hr
    exact ⟨h1, h2, 2 ^ (j + 1) - 1, by omega, by omega, by rw [h7]; exact h6⟩

/-- C25. Whatever is shown to the solution callback is a leaf, and all of it consists of solutions within the initial domains; nothing empty is shown. Also for searches that are stopped. -/
theorem reported_are_solutions (hC : SearchContract n m R V Sol Leaf store Le J I) (h : StartOK n m V store J s) (hf : Enough V s depthFuel fuel sched)
    (hr : search V depthFuel fuel sched s = .ok ((res, has, s', t), done)) :
    ∀ d ∈ t.found, Leaf d ∧ d.length = n ∧ (∃ a, Within d a) ∧ ∀ a, Within d a → Sol a ∧ Within s.doms a := by
  intro d hd
  obtain ⟨h1, h2, h3, h4⟩ := (search_ok hC h hf hr).2.good d hd
  exact ⟨h3, h2, exists_within h1, h4⟩

/-- C26, C27. Without an objective, if the search runs to completion then every solution is in exactly one of the solutions reported, with or without restarts. -/
theorem enumeration_exactly_once (hC : SearchContract n m R V Sol Leaf store Le J I) (h : StartOK n m V store J s) (hf : Enough V s depthFuel fuel sched)
    (hr : search V depthFuel fuel sched s = .ok ((res, has, s', t), done)) (ho : V.minimise = none) (hd : done = true) :
    ∀ a, Sol a ∧ Within s.doms a ↔ ∃ (i : Nat) (d : Doms), t.found[i]? = some d ∧ Within d a ∧ ∀ (j : Nat) (e : Doms), t.found[j]? = some e → Within e a → j = i := by
  obtain ⟨h1, h2⟩ := search_ok hC h hf hr
  have hres : res = .complete := by rw [hd] at h1; exact of_decide_eq_true h1.symm
  have hap := List.pairwise_iff_getElem.1 ((h2.apart ho).imp Parted.disjoint)
  intro a
  constructor
  · rintro ⟨ha, hw⟩
    rcases h2.complete hres a ha hw with ⟨d, hd, hda⟩ | ⟨x, y, hx, _⟩
    · obtain ⟨i, hi⟩ := List.mem_iff_getElem?.1 hd
      refine ⟨i, d, hi, hda, fun j e hj he => ?_⟩
      obtain ⟨hi1, hi2⟩ := List.getElem?_eq_some_iff.1 hi
      obtain ⟨hj1, hj2⟩ := List.getElem?_eq_some_iff.1 hj
      rcases Nat.lt_trichotomy i j with hlt | heq | hlt
      · exact absurd (by rw [hj2]; exact he) (hap i j hi1 hj1 hlt a (by rw [hi2]; exact hda))
      · exact heq.symm
      · exact absurd (by rw [hi2]; exact hda) (hap j i hj1 hi1 hlt a (by rw [hj2]; exact he))
    · rw [ho] at hx; cases hx
  · rintro ⟨i, d, hi, hda, _⟩
    exact (h2.good d (List.mem_of_getElem? hi)).2.2.2 a hda

/-- C26, C27. Without an objective, nothing is reported twice, also if the search is stopped. -/
theorem enumeration_no_repeats (hC : SearchContract n m R V Sol Leaf store Le J I) (h : StartOK n m V store J s) (hf : Enough V s depthFuel fuel sched)
    (hr : search V depthFuel fuel sched s = .ok ((res, has, s', t), done)) (ho : V.minimise = none) :
    t.found.Pairwise (fun d e => ∀ a, Within d a → ¬ Within e a) := ((search_ok hC h hf hr).2.apart ho).imp Parted.disjoint

/-- Two solutions told apart by conditions that are decided once `vars` are fixed differ in one of `vars`. -/
theorem Parted.distinguished {vars : List VarId} {d e : Doms} (hl : ∀ v ∈ vars.filterMap VarId.underlyingIndex, Fixed d v) (h : Parted (fun d => ∀ v ∈ vars.filterMap VarId.underlyingIndex, Fixed d v) d e) :
    Distinguished vars d e := by
  intro a b ha hb
  refine Classical.byContradiction fun hn => ?_
  have same : ∀ v ∈ vars.filterMap VarId.underlyingIndex, a v = b v := by
    intro v hv
    obtain ⟨x, hx, e⟩ := List.mem_filterMap.1 hv
    have he : x.eval a = x.eval b := Classical.byContradiction fun h => hn ⟨x, hx, h⟩
    cases x with
    | const c => cases e
    | simple i => cases e; exact he
    | view i ng k => cases e; simp only [VarId.eval] at he; split at he <;> omega
  obtain ⟨g, h1, h2, h3⟩ := h
  let D : Doms := (List.range d.length).map fun v => [(min (a v) (b v), max (a v) (b v))]
  have hD : ∀ v s, D[v]? = some s → s = [(min (a v) (b v), max (a v) (b v))] := by
    intro v s hs
    obtain ⟨hlt, e⟩ := List.getElem?_eq_some_iff.1 hs
    rw [← e]; simp [D]
  have hleaf : ∀ v ∈ vars.filterMap VarId.underlyingIndex, Fixed D v := by
    intro v hv
    obtain ⟨s, hs, _⟩ := hl v hv
    have hlt := (List.getElem?_eq_some_iff.1 hs).1
    refine ⟨[(min (a v) (b v), max (a v) (b v))], by simp [D, hlt], a v, fun x => ?_⟩
    rw [← same v hv]
    simp only [Mem, List.mem_singleton, exists_eq_left]
    omega
  have wa : Within D a := fun v s hs => by rw [hD v s hs]; exact ⟨_, List.mem_singleton.2 rfl, by dsimp only; omega, by dsimp only; omega⟩
  have wb : Within D b := fun v s hs => by rw [hD v s hs]; exact ⟨_, List.mem_singleton.2 rfl, by dsimp only; omega, by dsimp only; omega⟩
  exact h3 b hb fun c hc => h1 c hc D a b hleaf wa wb (h2 a ha c hc)

/-- C26, C27. Without an objective, no two of the solutions reported have the same values for all variables branched on, also if the search is stopped. -/
theorem enumeration_distinct {vars : List VarId} (hC : SearchContract n m R V Sol (fun d => ∀ v ∈ vars.filterMap VarId.underlyingIndex, Fixed d v) store Le J I) (h : StartOK n m V store J s) (hf : Enough V s depthFuel fuel sched)
    (hr : search V depthFuel fuel sched s = .ok ((res, has, s', t), done)) (ho : V.minimise = none) : t.found.Pairwise (Distinguished vars) := by
  have h2 := (search_ok hC h hf hr).2
  have := h2.apart ho
  rw [List.pairwise_iff_getElem] at this ⊢
  exact fun i j hi hj hij => (this i j hi hj hij).distinguished (h2.good _ (List.getElem_mem hi)).2.2.1

/-- C28. With an objective, solutions get strictly better, also if the search is stopped. -/
theorem optimisation_improves (hC : SearchContract n m R V Sol Leaf store Le J I) (h : StartOK n m V store J s) (hf : Enough V s depthFuel fuel sched)
    (hr : search V depthFuel fuel sched s = .ok ((res, has, s', t), done)) {o : VarId} (ho : V.minimise = some o) :
    t.found.Pairwise (fun d e => ∀ a b, Within d a → Within e b → o.eval b < o.eval a) := by
  have := (search_ok hC h hf hr).2.improves
  rw [ho] at this
  exact this.ordered.1

/-- C28. With an objective, if the search runs to completion, either there is no solution and none was reported, or the last solution reported is optimal and its value is the one recorded. -/
theorem optimisation_optimal (hC : SearchContract n m R V Sol Leaf store Le J I) (h : StartOK n m V store J s) (hf : Enough V s depthFuel fuel sched)
    (hr : search V depthFuel fuel sched s = .ok ((res, has, s', t), done)) {o : VarId} (ho : V.minimise = some o) (hd : done = true) :
    (t.found = [] ∧ t.objective = none ∧ ∀ a, Within s.doms a → ¬ Sol a) ∨
    ∃ d v, t.found.getLast? = some d ∧ t.objective = some v ∧ (∀ a, Within d a → Sol a ∧ Within s.doms a ∧ o.eval a = v) ∧ ∀ b, Sol b → Within s.doms b → v ≤ o.eval b := by
  obtain ⟨h1, h2⟩ := search_ok hC h hf hr
  have hres : res = .complete := by rw [hd] at h1; exact of_decide_eq_true h1.symm
  have him := h2.improves
  have hco := h2.complete hres
  rw [ho] at him hco
  rcases him.last with ⟨h3, h4⟩ | ⟨f, d, v, h3, h4, h5⟩
  · refine .inl ⟨h3, h4, fun a hw ha => ?_⟩
    rcases hco a ha hw with ⟨d, hd, _⟩ | ⟨x, y, _, hy, _⟩
    · rw [h3] at hd; cases hd
    · rw [h4] at hy; cases hy
  · refine .inr ⟨d, v, by rw [h3]; simp, h4, fun a ha => ?_, fun b hb hw => ?_⟩
    · obtain ⟨h6, h7⟩ := (h2.good d (by rw [h3]; simp)).2.2.2 a ha
      exact ⟨h6, h7, h5 a ha⟩
    · rcases hco b hb hw with ⟨e, he, heb⟩ | ⟨x, y, hx, hy, hxy⟩
      · obtain ⟨x, hx, hxe⟩ := him.ordered.2 e he b heb
        rw [h4] at hx; cases hx; exact hxe
      · cases hx
        rw [h4] at hy; cases hy; exact hxy

/-- C28. The search says that it found a solution exactly if it showed one to the callback. -/
theorem found_iff (hC : SearchContract n m R V Sol Leaf store Le J I) (h : StartOK n m V store J s) (hf : Enough V s depthFuel fuel sched)
    (hr : search V depthFuel fuel sched s = .ok ((res, has, s', t), done)) : has = true ↔ t.found ≠ [] := (search_ok hC h hf hr).2.has

/-- C29. The search is reported as completed exactly if it was told to go on each time it asked. If not, the last thing that happened was that it was told to stop, and it really was: a callback returned
false or the abort flag was set. -/
theorem completed_iff (hC : SearchContract n m R V Sol Leaf store Le J I) (h : StartOK n m V store J s) (hf : Enough V s depthFuel fuel sched)
    (hr : search V depthFuel fuel sched s = .ok ((res, has, s', t), done)) :
    (done = true ↔ ∀ b ∈ t.answers, b = true) ∧
    (done = false → (∃ bs, t.answers = bs ++ [false] ∧ ∀ b ∈ bs, b = true) ∧ ∃ i d, V.abort i = true ∨ V.solution i d = false ∨ V.trace i d = false) := by
  obtain ⟨h1, h2⟩ := search_ok hC h hf hr
  have hans := h2.answered
  have hends := h2.ends
  cases res with
  | cutoff => exact absurd rfl hends
  | complete => subst h1; exact ⟨⟨fun _ => hans.1 nofun, fun _ => rfl⟩, fun h => by simp at h⟩
  | stop =>
    subst h1
    obtain ⟨h3, bs, h4, h5⟩ := hans.2 rfl
    refine ⟨⟨fun h => by simp at h, fun hall => ?_⟩, fun _ => ⟨⟨bs, h4, h5⟩, h3⟩⟩
    have := hall false (by rw [h4]; simp)
    cases this

/-- C29. If nobody ever says stop, the search is completed. -/
theorem uninterrupted_completes (hC : SearchContract n m R V Sol Leaf store Le J I) (h : StartOK n m V store J s) (hf : Enough V s depthFuel fuel sched)
    (hr : search V depthFuel fuel sched s = .ok ((res, has, s', t), done)) (ha : ∀ i, V.abort i = false) (hs : ∀ i d, V.solution i d = true) (ht : ∀ i d, V.trace i d = true) : done = true := by
  cases done with
  | true => rfl
  | false =>
    obtain ⟨_, i, d, h1 | h1 | h1⟩ := (completed_iff hC h hf hr).2 rfl
    · rw [ha] at h1; cases h1
    · rw [hs] at h1; cases h1
    · rw [ht] at h1; cases h1

/-- C29. Compare with the same search, same heuristic included, in which the callbacks always return true and the abort flag is never set. A completed search did exactly what that one does. Otherwise what was
reported is a prefix of what that one reports, if it does not throw. The abort flag must not be unset again once it is set. -/
theorem stopped_is_prefix (hmono : ∀ i j, i ≤ j → V.abort i = true → V.abort j = true) (hr : search V depthFuel fuel sched s = .ok ((res, has, s', t), done)) :
    (done = true → search V.free depthFuel fuel sched s = .ok ((res, has, s', t), done)) ∧
    ∀ res2 has2 s2 t2 done2, search V.free depthFuel fuel sched s = .ok ((res2, has2, s2, t2), done2) → t.found <+: t2.found := by
  unfold search at hr
  obtain ⟨x, e, h⟩ := bind_ok hr
  cases h
  rcases passes_prefix hmono _ _ _ _ _ _ e with h1 | ⟨h1, h2⟩
  · have h3 : search V.free depthFuel fuel sched s = .ok ((res, has, s', t), decide (res = .complete)) := by unfold search; rw [h1]; rfl
    refine ⟨fun _ => h3, fun res2 has2 s2 t2 done2 h4 => ?_⟩
    rw [h3] at h4; cases h4; exact List.prefix_refl _
  · replace h1 : res = .stop := h1
    subst h1
    refine ⟨fun hd => by simp at hd, fun res2 has2 s2 t2 done2 h4 => ?_⟩
    unfold search at h4
    obtain ⟨x, e4, h5⟩ := bind_ok h4
    cases h5
    exact h2 _ e4

/-- C30. Below a node `p` the search opens a new epoch, guesses, explores the child `s`, whatever comes of that, and backtracks. Afterwards domains, guesses, constraint states, pending callbacks and the objective
are those of `p`, the same propagators are disabled, and the same watches are armed. -/
theorem search_restores (hC : SearchContract n m R V Sol Leaf store Le J I) {k depth : Nat} {cut : Option Nat} {p : Sys σ μ} {g : Cond} {pfx : List Cond} {t0 : Tally} (hp : NodeOK n m V.engine p)
    (hI : I k p) (hg : (Lit.cond g).Valid n) (hc : Child p (.cond g) s) (hpf : PfxOK n Leaf pfx s.doms) (ho : ObjOK V.minimise t0.objective) (hdep : depth = s.st.guesses.length)
    (hfu : s.doms.card < fuel) (hr : node V cut fuel depth (some g) pfx s t0 = .ok (res, has, s', t)) :
    ∃ s2, s'.backtrack (stamp p) = .ok s2 ∧ s2.st = p.st ∧ p.w.Same s2.w ∧ (∀ q, IsDisabled s2.q q ↔ IsDisabled p.q q) ∧ (∀ q, box s2.w q = []) := by
  rcases node_spec hC fuel depth (some g) pfx s t0 (.child p s t0 g hp hI hg hc) hpf ho hdep hfu with ⟨e, he, _⟩ | ⟨_, _, _, _, f, P, vs, as, L, he, hs⟩
  · rw [he] at hr; cases hr
  · rw [he] at hr; cases hr
    obtain ⟨s1, h1, h2⟩ := hs.child (by simp)
    obtain ⟨s2, h3, h4, _⟩ := back_restores hp hc h1 h2
    exact ⟨s2, h3, h4.st, h4.w, h4.disabled, h4.boxes⟩

/-- C31. `solutions` is the number of calls of the solution callback; `recursions` the number of nodes entered, each given by the guesses that lead to it; `maxDepth` the greatest number of guesses; and there was one
pass more than `restarts`, each of which started at the root. -/
theorem statistics (hC : SearchContract n m R V Sol Leaf store Le J I) (h : StartOK n m V store J s) (hf : Enough V s depthFuel fuel sched)
    (hr : search V depthFuel fuel sched s = .ok ((res, has, s', t), done)) :
    t.solutions = t.found.length ∧ t.recursions = t.visited.length ∧
    (∀ q ∈ t.visited, q.length ≤ t.maxDepth) ∧ (∃ q ∈ t.visited, q.length = t.maxDepth) ∧
    ∃ segs : List (List (List Lit) × List (List Lit)), segs.length = t.restarts + 1 ∧ t.visited = segs.flatMap (·.1) ∧ t.solved = segs.flatMap (·.2) ∧ (∀ x ∈ segs, x.1.head? = some []) ∧
      t.failures = (segs.map fun x => x.1.tail.countP (fun q => !x.2.any (fun p => decide (q <+: p)))).sum := by
  obtain ⟨segs, h1, h2⟩ := (search_ok hC h hf hr).2.counts
  obtain ⟨h3, h4, h5⟩ := le_deepest t.visited 0
  refine ⟨h1.solutions, h1.recursions, ?_, ?_, segs, h2, h1.visited, h1.solved, h1.roots, h1.failures⟩
  · rw [h1.maxDepth]; exact h4
  · rw [h1.maxDepth]
    rcases h5 with h5 | h5
    · have hne : segs ≠ [] := by intro h; rw [h] at h2; simp at h2
      obtain ⟨x, xs, rfl⟩ := List.exists_cons_of_ne_nil hne
      have := h1.roots x (by simp)
      refine ⟨[], ?_, by rw [h5]; rfl⟩
      rw [h1.visited]
      exact List.mem_flatMap.2 ⟨x, by simp, List.mem_of_head? this⟩
    · exact h5

end
end Gcs
