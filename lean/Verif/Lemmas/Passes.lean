import Verif.Lemmas.Search
import Verif.Props.Luby

/-! The restart loop. -/

namespace Gcs
open IntervalSet Queue

theorem Improves.ordered {o : VarId} {v v' : Option Int} {f : List Doms} (h : Improves (some o) v f v') :
    f.Pairwise (fun d e => ∀ a b, Within d a → Within e b → o.eval b < o.eval a) ∧ (∀ d ∈ f, ∀ a, Within d a → ∃ x, v' = some x ∧ x ≤ o.eval a) := by
  generalize ho : some o = oo at h
  induction h with
  | free => cases ho
  | start => exact ⟨.nil, by simp⟩
  | @better o' v v' f d w _ h2 h3 _ ih =>
    cases ho
    obtain ⟨i1, i2⟩ := ih rfl
    refine ⟨List.pairwise_append.2 ⟨i1, by simp, ?_⟩, ?_⟩
    · intro e he d' hd' a b ha hb
      simp at hd'; subst hd'
      obtain ⟨x, hx, hx'⟩ := i2 e he a ha
      have := h2 x hx
      rw [h3 b hb]; omega
    · intro e he a ha
      rcases List.mem_append.1 he with he | he
      · obtain ⟨x, hx, hx'⟩ := i2 e he a ha
        have := h2 x hx
        exact ⟨w, rfl, by omega⟩
      · simp at he; subst he
        exact ⟨w, rfl, by rw [h3 a ha]; exact Int.le_refl _⟩

theorem Improves.of_nil {o : Option VarId} {v v' : Option Int} (h : Improves o v [] v') : v' = v := by
  generalize hnil : ([] : List Doms) = l at h
  cases h with
  | free => rfl
  | start => rfl
  | better => simp at hnil

theorem Improves.last {o : VarId} {v' : Option Int} {f : List Doms} (h : Improves (some o) none f v') :
    (f = [] ∧ v' = none) ∨ ∃ f' d w, f = f' ++ [d] ∧ v' = some w ∧ ∀ a, Within d a → o.eval a = w := by
  generalize ho : some o = oo at h
  generalize hv : (none : Option Int) = v at h
  cases h with
  | free => cases ho
  | start => exact .inl ⟨rfl, by simp_all⟩
  | @better o' _ v1 f d w h1 h2 h3 _ => cases ho; exact .inr ⟨f, d, w, rfl, rfl, h3⟩

/-- What the statistics are about. `segs` has, for each pass, the nodes entered, root first, and the nodes at which solutions were found. -/
structure Counts (t : Tally) (segs : List (List (List Lit) × List (List Lit))) : Prop where
  solutions : t.solutions = t.found.length
  recursions : t.recursions = t.visited.length
  maxDepth : t.maxDepth = deepest 0 t.visited
  visited : t.visited = segs.flatMap (·.1)
  solved : t.solved = segs.flatMap (·.2)
  len : t.solved.length = t.found.length
  roots : ∀ x ∈ segs, x.1.head? = some []
  failures : t.failures = (segs.map fun x => x.1.tail.countP (noExt x.2)).sum

section
variable {σ μ : Type} {n m : Nat} {R : Err → Prop} {V : SearchEnv σ μ} {Sol : Asg → Prop} {Leaf : Doms → Prop} {store : μ → List (List Cond)} {Le : μ → μ → Prop}
  {J : Sys σ μ → Prop} {I : Nat → Sys σ μ → Prop}

/-- How things stand before a pass. -/
structure PassInv (n m : Nat) (V : SearchEnv σ μ) (Sol : Asg → Prop) (Leaf : Doms → Prop) (store : μ → List (List Cond)) (J : Sys σ μ → Prop) (I : Nat → Sys σ μ → Prop)
    (s0 s : Sys σ μ) (t : Tally) (has : Bool) : Prop where
  root : RootOK n m V.engine s
  j : J s
  guesses : s.st.guesses = []
  evolve : ∃ cs, Evolve s0.doms cs s.doms
  bound : t.objective ≠ none → NodeOK n m V.engine s ∧ I 0 s
  obj : ObjOK V.minimise t.objective
  improves : Improves V.minimise none t.found t.objective
  good : ∀ d ∈ t.found, DomsOK d ∧ d.length = n ∧ Leaf d ∧ ∀ a, Within d a → Sol a ∧ Within s0.doms a
  apart : V.minimise = none → t.found.Pairwise (Parted Leaf)
  kept : ∀ a, Sol a → Within s0.doms a → (Wanted Sol store s.mem a ∧ Within s.doms a) ∨ Reported V.minimise t.objective t.found a
  excluded : V.minimise = none → ∀ d ∈ t.found, ∀ a, Within d a → ∃ g ∈ store s.mem, (∀ c ∈ g, Decided Leaf c) ∧ Forbids g a
  counts : ∃ segs, Counts t segs ∧ segs.length = t.restarts
  answers : ∀ b ∈ t.answers, b = true
  has : has = true ↔ t.found ≠ []

/-- What the search comes to. -/
structure SearchSpec (n : Nat) (V : SearchEnv σ μ) (Sol : Asg → Prop) (Leaf : Doms → Prop) (s0 : Sys σ μ) (res : SearchResult) (has : Bool) (t : Tally) : Prop where
  ends : res ≠ .cutoff
  improves : Improves V.minimise none t.found t.objective
  good : ∀ d ∈ t.found, DomsOK d ∧ d.length = n ∧ Leaf d ∧ ∀ a, Within d a → Sol a ∧ Within s0.doms a
  apart : V.minimise = none → t.found.Pairwise (Parted Leaf)
  complete : res = .complete → ∀ a, Sol a → Within s0.doms a → Reported V.minimise t.objective t.found a
  counts : ∃ segs, Counts t segs ∧ segs.length = t.restarts + 1
  answered : Answered V res t.answers
  has : has = true ↔ t.found ≠ []

theorem Counts.pass {t t' : Tally} {segs : List (List (List Lit) × List (List Lit))} {f : List Doms} {P vs : List (List Lit)} {as : List Bool} {has : Bool} {o : Option VarId} {g : List Lit}
    (h : Counts t segs) (k : TallySpec o { t with conflicts := 0 } t' f P vs as has) (hf : ∃ ws, vs = g :: ws ∧ t'.failures = t.failures + ws.countP (noExt P)) (hg : g = []) :
    Counts t' (segs ++ [(vs, P)]) := by
  subst hg
  obtain ⟨ws, rfl, hf⟩ := hf
  have e1 : t'.found = t.found ++ f := k.found
  have e2 : t'.solved = t.solved ++ P := k.solved
  have e3 : t'.visited = t.visited ++ ([] :: ws) := k.visited
  have e4 : t'.solutions = t.solutions + f.length := k.solutions
  have e5 : t'.recursions = t.recursions + (([] : List Lit) :: ws).length := k.recursions
  have e6 : t'.maxDepth = deepest t.maxDepth ([] :: ws) := k.maxDepth
  refine ⟨?_, ?_, ?_, ?_, ?_, ?_, ?_, ?_⟩
  · rw [e4, e1, List.length_append, h.solutions]
  · rw [e5, e3, List.length_append, h.recursions]
  · rw [e6, e3, h.maxDepth]; unfold deepest; rw [List.foldl_append]
  · rw [e3, h.visited, List.flatMap_append]; simp
  · rw [e2, h.solved, List.flatMap_append]; simp
  · rw [e2, e1, List.length_append, List.length_append, h.len, k.len]
  · intro x hx
    rcases List.mem_append.1 hx with hx | hx
    · exact h.roots x hx
    · simp at hx; subst hx; rfl
  · rw [hf, h.failures, List.map_append, List.sum_append]; simp

theorem passes_spec (hC : SearchContract n m R V Sol Leaf store Le J I) {s0 : Sys σ μ} {depthFuel : Nat} (hdf : s0.doms.card < depthFuel) (hd0 : DomsOK s0.doms) {N : Nat} :
    ∀ (fuel : Nat) (sched : Option Restarts) (has : Bool) (s : Sys σ μ) (t : Tally), PassInv n m V Sol Leaf store J I s0 s t has → 0 < fuel →
      (∀ r, sched = some r → V.learn.isSome = true ∧ 1 ≤ r.index ∧ r.index ≤ N ∧ N < r.index + fuel ∧ s0.doms.size < (⟨r.scale, N⟩ : Restarts).cutoff) →
      Thrown R (passes V depthFuel fuel sched has s t) ∨ ∃ res has' s' t', passes V depthFuel fuel sched has s t = .ok (res, has', s', t') ∧
        SearchSpec n V Sol Leaf s0 res has' t' := by
  intro fuel
  induction fuel with
  | zero => intro _ _ _ _ _ h; omega
  | succ fuel ih =>
    intro sched has s t h _ hr
    obtain ⟨cs, hev⟩ := h.evolve
    have hcard := hev.card
    have hk : (if V.minimise = none then (store s.mem).length else 0) ≤ (store s.mem).length := by split <;> omega
    generalize hkk : (if V.minimise = none then (store s.mem).length else 0) = k at hk
    have harr : Arrive V store J I n m k none s { t with conflicts := 0 } := by
      refine .root _ _ h.root h.j hk fun ho => ?_
      have ho' : t.objective ≠ none := ho
      have hm : V.minimise ≠ none := fun hc => ho' (h.obj.1 hc)
      rw [if_neg hm] at hkk; subst hkk
      exact h.bound ho'
    rw [passes]
    rcases node_spec hC (k := k) (cut := sched.map Restarts.cutoff) depthFuel 0 none [] s { t with conflicts := 0 } harr ⟨by simp, fun a _ => by intro c hc; cases hc⟩ h.obj (by rw [h.guesses]; rfl)
      (by omega) with e | ⟨res, has1, s', t', f, P, vs, as, L, e, hN⟩
    · left; exact e.bind _
    rw [e]
    obtain ⟨segs, hcnt, hlen⟩ := h.counts
    have hfound : t'.found = t.found ++ f := hN.tally.found
    have hans : t'.answers = t.answers ++ as := hN.tally.answers
    have hres : t'.restarts = t.restarts := hN.tally.restarts
    have himp : Improves V.minimise t.objective f t'.objective := hN.tally.improves
    have himp' : Improves V.minimise none t'.found t'.objective := by rw [hfound]; exact h.improves.trans himp
    have hgood : ∀ d ∈ t'.found, DomsOK d ∧ d.length = n ∧ Leaf d ∧ ∀ a, Within d a → Sol a ∧ Within s0.doms a := by
      intro d hd
      rw [hfound] at hd
      rcases List.mem_append.1 hd with hd | hd
      · exact h.good d hd
      · obtain ⟨x1, x2, x3, x4⟩ := hN.good d hd
        exact ⟨x1, x2, x3, fun a ha => ⟨(x4 a ha).1, hev.within (x4 a ha).2.1⟩⟩
    have hapart : V.minimise = none → t'.found.Pairwise (Parted Leaf) := by
      intro hm
      rw [hfound, List.pairwise_append]
      refine ⟨h.apart hm, hN.apart, fun d hd e he => ?_⟩
      obtain ⟨a0, hda⟩ := exists_within (h.good d hd).1
      obtain ⟨g, hg, hgd, hgf⟩ := h.excluded hm d hd a0 hda
      refine ⟨g, hgd, fun a ha c hc => hgd c hc d a0 a (h.good d hd).2.2.1 hda ha (hgf c hc), fun a hea hgf => ?_⟩
      have := ((hN.good e he).2.2.2 a hea).2.2 g
      rw [if_pos hm] at hkk; subst hkk
      rw [List.take_length] at this
      exact this hg hgf
    have hcnt' : Counts t' (segs ++ [(vs, P)]) := hcnt.pass hN.tally hN.failures h.guesses
    have hhas : (has || has1) = true ↔ t'.found ≠ [] := by
      rw [Bool.or_eq_true, h.has, hN.tally.has, hfound]; simp; by_cases t.found = [] <;> simp_all
    have hlater : ∀ a, Reported V.minimise t.objective t.found a → Reported V.minimise t'.objective t'.found a := fun a hr => by rw [hfound]; exact hr.later himp
    have hans' : Answered V res t'.answers := by
      rw [hans]
      refine ⟨fun hne b hb => ?_, fun hst => ?_⟩
      · rcases List.mem_append.1 hb with hb | hb
        · exact h.answers b hb
        · exact hN.answered.1 hne b hb
      · obtain ⟨y1, zs, y2, y3⟩ := hN.answered.2 hst
        refine ⟨y1, t.answers ++ zs, by rw [y2, List.append_assoc], fun b hb => ?_⟩
        rcases List.mem_append.1 hb with hb | hb
        · exact h.answers b hb
        · exact y3 b hb
    have hfin : res ≠ .cutoff → SearchSpec n V Sol Leaf s0 res (has || has1) t' := by
      intro hne
      refine ⟨hne, himp', hgood, hapart, fun hc a hs ha => ?_, ⟨_, hcnt', by rw [List.length_append, hlen, hres]; rfl⟩, hans', hhas⟩
      rcases h.kept a hs ha with ⟨h1, h2⟩ | h1
      · rw [hfound]; exact (hN.complete hc a h1 h2).earlier
      · exact hlater a h1
    cases hre : res with
    | complete => right; subst hre; exact ⟨.complete, _, s', t', by cases sched <;> rfl, hfin nofun⟩
    | stop => right; subst hre; exact ⟨.stop, _, s', t', by cases sched <;> rfl, hfin nofun⟩
    | cutoff =>
      subst hre
      obtain ⟨c, hc1, hc2⟩ := hN.spent rfl
      cases sched with
      | none => cases hc1
      | some r =>
        obtain ⟨hl, h1, h2, h3, h4⟩ := hr r rfl
        have hsize : t'.conflicts ≤ s0.doms.size := by
          have a1 := hN.conflicts
          have a2 := size_le hev.ok hev.length (fun a ha => hev.within ha)
          have a3 : ({ t with conflicts := 0 } : Tally).conflicts = 0 := rfl
          omega
        have hidx : r.index < N := by
          rcases Nat.lt_or_eq_of_le h2 with h | h
          · exact h
          · simp at hc1
            rw [← h] at h4
            have : (⟨r.scale, r.index⟩ : Restarts).cutoff = r.cutoff := rfl
            omega
        have hkeep : ∀ a, Sol a → Within s0.doms a → (Wanted Sol store s'.mem a ∧ Within s'.doms a) ∨ Reported V.minimise t'.objective t'.found a := by
          intro a hs ha
          rcases h.kept a hs ha with ⟨k1, k2⟩ | k1
          · have hw : Within s'.doms a ∨ Reported V.minimise t'.objective f a := by
              rcases hN.root rfl rfl with ⟨e, _⟩ | ⟨_, _, _, _, k3⟩
              · rw [e]; exact .inl k2
              · exact k3 a k1 k2
            rcases hw with hw | hw
            · by_cases hx : ∃ g ∈ L, Forbids g a
              · obtain ⟨g, hg, hgf⟩ := hx
                right; rw [hfound]; exact (hN.lost g hg a k1 k2 hgf).earlier
              · refine .inl ⟨⟨hs, fun g hg hgf => ?_⟩, hw⟩
                rw [hN.stored] at hg
                rcases List.mem_append.1 hg with hg | hg
                · exact k1.2 g hg hgf
                · exact hx ⟨g, hg, hgf⟩
            · right; rw [hfound]; exact hw.earlier
          · exact .inr (hlater a k1)
        have hnext : PassInv n m V Sol Leaf store J I s0 s' { t' with restarts := t'.restarts + 1 } (has || has1) := by
          have hobj' : ObjOK V.minimise t'.objective := h.obj.improves himp
          have common : RootOK n m V.engine s' ∧ J s' ∧ s'.st.guesses = [] ∧ (∃ cs, Evolve s0.doms cs s'.doms) ∧ (t'.objective ≠ none → NodeOK n m V.engine s' ∧ I 0 s') := by
            rcases hN.root rfl rfl with ⟨e, hf⟩ | ⟨k1, k2, k3, ⟨cs', k4⟩, _⟩
            · rw [e]
              refine ⟨h.root, h.j, h.guesses, h.evolve, fun ho => ?_⟩
              rw [hf] at himp
              rw [himp.of_nil] at ho
              exact h.bound ho
            · refine ⟨k1.rootOK, hC.again k s' k2, by rw [k3, h.guesses], ⟨_, hev.trans k4⟩, fun ho => ?_⟩
              have hm : V.minimise ≠ none := fun hc => ho (hobj'.1 hc)
              rw [if_neg hm] at hkk; subst hkk
              exact ⟨k1, k2⟩
          refine ⟨common.1, common.2.1, common.2.2.1, common.2.2.2.1, common.2.2.2.2, hobj', himp', hgood, hapart, hkeep, ?_, ⟨_, ⟨hcnt'.1, hcnt'.2, hcnt'.3, hcnt'.4, hcnt'.5, hcnt'.6, hcnt'.7, hcnt'.8⟩, ?_⟩, ?_, hhas⟩
          · intro hm d hd a ha
            have hd : d ∈ t'.found := hd
            rw [hfound] at hd
            rw [hN.stored]
            rcases List.mem_append.1 hd with hd | hd
            · obtain ⟨g, hg, hgf⟩ := h.excluded hm d hd a ha; exact ⟨g, by simp [hg], hgf⟩
            · obtain ⟨g, hg, hgf⟩ := hN.excluded rfl hl d hd a ha; exact ⟨g, by simp [hg], hgf⟩
          · show _ = t'.restarts + 1
            rw [List.length_append, hlen, hres]; rfl
          · exact hans'.1 nofun
        exact ih (some r.advance) (has || has1) s' _ hnext (by omega) (fun r' hr' => by
          cases hr'
          exact ⟨hl, by show 1 ≤ r.index + 1; omega, by show r.index + 1 ≤ N; omega, by show N < r.index + 1 + fuel; omega, h4⟩)

end
end Gcs
