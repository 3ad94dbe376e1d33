import Verif.Model.AutoTable
import Verif.Lemmas.Search
import Verif.Props.Cons.Table

/-!
# Helper lemmas for AutoTable: the search below the root and coming back from it
-/

namespace Gcs.AutoTable
open IntervalSet Queue

section
variable {σ μ : Type} {n m : Nat} {R : Err → Prop}

/-! ## The epoch around the subproblem -/

/-- The timestamp that is returned when the epoch around the subproblem is opened. -/
def subStamp (p : Sys σ μ) : Timestamp := ⟨p.st.vars.length, p.st.guesses.length, some p.st.extra.length⟩

theorem open_sub {E : Engine σ μ} {p : Sys σ μ} (h : RootOK n m E p) :
    ∃ st1 st2, p.st.newEpoch true = .ok (subStamp p, st1) ∧ st1.guess .tt = .ok st2 ∧ Child p .tt { p with st := st2 } ∧ RootOK n m E { p with st := st2 } ∧
      ({ p with st := st2 } : Sys σ μ).doms = p.doms ∧ ({ p with st := st2 } : Sys σ μ).top = p.top := by
  obtain ⟨d, r, hv⟩ := List.exists_cons_of_ne_nil h.call.varsNe
  obtain ⟨c, q, hc⟩ : ∃ c q, p.st.cstates = c :: q := by
    apply List.exists_cons_of_ne_nil
    intro hc
    have := h.aligned.1
    rw [hc, hv] at this; simp at this
  have hdm : p.doms = d := doms_eq hv
  have htop : p.top = c := by simp [Sys.top, hc]
  refine ⟨{ p.st with vars := d :: d :: r, cstates := c :: c :: q, onBacktracks := [] :: p.st.onBacktracks },
    { p.st with vars := d :: d :: r, cstates := c :: c :: q, onBacktracks := [] :: p.st.onBacktracks, guesses := p.st.guesses ++ [.tt] }, ?_, rfl, ⟨⟨d, c, by rw [hc]; rfl, by rw [hv, hc]⟩, Nat.le_refl _, ?_⟩,
    ⟨⟨?_, ?_, by simp, ?_, by simp, h.call.watches, h.call.boxes, fun hc => absurd rfl hc⟩, h.ids, ?_⟩, hdm.symm, htop.symm⟩
  · unfold State.newEpoch; rw [hv, hc]; simp [subStamp, hv]
  · rw [hdm]
    exact ⟨hdm ▸ h.call.domsOK, fun a => ⟨fun h => ⟨h, trivial⟩, fun h => h.1⟩, [], .refl _ (hdm ▸ h.call.domsOK), by simp⟩
  · exact hdm ▸ h.call.domsOK
  · exact hdm ▸ h.call.domsLen
  · have := h.call.cstatesLen; rw [hc] at this; exact this
  · have h1 := h.aligned.1; have h2 := h.aligned.2
    rw [hv] at h1 h2; rw [hc] at h1
    exact ⟨by simpa using h1, by simpa using h2⟩

/-- Coming back from the subproblem, everything that outlives it is as it was before. -/
theorem back_sub {E : Engine σ μ} {p s s1 s3 : Sys σ μ} {b : Bool} (hp : RootOK n m E p) (hc : Child p .tt s) (hi : CallSpec n E [] s b s1) (hs : Same E.progs.length s1 s3) :
    ∃ s4, s3.backtrack (subStamp p) = .ok s4 ∧ s4.st = p.st ∧ s4.mem = s3.mem ∧ p.w.Same s4.w ∧ RootOK n m E s4 := by
  obtain ⟨d, c, hcs, he⟩ := hc.eq
  have hw : s.w = p.w := by rw [he]
  have hv : s.st.vars.tail = p.st.vars := by rw [he]; rfl
  have hct : s.st.cstates.tail = p.st.cstates := by rw [he]; rfl
  have hcn : s.st.cstates ≠ [] := by rw [he]; simp
  have hg : s.st.guesses = p.st.guesses ++ [.tt] := by rw [he]
  have hob : s.st.onBacktracks = [] :: p.st.onBacktracks := by rw [he]
  have hex : s.st.extra = p.st.extra := by rw [he]
  have hmi : s.st.minimise = p.st.minimise := by rw [he]
  have hin : s.st.incumbent = p.st.incumbent := by rw [he]
  obtain ⟨d2, r2, hv2⟩ := List.exists_cons_of_ne_nil hi.varsNe
  obtain ⟨c2, q2, hc2⟩ := List.exists_cons_of_ne_nil (hi.cstatesNe hcn)
  have hr2 : r2 = p.st.vars := by have := hi.varsTail; rw [hv2, hv] at this; exact this
  have hq2 : q2 = p.st.cstates := by have := hi.cstatesTail; rw [hc2, hct] at this; exact this
  have hvars : s3.st.vars = [d2] ++ p.st.vars := by rw [hs.st, hv2, hr2]; rfl
  have hcst : s3.st.cstates = [c2] ++ p.st.cstates := by rw [hs.st, hc2, hq2]; rfl
  have hgs : s3.st.guesses = p.st.guesses ++ [.tt] := by rw [hs.st, hi.guesses, hg]
  have e2 : s3.st.extra = p.st.extra := by rw [hs.st, hi.extra, hex]
  have e3 : s3.st.minimise = p.st.minimise := by rw [hs.st, hi.minimise, hmi]
  have e4 : s3.st.incumbent = p.st.incumbent := by rw [hs.st, hi.incumbent, hin]
  obtain ⟨e, r, i, h1, h2, h3, _⟩ := hi.onb
  rw [hob] at h1
  cases h1
  obtain ⟨u, h6, h7, h8, _⟩ := undo_restores hi.steps (by rw [hw]; exact hp.ids) hs.w
  have hcb : s3.st.onBacktracks = [[.undoWatches s.w.trail.length s.w.wsTrail.length, .restoreIdle i]] ++ p.st.onBacktracks := by rw [hs.st, h2]; rfl
  have hb := backtrack_eq (s := s3.st) (t := subStamp p) hvars hcst hcb rfl hp.aligned.1 hp.aligned.2 (by rw [hgs]; simp [subStamp]) (by simp [subStamp, e2])
  rw [hw] at h7
  refine ⟨{ s3 with st := p.st, w := u, q := s3.q.restoreIdle i }, ?_, rfl, rfl, h7, ?_⟩
  · unfold Sys.backtrack
    rw [hb]
    have e1 : s3.st.guesses.take (subStamp p).howManyGuesses = p.st.guesses := by rw [hgs]; simp [subStamp]
    have e5 : s3.st.extra.take p.st.extra.length = p.st.extra := by rw [e2]; simp
    show Sys.runCallbacks _ ({ s3 with st := ⟨p.st.vars, p.st.cstates, p.st.onBacktracks, _, s3.st.extra.take p.st.extra.length, s3.st.minimise, s3.st.incumbent⟩ } : Sys σ μ) = _
    rw [e1, e5, e3, e4]
    show (Watches.undo s.w.trail.length s.w.wsTrail.length s3.w).bind _ = _
    rw [h6]; rfl
  · refine ⟨⟨hp.call.domsOK, hp.call.domsLen, hp.call.varsNe, hp.call.cstatesLen, hp.call.epochs, hp.call.watches.same h7, fun x => ?_, fun hc => absurd rfl hc⟩, hp.ids.like h7.like h7.nextId, hp.aligned⟩
    show box u x = []
    have := hs.boxes x
    unfold box at this ⊢
    rw [h8]; exact this

/-! ## The search -/

/-- What an assignment gives to the variables. -/
abbrev row (vars : List VarId) (a : Asg) : List Int := vars.map (·.eval a)

theorem values_right {d : Doms} (hd : DomsOK d) : ∀ {vars : List VarId}, (∀ v ∈ vars, v.Valid d.length) → (∀ i ∈ vars.filterMap VarId.underlyingIndex, Fixed d i) →
    RightOrOverflow (values d vars) (fun t => (∀ x ∈ t, InI64 x) ∧ ∀ a, Within d a → row vars a = t)
  | [], _, _ => .pure ⟨by simp, fun _ _ => rfl⟩
  | v :: vs, hv, hf => by
    unfold values
    obtain ⟨a0, ha0⟩ := exists_within hd
    have hsame : ∀ a, Within d a → v.eval a = v.eval a0 := by
      intro a ha
      refine VarId.eval_congr fun i hi => ?_
      obtain ⟨s, hs, w, hw⟩ := hf i (List.mem_filterMap.2 ⟨v, by simp, hi⟩)
      rw [(hw _).1 (ha i s hs), (hw _).1 (ha0 i s hs)]
    have h1 : RightOrOverflow (valueOf d v) (fun y => InI64 y ∧ y = v.eval a0) := by
      rcases single_roo hd (hv v (by simp)) with e | ⟨r, e, hr⟩
      · left; simp [valueOf, e, bind, Except.bind]
      · right
        have hr0 := ((hr (v.eval a0)).1).2 fun z => ⟨by rintro ⟨a, ha, rfl⟩; exact hsame a ha, by rintro rfl; exact ⟨a0, ha0, rfl⟩⟩
        subst hr0
        exact ⟨v.eval a0, by simp [valueOf, e, bind, Except.bind, pure, Except.pure], (hr _).2 rfl, rfl⟩
    refine h1.bind fun y ⟨hi, hy⟩ => (values_right hd (fun x hx => hv x (by simp [hx])) fun i hi => ?_).bind fun t ⟨hti, ht⟩ => .pure ⟨fun x hx => ?_, fun a ha => ?_⟩
    · obtain ⟨x, hx, e⟩ := List.mem_filterMap.1 hi
      exact hf i (List.mem_filterMap.2 ⟨x, by simp [hx], e⟩)
    · rcases List.mem_cons.1 hx with rfl | hx
      · exact hi
      · exact hti x hx
    · show v.eval a :: row vs a = y :: t
      rw [hsame a ha, ht a ha, hy]

variable {V : SearchEnv σ μ} {Sol Fin : Asg → Prop} {Leaf : Doms → Prop} {Le : μ → μ → Prop} {J : Sys σ μ → Prop} {I : Nat → Sys σ μ → Prop}

/-- The contract without anything being checked, for another heuristic. -/
theorem relax (h : SearchPre n m R V Sol Fin Leaf (fun _ => []) Le J I) {br : Nat → Sys σ μ → Chk (List Cond)} {vars : List VarId} (hb : BranchesOn n m { V with branch := br } vars)
    (hm : V.minimise = none) (hl : V.learn = none) :
    SearchPre n m R { V with branch := br } Sol (fun _ => True) (fun d => ∀ v ∈ vars.filterMap VarId.underlyingIndex, Fixed d v) (fun _ => []) Le J I where
  runs := h.runs
  objective := fun o ho => by rw [show ({ V with branch := br } : SearchEnv σ μ).minimise = V.minimise from rfl, hm] at ho; cases ho
  branch := by
    intro i s hs
    rcases hb.branch (R := R) i s hs with e | ⟨bs, h1, h2⟩
    · exact .inl e
    · refine .inr ⟨bs, h1, ?_⟩
      split
      · rename_i hn; rw [if_pos hn] at h2; exact h2
      · rename_i hn; rw [if_neg hn] at h2; exact ⟨h2.1, fun b hb => decided_of (h2.2 b hb)⟩
  monotone := h.monotone
  le_refl := h.le_refl
  le_trans := h.le_trans
  learned := fun add ha => by rw [show ({ V with branch := br } : SearchEnv σ μ).learn = V.learn from rfl, hl] at ha; cases ha
  call := h.call
  back := h.back
  again := h.again
  leaf := fun _ _ _ _ _ _ _ => ⟨trivial, by simp⟩

/-- What `solve_subproblem` does: it finds a tuple for each solution, no tuple twice, and only tuples within the domains. -/
structure Found (n : Nat) (E : Engine σ μ) (Sol : Asg → Prop) (Le : μ → μ → Prop) (vars : List VarId) (gs : List Lit) (s : Sys σ μ) (T : List (List Int)) (s' : Sys σ μ) : Prop where
  all : ∀ a, Sol a → Within s.doms a → row vars a ∈ T
  inside : ∀ t ∈ T, (∀ x ∈ t, InI64 x) ∧ ∃ a, Within s.doms a ∧ row vars a = t
  nodup : T.Nodup
  le : gs ≠ [] → Le s.mem s'.mem
  back : ∃ b s1, CallSpec n E gs s b s1 ∧ Same E.progs.length s1 s'

/-- The branches left to be done at a node. -/
structure Todo (n : Nat) (vars : List VarId) (d : Doms) (bs : List Cond) : Prop where
  valid : ∀ b ∈ bs, (Lit.cond b).Valid n
  possible : ∀ b ∈ bs, ∃ a, Within d a ∧ b.holds a
  strict : ∀ b ∈ bs, ∃ a, Within d a ∧ ¬ b.holds a
  apart : bs.Pairwise (fun b c => ∀ a, Within d a → ¬ (b.holds a ∧ c.holds a))
  about : ∀ b ∈ bs, ∀ a a', row vars a = row vars a' → b.holds a → b.holds a'

theorem loop_spec (ho : R .overflow) (hC : SearchPre n m R V Sol Fin Leaf (fun _ => []) Le J I) {vars : List VarId} {k F : Nat} {sub : Cond → Sys σ μ → Chk (List (List Int) × Sys σ μ)}
    (hrec : ∀ g c, Entry n m V.engine (fun _ => []) J I k [.cond g] c → c.doms.card < F → Thrown R (sub g c) ∨ ∃ T s', sub g c = .ok (T, s') ∧ Found n V.engine Sol Le vars [.cond g] c T s') :
    ∀ (bs : List Cond) (p : Sys σ μ), NodeOK n m V.engine p → I k p → p.doms.card ≤ F → Todo n vars p.doms bs →
      Thrown R (branches sub bs p) ∨ ∃ T s', branches sub bs p = .ok (T, s') ∧ (∀ a, Sol a → Within p.doms a → (∃ b ∈ bs, b.holds a) → row vars a ∈ T) ∧
        (∀ t ∈ T, (∀ x ∈ t, InI64 x) ∧ ∃ a, Within p.doms a ∧ row vars a = t ∧ ∃ b ∈ bs, b.holds a) ∧ T.Nodup ∧ Le p.mem s'.mem ∧ Same V.engine.progs.length p s'
  | [], p, hp, _, _, _ => .inr ⟨[], p, rfl, by simp, by simp, .nil, hC.le_refl _, .refl hp.inv hp.call.boxes⟩
  | g :: gs, p, hp, hI, hF, ht => by
    unfold branches
    obtain ⟨st1, e1, h1⟩ := open_child hp (ht.valid g (by simp)) (ht.possible g (by simp)) p.clock (Nat.le_refl _)
    rw [e1]
    show Thrown R ((st1.guess (.cond g)).bind _) ∨ ∃ T s', (st1.guess (.cond g)).bind _ = _ ∧ _
    rcases h1 with e2 | ⟨st2, e2, hc⟩
    · left; rw [e2]; exact ⟨_, rfl, .inl rfl⟩
    rw [e2]
    have hcm : ({ p with st := st2 } : Sys σ μ).mem = p.mem := rfl
    generalize hcc : ({ p with st := st2 } : Sys σ μ) = c at hc hcm
    show Thrown R ((sub g { p with st := st2 }).bind _) ∨ ∃ T s', (sub g { p with st := st2 }).bind _ = _ ∧ _
    rw [hcc]
    have hlt : c.doms.card < F := Nat.lt_of_lt_of_le (narrow_card hc.narrow (ht.strict g (by simp))) hF
    rcases hrec g c (.child p c _ hp hI (ht.valid g (by simp)) hc) hlt with e3 | ⟨T1, c', e3, hN⟩
    · left; exact e3.bind _
    rw [e3]
    obtain ⟨b, s1, hcall, hsame⟩ := hN.back
    obtain ⟨s4, e4, hs4, hmem, _⟩ := back_restores hp hc (hcall.inside (by simp) (hc.nodeOK hp).cstatesNe) hsame
    show Thrown R ((c'.backtrack (stamp p)).bind _) ∨ ∃ T s', (c'.backtrack (stamp p)).bind _ = _ ∧ _
    rw [e4]
    have hle : Le p.mem s4.mem := by rw [hmem, ← hcm]; exact hN.le (by simp)
    have hd4 := hs4.doms
    have ht' : Todo n vars s4.doms gs := by
      rw [hd4]
      exact ⟨fun b hb => ht.valid b (by simp [hb]), fun b hb => ht.possible b (by simp [hb]), fun b hb => ht.strict b (by simp [hb]), (List.pairwise_cons.1 ht.apart).2, fun b hb => ht.about b (by simp [hb])⟩
    show Thrown R ((branches sub gs s4).bind _) ∨ ∃ T s', (branches sub gs s4).bind _ = _ ∧ _
    rcases loop_spec ho hC hrec gs s4 (hp.same hs4) (hC.back k p s4 hp hI hs4 hle) (hd4.symm ▸ hF) ht' with e5 | ⟨T2, s', e5, k1, k2, k3, k4, k5⟩
    · left; exact e5.bind _
    rw [e5]
    rw [hd4] at k1 k2
    refine .inr ⟨T1 ++ T2, s', rfl, fun a hs ha hb => ?_, fun t ht => ?_, ?_, hC.le_trans _ _ _ hle k4, hs4.trans k5⟩
    · obtain ⟨b, hb, hba⟩ := hb
      rcases List.mem_cons.1 hb with rfl | hb
      · exact List.mem_append.2 (.inl (hN.all a hs ((hc.narrow.within a).2 ⟨ha, hba⟩)))
      · exact List.mem_append.2 (.inr (k1 a hs ha ⟨b, hb, hba⟩))
    · rcases List.mem_append.1 ht with ht | ht
      · obtain ⟨hi, a, ha, e⟩ := hN.inside t ht
        have := (hc.narrow.within a).1 ha
        exact ⟨hi, a, this.1, e, g, by simp, this.2⟩
      · obtain ⟨hi, a, ha, e, b, hb, hba⟩ := k2 t ht
        exact ⟨hi, a, ha, e, b, by simp [hb], hba⟩
    · rw [List.nodup_append]
      refine ⟨hN.nodup, k3, fun t h1 t' h2 e => ?_⟩
      subst e
      obtain ⟨_, a, ha, e⟩ := hN.inside t h1
      obtain ⟨_, a', ha', e', b, hb, hba⟩ := k2 t h2
      have hg := (hc.narrow.within a).1 ha
      exact (List.pairwise_cons.1 ht.apart).1 b hb a' ha' ⟨ht.about g (by simp) a a' (e.trans e'.symm) hg.2, hba⟩

theorem sub_spec (ho : R .overflow) {E : Engine σ μ} {vars : List VarId} (hE : V.engine = E) (hab : V.abort = fun _ => false) (hbr : V.branch = fun _ s => branch E vars s.doms)
    (hC : SearchPre n m R V Sol Fin (fun d => ∀ v ∈ vars.filterMap VarId.underlyingIndex, Fixed d v) (fun _ => []) Le J I) (hv : ∀ v ∈ vars, v.Valid n)
    (hdet : ∀ s bs, NodeOK n m E s → branch E vars s.doms = .ok bs → ∀ b ∈ bs, ∀ a a', row vars a = row vars a' → b.holds a → b.holds a') (k : Nat) :
    ∀ (fuel : Nat) (guess : Option Cond) (s : Sys σ μ), Entry n m E (fun _ => []) J I k (guess.toList.map .cond) s → s.doms.card < fuel →
      Thrown R (subproblem E vars fuel guess s) ∨ ∃ T s', subproblem E vars fuel guess s = .ok (T, s') ∧ Found n E Sol Le vars (guess.toList.map .cond) s T s'
  | 0, _, _, _, h => absurd h (Nat.not_lt_zero _)
  | fuel + 1, guess, s, hentry, hF => by
    subst hE
    unfold subproblem
    have hr1 := hentry.rootOK
    have hcall : CallOK n m V.engine (guess.toList.map .cond) s := hr1.1.call.of_nil _ fun hg => (hr1.2 hg).inv
    generalize hgs : (guess.toList.map .cond : List Lit) = gs at hentry hr1 hcall ⊢
    have hruns := hC.runs k gs s hentry
    have hcl := fun b s' => hC.call k gs s b s' hentry
    rw [hab] at hruns hcl
    rcases hruns with e | ⟨b, s2, e, hcs⟩
    · left; exact Thrown.bind (R := R) e _
    rw [e]
    obtain ⟨hk1, hk2, _, hk4⟩ := hcl b s2 e
    show Thrown R (if b = false then _ else _) ∨ ∃ T s', (if b = false then _ else _) = _ ∧ _
    by_cases hb : b = false
    · rw [if_pos hb]
      refine .inr ⟨[], s2, rfl, fun a hs ha => ?_, by simp, .nil, hk2, b, s2, hcs, .refl hcs.inv hcs.boxes⟩
      have := (hk1 a hs (by simp) ha).1
      rw [hb] at this; cases this
    rw [if_neg hb]
    have hbt : b = true := by simpa using hb
    subst hbt
    have hnode := hcs.nodeOK hcall hr1.1.ids hr1.1.aligned
    have hI := hk4 rfl fun _ _ => rfl
    obtain ⟨cs, hev⟩ := hcs.good rfl
    have hbrs := hC.branch 0 s2 hnode
    rw [hbr] at hbrs
    show Thrown R ((branch V.engine vars s2.doms).bind _) ∨ ∃ T s', (branch V.engine vars s2.doms).bind _ = _ ∧ _
    rcases hbrs with e2 | ⟨bs, e2, hbs⟩
    · left; exact Thrown.bind (R := R) e2 _
    change branch V.engine vars s2.doms = .ok bs at e2
    have hdet' := hdet
    have hdet := hdet s2 bs hnode e2
    rw [e2]
    show Thrown R (if bs = [] then _ else _) ∨ ∃ T s', (if bs = [] then _ else _) = _ ∧ _
    by_cases hn : bs = []
    · rw [if_pos hn] at hbs ⊢
      rcases values_right hnode.call.domsOK (vars := vars) (fun v h => by rw [hnode.call.domsLen]; exact hv v h) hbs with e3 | ⟨t, e3, hti, ht⟩
      · left; exact Thrown.bind (R := R) ⟨_, e3, .inl rfl⟩ _
      rw [e3]
      refine .inr ⟨[t], s2, rfl, fun a hs ha => (by rw [ht a (hk1 a hs (by simp) ha).2]; simp), fun t' ht' => ?_, by simp, hk2, true, s2, hcs, .refl hcs.inv hcs.boxes⟩
      obtain ⟨a, ha⟩ := exists_within hnode.call.domsOK
      rw [List.mem_singleton.1 ht']
      exact ⟨hti, a, hev.within ha, ht a ha⟩
    rw [if_neg hn] at hbs ⊢
    obtain ⟨hB, _⟩ := hbs
    have hcard : s2.doms.card ≤ s.doms.card := by have := hev.card; omega
    rcases loop_spec (vars := vars) (F := fuel) ho hC (fun g c hg hlt => sub_spec ho rfl hab hbr hC hv hdet' k fuel (some g) c hg hlt) bs s2 hnode hI (by omega)
      ⟨fun b hb => (hB.valid b hb).1, hB.possible, hB.strict, hB.apart, hdet⟩ with e3 | ⟨T, s', e3, k1, k2, k3, k4, k5⟩
    · exact .inl e3
    · refine .inr ⟨T, s', e3, fun a hs ha => ?_, fun t ht => ?_, k3, fun hg => hC.le_trans _ _ _ (hk2 hg) k4, true, s2, hcs, k5⟩
      · have := (hk1 a hs (by simp) ha).2
        exact k1 a hs this (hB.covers a this)
      · obtain ⟨hi, a, ha, e, _⟩ := k2 t ht
        exact ⟨hi, a, hev.within ha, e⟩

/-- `AutoTable::run` up to where tuples have been found. -/
theorem run_spec (ho : R .overflow) {E : Engine σ μ} {vars : List VarId} (hE : V.engine = E) (hab : V.abort = fun _ => false) (hbr : V.branch = fun _ s => branch E vars s.doms)
    (hC : SearchPre n m R V Sol Fin (fun d => ∀ v ∈ vars.filterMap VarId.underlyingIndex, Fixed d v) (fun _ => []) Le J I) (hv : ∀ v ∈ vars, v.Valid n)
    (hdet : ∀ s bs, NodeOK n m E s → branch E vars s.doms = .ok bs → ∀ b ∈ bs, ∀ a a', row vars a = row vars a' → b.holds a → b.holds a')
    (hJ : ∀ s s' : Sys σ μ, s'.doms = s.doms → s'.top = s.top → J s → J s') {fuel : Nat} {p : Sys σ μ} (hp : RootOK n m E p) (hj : J p) (hF : p.doms.card < fuel) :
    Thrown R (run E vars fuel p) ∨ ∃ T p', run E vars fuel p = .ok (if T = [] then none else some T, p') ∧ (∀ a, Sol a → Within p.doms a → row vars a ∈ T) ∧
      (∀ t ∈ T, (∀ x ∈ t, InI64 x) ∧ ∃ a, Within p.doms a ∧ row vars a = t) ∧ T.Nodup ∧ p'.st = p.st ∧ p.w.Same p'.w ∧ RootOK n m E p' := by
  unfold run
  obtain ⟨st1, st2, e1, e2, hc, hr, hd, ht⟩ := open_sub hp
  rw [e1]
  show Thrown R ((st1.guess .tt).bind _) ∨ ∃ T s', (st1.guess .tt).bind _ = _ ∧ _
  rw [e2]
  generalize hcc : ({ p with st := st2 } : Sys σ μ) = c at hc hr hd ht
  show Thrown R ((subproblem E vars fuel none { p with st := st2 }).bind _) ∨ ∃ T s', (subproblem E vars fuel none { p with st := st2 }).bind _ = _ ∧ _
  rw [hcc]
  rcases sub_spec ho hE hab hbr hC hv hdet 0 fuel none c (.root c hr (hJ p c hd ht hj) (Nat.zero_le _)) (hd.symm ▸ hF) with e3 | ⟨T, c', e3, hN⟩
  · left; exact e3.bind _
  rw [e3]
  obtain ⟨b, s1, hcall, hsame⟩ := hN.back
  obtain ⟨p', e4, h1, h2, h3, h4⟩ := back_sub hp hc hcall hsame
  show Thrown R ((c'.backtrack (subStamp p)).bind _) ∨ ∃ T s', (c'.backtrack (subStamp p)).bind _ = _ ∧ _
  rw [e4]
  exact .inr ⟨T, p', rfl, hd ▸ hN.all, hd ▸ hN.inside, hN.nodup, h1, h3, h4⟩

/-! ## The table -/

theorem valid_succ {v : VarId} (h : v.Valid n) : v.Valid (n + 1) := by
  cases v with
  | simple i => exact Nat.lt_succ_of_lt h
  | view i ng k => exact ⟨Nat.lt_succ_of_lt h.1, h.2⟩
  | const c => exact h

theorem matches_row {vars : List VarId} {t : List Int} {a : Asg} (hl : t.length = vars.length) : Matches (t.map some) vars a ↔ row vars a = t := by
  constructor
  · intro h
    refine List.ext_getElem (by simp [hl]) fun i h1 h2 => ?_
    have h3 : i < vars.length := by omega
    have := h i vars[i] (some t[i]) (by simp [h3]) (by simp [h2])
    rcases this with h | h
    · cases h
    · simpa [row] using (Option.some.inj h).symm
  · rintro rfl i v e hv he
    rw [List.getElem?_map, List.getElem?_map, hv] at he
    cases he
    exact .inr rfl

theorem selected_row {vars : List VarId} {T : List (List Int)} {a : Asg} {i : Nat} (hT : ∀ t ∈ T, t.length = vars.length) :
    Selected (T.map (·.map some)) vars (.simple i) a ↔ ∃ k : Nat, a i = k ∧ T[k]? = some (row vars a) := by
  constructor
  · rintro ⟨k, t, h1, h2, h3⟩
    rw [List.getElem?_map] at h2
    cases e : T[k]? with
    | none => rw [e] at h2; cases h2
    | some t' =>
      rw [e] at h2; cases h2
      exact ⟨k, h1, by rw [e, (matches_row (hT t' (List.mem_of_getElem? e))).1 h3]⟩
  · rintro ⟨k, h1, h2⟩
    exact ⟨k, _, h1, by rw [List.getElem?_map, h2]; rfl, (matches_row (hT _ (List.mem_of_getElem? h2))).2 rfl⟩

theorem row_update {vars : List VarId} (hv : ∀ v ∈ vars, v.Valid n) (a : Asg) (k : Int) : row vars (fun i => if i = n then k else a i) = row vars a := by
  refine List.map_congr_left fun v hm => VarId.eval_congr fun i hi => if_neg fun e => ?_
  have := hv v hm
  subst e
  cases v <;> simp_all [VarId.underlyingIndex, VarId.Valid]

theorem prop_serves {root : Doms} {vars : List VarId} {tuples : List (List (Option Int))} {fresh : Nat → Bool} {cache : Nat → Nat → Int → Option Nat} (ho : R .overflow) (hv : ∀ v ∈ vars, v.Valid n)
    (ht : Table.Shaped vars.length tuples) :
    Serves (n + 1) m R root (fun d _ => Inverse.Inside d 0 tuples.length [.simple n]) (fun _ => False) (Table.prop (σ := σ) (μ := μ) (.simple n) vars tuples fresh cache) { onChange := vars }
      (Selected tuples vars (.simple n)) (Selected tuples vars (.simple n)) vars := by
  have hs : (VarId.simple n).Valid (n + 1) := Nat.lt_succ_self n
  have hv' : ∀ v ∈ vars, v.Valid (n + 1) := fun v h => valid_succ (hv v h)
  refine Inverse.serves_of_ver (I := fun d => Inverse.Inside d 0 tuples.length [.simple n]) (wakes_mem fun z hz => .inl hz) rfl (fun d d' hs hi => hi.sub hs) fun d hd hl hi => ?_
  have hin : ∀ k, Poss d (.simple n) k → 0 ≤ k ∧ k < tuples.length := fun k hk => by have := hi (.simple n) (by simp) k hk; omega
  refine ver_mono (fun ps d' hq => ?_) _ _ (ver_facts _ _ hd hl (Table.prop_ver (J := { n := n + 1, m, R, C := fun a => Within root a ∧ Selected tuples vars (.simple n) a }) ho hs hv' ht (fun a h => h.2) fresh cache hd hl hin))
  obtain ⟨⟨-, -, k3⟩, rfl, h1, h2⟩ := hq
  have hin' : ∀ k, Poss d' (.simple n) k → 0 ≤ k ∧ k < tuples.length := fun k hk => hin k (Inverse.Poss.mono k3 hk)
  refine ⟨fun hk a ha _ => ?_, fun hD _ hk a ha _ => ?_, fun e => nomatch e⟩
  · refine Table.selected_of hin' (fun k hp t ht' a ha => ?_) ha
    obtain ⟨t', e, hc⟩ := h1 k hp
    rw [ht'] at e; cases e
    exact Table.matches_of_can (known_all hk) hc (k3 a ha)
  · have hsep : Table.Separate (.simple n) vars := Table.separate_of_nodup (by
      have hD : (vars.filterMap VarId.underlyingIndex).Nodup := by simpa [Triggers.Distinct] using hD
      rw [List.filterMap_append, List.nodup_append]
      refine ⟨hD, by simp [VarId.underlyingIndex], fun i hi j hj e => ?_⟩
      obtain ⟨v, hm, hvi⟩ := List.mem_filterMap.1 hi
      simp [VarId.underlyingIndex] at hj
      have := hv v hm
      subst hj; subst e
      cases v <;> simp_all [VarId.underlyingIndex, VarId.Valid])
    refine Table.selected_of hin' (fun k hp t ht' a ha => ?_) ha
    obtain ⟨t', e, hc⟩ := (h2 hsep).1 k hp
    rw [ht'] at e; cases e
    exact Table.matches_of_can (known_all hk) hc ha

end
end Gcs.AutoTable
