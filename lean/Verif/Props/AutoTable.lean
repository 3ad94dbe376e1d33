import Verif.Lemmas.AutoTable

/-!
# C64: AutoTable
-/

namespace Gcs
open IntervalSet

section
variable {σ μ : Type} {n m : Nat} {R : Err → Prop} {root : Doms} {cs : List (Posted σ μ)} {sts : List σ} {own : Nat → Nat → Prop} {S : Setup σ μ} {V : SearchEnv σ μ} {vars tvars : List VarId} {x : μ}

namespace AutoTable

/-- The search that `AutoTable` does: no abort flag, objective or nogoods. -/
def env (V : SearchEnv σ μ) (tvars : List VarId) : SearchEnv σ μ := { V with abort := fun _ => false, minimise := none, learn := none, branch := fun _ s => branch V.engine tvars s.doms }

theorem env_branches (V : SearchEnv σ μ) {E : Engine σ μ} (hE : V.engine = E) (ht : ∀ v ∈ tvars, v.Valid n) : BranchesOn n m (env V tvars) tvars where
  valid := ht
  shape := fun _ s hs => by
    have hl : s.doms.length = n := hs.call.domsLen
    refine ⟨_, _, rfl, (domThenDeg_chooses hs.call.domsOK (by rw [hl]; exact ht) _).mono fun _ h => h.picked, fun v hv ho => ?_, smallestFirst_guesses⟩
    exact (smallestFirst_branches_partial hs.call.domsOK (by rw [hl]; exact ht v hv) ho).mono fun _ h => h.1

/-- Branches are about one of the variables. -/
theorem branch_about {E : Engine σ μ} {s : Sys σ μ} {bs : List Cond} (ht : ∀ v ∈ tvars, v.Valid n) (hs : NodeOK n m E s) (e : branch E tvars s.doms = .ok bs) :
    ∀ b ∈ bs, ∀ a a', row tvars a = row tvars a' → b.holds a → b.holds a' := by
  intro b hb a a' hr
  have hl : s.doms.length = n := hs.call.domsLen
  rcases branchWith_clause (B := []) (vars := tvars) (var := domThenDeg (fun v => (E.degreeOf v : Int)) tvars) (val := smallestFirst) hs.call.domsOK (by rw [hl]; exact ht) (by simp)
    ((domThenDeg_chooses hs.call.domsOK (by rw [hl]; exact ht) _).mono fun _ h => h.picked)
    (fun v hv ho => (smallestFirst_branches_partial hs.call.domsOK (by rw [hl]; exact ht v hv) ho).mono fun _ h => h.1) smallestFirst_guesses with h | ⟨bs', h, hbs⟩
  · unfold branch at e; rw [h] at e; cases e
  · unfold branch at e; rw [h] at e; cases e
    rw [if_neg (List.ne_nil_of_mem hb)] at hbs
    obtain ⟨_, v, hv, h5⟩ := hbs
    have : v.eval a = v.eval a' := by
      obtain ⟨i, hi⟩ := List.mem_iff_getElem?.1 hv
      have := congrArg (·[i]?) hr
      simp only [row, List.getElem?_map, hi, Option.map_some, Option.some.injEq] at this
      exact this
    have he := h5 b hb
    subst he
    unfold Cond.holds
    rw [this]; exact id

end AutoTable

/-- C64: after the initialisers, `AutoTable` finds a tuple for every solution, no tuple twice, and only tuples of values within the domains. It ends, or throws what a propagator or an overflow throws. Afterwards the state
is what it was, and propagators watch what they watched. -/
theorem autoTable_tuples (hp : ProblemServed n m R root cs sts own S V vars) (he : V.engine = S.engine) (ht : ∀ v ∈ tvars, v.Valid n) {fuel : Nat} (hf : root.card < fuel) {s : Sys σ μ}
    (hi : Sys.initialise S.order (Sys.start root sts x S.watches) = .ok (true, s)) :
    Thrown R (AutoTable.run S.engine tvars fuel s) ∨ ∃ T s', AutoTable.run S.engine tvars fuel s = .ok (if T = [] then none else some T, s') ∧
      (∀ a, Within root a → (∀ c ∈ cs, c.holds a) → tvars.map (·.eval a) ∈ T) ∧ (∀ t ∈ T, (∀ y ∈ t, InI64 y) ∧ ∃ a, Within s.doms a ∧ tvars.map (·.eval a) = t) ∧ T.Nodup ∧
      s'.st = s.st ∧ s.w.Same s'.w ∧ RootOK n m S.engine s' := by
  obtain ⟨K, ps, cs', hpr, _, hag, hsh, hK, hh, hab⟩ := hp.prepare hi
  let V0 : SearchEnv σ μ := { V with abort := fun _ => false, minimise := none, learn := none }
  have hp0 : ProblemServed n m R root cs sts own S V0 vars :=
    ⟨hp.domsOK, hp.domsLen, hp.statesLen, hp.overflow, hp.constraints, hp.apart, hp.created, ⟨hp.branches.valid, hp.branches.shape⟩, hp.covered, (fun o ho => nomatch ho), (fun i j _ h => nomatch h)⟩
  obtain ⟨I, hC⟩ := solve_contract (V := { V0 with engine := (S.guard K).engine }) (rt := s.doms) (hpr.postings rfl) (hp0.branches.twin (by show _ = V.engine.progs.length; rw [he]; exact hag.len)) (hp0.cover hpr hab) hp0.monotone rfl
  have hC' := SearchPre.twin (V := V0) hC (by show Agree n m K V.engine _; rw [he]; exact hag) hpr.built.wf hsh
  have hC2 := AutoTable.relax hC' (br := fun _ s => AutoTable.branch V.engine tvars s.doms) (AutoTable.env_branches V rfl ht) rfl rfl
  have hroot : RootOK n m S.engine s := hpr.ready.twin hag.len.symm
  rcases AutoTable.run_spec hp.overflow (V := AutoTable.env V tvars) (E := S.engine) he rfl (by unfold AutoTable.env; rw [he]) hC2 ht (fun s bs hs e => AutoTable.branch_about ht hs e)
    (fun s s' h1 h2 hj => ⟨⟨trivial, fun a ha => hj.1.2 a (h1 ▸ ha)⟩, by have := hj.2; unfold Held at this ⊢; rw [h1, h2]; exact this⟩) hroot
    ⟨⟨trivial, fun _ h => h⟩, hK⟩ (Nat.lt_of_le_of_lt hpr.smaller hf) with e | ⟨T, s', e, h1, h2, h3, h4, h5, h6⟩
  · exact .inl e
  · refine .inr ⟨T, s', e, fun a ha hs => ?_, h2, h3, h4, h5, h6⟩
    have := (hpr.same a).1 ⟨(forall_of_map hh (fun P => P a)).2 hs, ha⟩
    exact h1 a ⟨this.2, this.1⟩ this.2

/-- C64: if `AutoTable` reports failure, so that there will be no search, there are no solutions. -/
theorem autoTable_fails (hp : ProblemServed n m R root cs sts own S V vars) (he : V.engine = S.engine) (ht : ∀ v ∈ tvars, v.Valid n) {fuel : Nat} (hf : root.card < fuel) {s s' : Sys σ μ}
    (hi : Sys.initialise S.order (Sys.start root sts x S.watches) = .ok (true, s)) (hr : AutoTable.run S.engine tvars fuel s = .ok (none, s')) : ∀ a, Within root a → ¬ ∀ c ∈ cs, c.holds a := by
  intro a ha hs
  rcases autoTable_tuples hp he ht hf hi with ⟨e, h, _⟩ | ⟨T, s1, h, h1, _⟩
  · rw [hr] at h; cases h
  · rw [hr] at h
    have := h1 a ha hs
    by_cases hT : T = []
    · rw [hT] at this; cases this
    · rw [if_neg hT] at h; cases h

section
variable {depthFuel fuel fuel' : Nat} {res : SearchResult} {has : Bool} {s s' s2 : Sys σ μ} {t : Tally} {T : List (List Int)}

/-- C64, partial: a search that starts where `AutoTable` has left off reports every solution exactly once and nothing else. Missing: here the search does without the propagator that `AutoTable` installs. That this is sound
and checks what it should is `autoTable_item`, and that no solution contradicts it `autoTable_implied`. -/
theorem autoTable_enumerates_partial (hp : ProblemServed n m R root cs sts own S V vars) (he : V.engine = S.engine) (ht : ∀ v ∈ tvars, v.Valid n) (hf : root.card < fuel)
    (hi : Sys.initialise S.order (Sys.start root sts x S.watches) = .ok (true, s)) (hr : AutoTable.run S.engine tvars fuel s = .ok (some T, s')) (hlearn : V.learn = none) (hd : root.card < depthFuel) (hf' : 0 < fuel')
    (ho : V.minimise = none) (hs : search V depthFuel fuel' none s' = .ok ((res, has, s2, t), true)) :
    (∀ a, (∀ c ∈ cs, c.holds a) ∧ Within root a ↔ ∃ (i : Nat) (d : Doms), t.found[i]? = some d ∧ Within d a ∧ ∀ (j : Nat) (e : Doms), t.found[j]? = some e → Within e a → j = i) ∧
    (∀ d ∈ t.found, ∀ x ∈ vars, ∃ v, ∀ a, Within d a → x.eval a = v) ∧ t.found.Pairwise (Distinguished vars) := by
  obtain ⟨T', s1, h, _, _, _, hst, _, hroot⟩ : ∃ T' s1, AutoTable.run S.engine tvars fuel s = .ok (if T' = [] then none else some T', s1) ∧ _ := by
    rcases autoTable_tuples hp he ht hf hi with ⟨e, h, _⟩ | h
    · rw [hr] at h; cases h
    · exact h
  rw [hr] at h
  have e1 : s1 = s' := by injection h with h; injection h with _ h; exact h.symm
  subst e1
  obtain ⟨K, ps, cs', hpr, _, hag, hsh, hK, hh, hab⟩ := hp.prepare hi
  obtain ⟨I, hC⟩ := solve_contract (V := { V with engine := (S.guard K).engine }) (rt := s.doms) (hpr.postings rfl) (hp.branches.twin (by rw [he]; exact hag.len)) (hp.cover hpr hab) hp.monotone hlearn
  have hC' := SearchPre.twin hC (he ▸ hag) hpr.built.wf hsh
  have hdm : s1.doms = s.doms := by unfold Sys.doms; rw [hst]
  have hK' : Held K s1 := by unfold Held Sys.top at hK ⊢; rw [hdm, hst]; exact hK
  obtain ⟨h1, h2⟩ := contract_enumerates hC' ⟨he ▸ hroot, ⟨⟨trivial, fun a h => hdm ▸ h⟩, hK'⟩, by rw [hst]; exact hpr.guesses, rfl⟩ (fun a h => hdm ▸ h) (by rw [hdm]; exact Nat.lt_of_le_of_lt hpr.smaller hd) hf' ho hs
  exact ⟨fun a => by rw [← h1 a, hdm, ← hpr.same a, forall_of_map hh (fun P => P a)], h2⟩

end

/-! ## The table -/

/-- What `AutoTable` installs, as a constraint on the variables and the selector, which has number `n`. -/
abbrev AutoTable.posted (n : Nat) (tvars : List VarId) (T : List (List Int)) (fresh : Nat → Bool) (cache : Nat → Nat → Int → Option Nat) : Posted σ μ :=
  ⟨fun _ => .ok [AutoTable.item n tvars T fresh cache], Selected (T.map (·.map some)) tvars (.simple n), tvars⟩

/-- C64: the propagator is right, where there is a selector with the numbers of the tuples after the variables, although it is not a trigger. -/
theorem autoTable_item {T : List (List Int)} {fresh : Nat → Bool} {cache : Nat → Nat → Int → Option Nat} {z0 : List σ} (ho : R .overflow) (ht : ∀ v ∈ tvars, v.Valid root.length)
    (hT : ∀ t ∈ T, t.length = tvars.length ∧ ∀ y ∈ t, InI64 y) :
    (AutoTable.posted (σ := σ) (μ := μ) root.length tvars T fresh cache).Serves (root.length + 1) m R (root ++ [AutoTable.selector T]) z0 (fun _ => False) := by
  have hsel : ∀ a, Within (root ++ [AutoTable.selector T]) a → 0 ≤ a root.length ∧ a root.length < T.length := by
    intro a ha
    have := ha root.length (AutoTable.selector T) (by simp)
    simp [AutoTable.selector, Mem] at this; omega
  intro items e
  cases e
  exact (Inits.nil (e := fun _ => True) fun _ _ => trivial).served
    (AutoTable.prop_serves ho ht (by
      refine ⟨fun t h => ?_, fun t h y hy => ?_⟩ <;> obtain ⟨t', h', rfl⟩ := List.mem_map.1 h
      · simpa using (hT t' h').1
      · obtain ⟨z, hz, e⟩ := List.mem_map.1 hy
        cases e; exact (hT t' h').2 _ hz)) (fun _ h => h) (fun a _ => ⟨fun h => ⟨trivial, h⟩, fun h => h.2⟩) (fun d d' hs hi => hi.sub hs)
    fun d _ _ hq => Inverse.inside_of fun a ha v hv => by
      rw [List.mem_singleton] at hv; subst hv
      have := hsel a (hq a ha).1
      simp only [VarId.eval, List.length_map]
      omega

/-- C64: for every assignment whose tuple was found, there is exactly one value of the selector with which it satisfies the table; and what satisfies the table has a tuple that was found. -/
theorem autoTable_implied {T : List (List Int)} (ht : ∀ v ∈ tvars, v.Valid root.length) (hT : ∀ t ∈ T, t.length = tvars.length) (hn : T.Nodup) {a : Asg} (ha : Within root a) :
    (tvars.map (·.eval a) ∈ T ↔ ∃ k, Within (root ++ [AutoTable.selector T]) (fun i => if i = root.length then k else a i) ∧
      Selected (T.map (·.map some)) tvars (.simple root.length) (fun i => if i = root.length then k else a i)) ∧
    ∀ k k', Selected (T.map (·.map some)) tvars (.simple root.length) (fun i => if i = root.length then k else a i) →
      Selected (T.map (·.map some)) tvars (.simple root.length) (fun i => if i = root.length then k' else a i) → k = k' := by
  have hrow := AutoTable.row_update ht a
  refine ⟨⟨fun h => ?_, fun ⟨k, _, h⟩ => ?_⟩, fun k k' h h' => ?_⟩
  · obtain ⟨k, hk⟩ := List.mem_iff_getElem?.1 h
    have hlt := (List.getElem?_eq_some_iff.1 hk).1
    refine ⟨k, fun i d hd => ?_, (AutoTable.selected_row hT).2 ⟨k, if_pos rfl, by rw [hrow]; exact hk⟩⟩
    by_cases hin : i = root.length
    · subst hin
      simp at hd; subst hd
      simp [AutoTable.selector, Mem]; omega
    · have hlt := (List.getElem?_eq_some_iff.1 hd).1
      simp at hlt
      dsimp only
      rw [if_neg hin]
      rw [List.getElem?_append_left (by omega)] at hd
      exact ha i d hd
  · obtain ⟨j, _, hj⟩ := (AutoTable.selected_row hT).1 h
    rw [hrow] at hj
    exact List.mem_of_getElem? hj
  · obtain ⟨i, e1, h1⟩ := (AutoTable.selected_row hT).1 h
    obtain ⟨j, e2, h2⟩ := (AutoTable.selected_row hT).1 h'
    rw [hrow] at h1 h2
    simp only [if_true] at e1 e2
    have := (List.getElem?_inj (List.getElem?_eq_some_iff.1 h1).1 hn).1 (h1.trans h2.symm)
    omega

end

namespace AutoTable

/-! The problem of `Props/Cons/Table.lean`, with a table and a comparison that are tabulated together. -/

def rows : List (List Int) := [[0, 2], [0, 3], [1, 2], [1, 3]]

theorem runs : ∃ s s', Sys.initialise Table.S.order (Sys.start Table.start [] () Table.S.watches) = .ok (true, s) ∧ run Table.S.engine [Table.x, Table.y] 12 s = .ok (some rows, s') := by
  have h : (match Sys.initialise Table.S.order (Sys.start Table.start [] () Table.S.watches) with
    | .ok (true, s) => (match run Table.S.engine [Table.x, Table.y] 12 s with | .ok (some T, _) => decide (T = rows) | _ => false)
    | _ => false) = true := by decide +kernel
  split at h
  · split at h
    · have := of_decide_eq_true h
      subst this
      exact ⟨_, _, by assumption, by assumption⟩
    · cases h
  · cases h

/-- What the theorem says about this run. -/
example : ∀ a, Within Table.start a → Selected Table.rows [Table.x, Table.y] (.simple 2) a → Table.x.eval a < Table.y.eval a →
    [Table.x.eval a, Table.y.eval a] ∈ rows := by
  obtain ⟨s, s', h1, h2⟩ := runs
  rcases autoTable_tuples (tvars := [Table.x, Table.y]) (fuel := 12) Table.problem rfl (by decide) (by decide) h1 with ⟨e, h, _⟩ | ⟨T, s1, h, h3, _⟩
  · rw [h2] at h; cases h
  · rw [h2] at h
    have hT : T = rows := by
      by_cases hn : T = []
      · rw [if_pos hn] at h; cases h
      · rw [if_neg hn] at h; cases h; rfl
    subst hT
    intro a ha hs hl
    refine h3 a ha fun c hc => ?_
    simp only [Table.cs, List.mem_cons, List.not_mem_nil, or_false] at hc
    rcases hc with rfl | rfl
    · exact hs
    · exact hl

/-- The search afterwards, which still has four solutions. -/
theorem searches : ∃ s s' res has s2 t, Sys.initialise Table.S.order (Sys.start Table.start [] () Table.S.watches) = .ok (true, s) ∧ run Table.S.engine [Table.x, Table.y] 12 s = .ok (some rows, s') ∧
    search Table.env 12 1 none s' = .ok ((res, has, s2, t), true) ∧ t.found.length = 4 := by
  have h : (match Sys.initialise Table.S.order (Sys.start Table.start [] () Table.S.watches) with
    | .ok (true, s) => (match run Table.S.engine [Table.x, Table.y] 12 s with
      | .ok (some T, s') => (match search Table.env 12 1 none s' with | .ok ((_, _, _, t), true) => decide (T = rows ∧ t.found.length = 4) | _ => false)
      | _ => false)
    | _ => false) = true := by decide +kernel
  split at h
  · split at h
    · split at h
      · obtain ⟨rfl, h4⟩ := of_decide_eq_true h
        exact ⟨_, _, _, _, _, _, by assumption, by assumption, by assumption, h4⟩
      · cases h
    · cases h
  · cases h

example : ∃ found : List Doms, found.length = 4 ∧ ∀ a, (∀ c ∈ Table.cs, c.holds a) ∧ Within Table.start a ↔
    ∃ (i : Nat) (d : Doms), found[i]? = some d ∧ Within d a ∧ ∀ (j : Nat) (e : Doms), found[j]? = some e → Within e a → j = i := by
  obtain ⟨s, s', res, has, s2, t, h1, h2, h3, h4⟩ := searches
  exact ⟨t.found, h4, (autoTable_enumerates_partial Table.problem rfl (by decide) (by decide) h1 h2 rfl (by decide) (by decide) rfl h3).1⟩

/-! Two comparisons that contradict each other. -/

def pair : Doms := [[(0, 3)], [(0, 3)]]
def u : VarId := .simple 0
def v : VarId := .simple 1
def clash : List (Posted Unit Unit) := [⟨Comparison.lessThan u v, fun a => u.eval a < v.eval a, [u, v]⟩, ⟨Comparison.lessThan v u, fun a => v.eval a < u.eval a, [v, u]⟩]
def S : Setup Unit Unit := (Setup.create pair 0 (clash.map (·.install)) Setup.empty).toOption.getD Setup.empty
def search' : SearchEnv Unit Unit := { Table.env with engine := S.engine, branch := fun _ s => branchWith (dom [u, v]) largestFirst s.doms }

theorem uv_valid : ∀ w ∈ [u, v], w.Valid 2 := by decide

theorem clash_ok : ProblemServed 2 0 (· = .overflow) pair clash [] (fun _ _ => False) S search' [u, v] where
  domsOK := by decide +kernel
  domsLen := rfl
  statesLen := rfl
  overflow := rfl
  constraints := by
    intro i c hc
    rcases i with _ | _ | i
    · cases hc
      exact (lessThan_right (R := (· = .overflow)) (root := pair) (n := 2) (v1 := u) (v2 := v) rfl (by decide +kernel) rfl (by decide) (by decide)).1.serves _ _
    · cases hc
      exact (lessThan_right (R := (· = .overflow)) (root := pair) (n := 2) (v1 := v) (v2 := u) rfl (by decide +kernel) rfl (by decide) (by decide)).1.serves _ _
    · simp [clash] at hc
  apart := fun _ _ _ h => h.elim
  created := rfl
  branches := {
    valid := uv_valid
    shape := fun _ s hs => by
      have hl : s.doms.length = 2 := hs.call.domsLen
      refine ⟨_, _, rfl, (dom_chooses hs.call.domsOK (by rw [hl]; exact uv_valid)).mono fun _ h => h.picked, fun w hw ho => ?_, largestFirst_guesses⟩
      exact (largestFirst_branches hs.call.domsOK (by rw [hl]; exact uv_valid w hw) ho).mono fun _ h => h.1 }
  covered := by
    intro c hc w hw i hi
    have : w = u ∨ w = v := by
      simp only [clash, List.mem_cons, List.not_mem_nil, or_false] at hc
      rcases hc with rfl | rfl <;> simp at hw <;> rcases hw with rfl | rfl <;> simp
    rcases this with rfl | rfl
    · exact ⟨u, by simp, hi⟩
    · exact ⟨v, by simp, hi⟩
  objective := fun o ho => nomatch ho
  monotone := fun i j _ h => nomatch h

theorem clash_fails : ∃ s s', Sys.initialise S.order (Sys.start pair [] () S.watches) = .ok (true, s) ∧ run S.engine [u] 12 s = .ok (none, s') := by
  have h : (match Sys.initialise S.order (Sys.start pair [] () S.watches) with
    | .ok (true, s) => (match run S.engine [u] 12 s with | .ok (none, _) => true | _ => false)
    | _ => false) = true := by decide +kernel
  split at h
  · split at h
    · exact ⟨_, _, by assumption, by assumption⟩
    · cases h
  · cases h

/-- There is no search after that, and nothing is lost. -/
example : ∀ a, Within pair a → ¬ ∀ c ∈ clash, c.holds a := by
  obtain ⟨s, s', h1, h2⟩ := clash_fails
  exact autoTable_fails clash_ok rfl (by decide) (by decide) h1 h2

/-- The hypotheses about the table are met by these rows. -/
example : (posted (σ := Unit) (μ := Unit) 3 [Table.x, Table.y] rows Table.fresh Table.cache).Serves 4 0 (· = .overflow) (Table.start ++ [selector rows]) [] (fun _ => False) :=
  autoTable_item (root := Table.start) rfl (by decide) (by decide)
example : [Table.x, Table.y].map (·.eval fun i => if i = 0 then 1 else if i = 1 then 2 else 0) ∈ rows ↔ ∃ k, Within (Table.start ++ [selector rows]) (fun i => if i = 3 then k else if i = 0 then 1 else if i = 1 then 2 else 0) ∧
    Selected (rows.map (·.map some)) [Table.x, Table.y] (.simple 3) (fun i => if i = 3 then k else if i = 0 then 1 else if i = 1 then 2 else 0) :=
  (autoTable_implied (root := Table.start) (by decide) (by decide) (by decide) (a := fun i => if i = 0 then 1 else if i = 1 then 2 else 0) (by
    intro i d hd
    rcases i with _ | _ | _ | i
    · cases hd; simp [Mem]
    · cases hd; simp [Mem]
    · cases hd; simp [Mem]
    · simp [Table.start] at hd)).1

end AutoTable
end Gcs
