import Verif.Lemmas.Cons.Table
import Verif.Lemmas.Cons.AllDifferentInstall
import Verif.Props.Hidden
import Verif.Props.Heuristics
import Verif.Props.Cons.Comparison
import Verif.Props.Cons.Run

/-!
# C42: Table
-/

namespace Gcs
open IntervalSet

section
variable {σ μ : Type} {n m : Nat} {R : Err → Prop} {root : Doms} {vars : List VarId} {sel : VarId} {tuples : List (List (Option Int))} {fresh : Nat → Bool} {cache : Nat → Nat → Int → Option Nat} {z0 : List σ}

/-- `Table(vars, tuples)` as a constraint on the variables and the selector. -/
abbrev Table.posted (sel : VarId) (vars : List VarId) (tuples : List (List (Option Int))) (fresh : Nat → Bool) (cache : Nat → Nat → Int → Option Nat) : Posted σ μ :=
  ⟨fun _ => Table.install sel vars tuples fresh cache, Selected tuples vars sel, vars⟩

/-- C42: what is installed is right, whatever was remembered from earlier calls, if the selector starts with the numbers of the tuples. Only the columns need to be branched on. Posting throws only if
a tuple has the wrong length. -/
theorem table_right (ho : R .overflow) (hs : sel.Valid root.length) (hv : ∀ v ∈ vars, v.Valid root.length) (ht : ∀ t ∈ tuples, ∀ x, some x ∈ t → InI64 x)
    (hsel : tuples ≠ [] → ∀ a, Within root a → 0 ≤ sel.eval a ∧ sel.eval a < tuples.length) :
    (Table.posted (σ := σ) (μ := μ) sel vars tuples fresh cache).Serves root.length m R root z0 (fun _ => False) ∧
    ∀ e, Table.install (σ := σ) (μ := μ) sel vars tuples fresh cache = .error e → e = .invalidProblem ∧ ∃ t ∈ tuples, t.length ≠ vars.length := by
  by_cases h0 : tuples = []
  · subst h0
    have ok : (Table.posted (σ := σ) (μ := μ) sel vars [] fresh cache).OK root.length m R root := by
      intro items e
      simp only [Table.install, if_true, Except.ok.injEq] at e
      subst e
      exact AllDifferent.refuse_ok fun a _ ⟨k, t, _, h, _⟩ => by simp at h
    exact ⟨ok.serves z0 _, fun e he => by simp [Table.install] at he⟩
  by_cases hw : ∃ t ∈ tuples, t.length ≠ vars.length
  · have e0 : Table.install (σ := σ) (μ := μ) sel vars tuples fresh cache = .error .invalidProblem := by
      rw [Table.install, if_neg h0, if_pos (by simpa using hw)]
    refine ⟨fun items e => ?_, fun e he => ?_⟩
    · dsimp only at e; rw [e0] at e; cases e
    · rw [e0] at he; cases he; exact ⟨rfl, hw⟩
  · have e0 : Table.install (σ := σ) (μ := μ) sel vars tuples fresh cache = .ok ([] ++ [.prop (Table.prop sel vars tuples fresh cache) { onChange := vars ++ [sel] }]) := by
      rw [Table.install, if_neg h0, if_neg (by simpa using hw)]; rfl
    refine ⟨fun items e => ?_, fun e he => by rw [e0] at he; cases he⟩
    dsimp only at e
    rw [e0] at e; cases e
    exact (Inits.nil (e := fun _ => True) fun _ _ => trivial).served
      (Table.prop_serves ho hs hv ⟨fun t h => Classical.byContradiction fun hn => hw ⟨t, h, hn⟩, ht⟩) (fun _ h => h) (fun a _ => ⟨fun h => ⟨trivial, h⟩, fun h => h.2⟩) (fun d d' hs hi => hi.sub hs)
      fun d _ _ hq => Inverse.inside_of fun a ha v hv => by
        rw [List.mem_singleton] at hv; subst hv
        have := hsel h0 a (hq a ha).1
        omega

/-- What a selected tuple says about the variables themselves. -/
theorem Selected.inTable {a : Asg} (h : Selected tuples vars sel a) : InTable tuples vars a := by
  obtain ⟨k, t, _, h2, h3⟩ := h
  exact ⟨t, List.mem_of_getElem? h2, h3⟩

/-- Values of variables that do not matter. -/
theorem Matches.congr {t : List (Option Int)} {a b : Asg} (h : ∀ v ∈ vars, v.eval a = v.eval b) : Matches t vars a ↔ Matches t vars b := by
  constructor
  · intro k p v e hp he; rw [← h v (List.mem_of_getElem? hp)]; exact k p v e hp he
  · intro k p v e hp he; rw [h v (List.mem_of_getElem? hp)]; exact k p v e hp he

theorem VarId.eval_congr {v : VarId} {a b : Asg} (h : ∀ i, v.underlyingIndex = some i → a i = b i) : v.eval a = v.eval b := by
  cases v with
  | const c => rfl
  | simple i => exact h i rfl
  | view i ng k => simp only [VarId.eval]; rw [h i rfl]

/-- C42: with a selector that nothing else is about and whose values are the numbers of the tuples, the constraint means that the variables match one of the tuples. -/
theorem table_means {s : Nat} {all : Nat → Prop} {sd : IntervalSet} (hs : root[s]? = some sd) (hsd : tuples ≠ [] → ∀ k : Int, Mem k sd ↔ 0 ≤ k ∧ k < tuples.length) (hall : all s)
    (hoff : ∀ v ∈ vars, ∀ i, v.underlyingIndex = some i → ¬ all i) :
    Means root (· = s) all (Table.posted (σ := σ) (μ := μ) (.simple s) vars tuples fresh cache) (InTable tuples vars) where
  ignores a b hab := by
    have h1 : ∀ v ∈ vars, v.eval a = v.eval b := fun v hv => VarId.eval_congr fun i hi => hab i fun h => hoff v hv i hi h.1
    have h2 : a s = b s := hab s fun h => h.2 rfl
    constructor
    · rintro ⟨k, t, e, h3, h4⟩; exact ⟨k, t, h2.symm.trans e, h3, (Matches.congr h1).1 h4⟩
    · rintro ⟨k, t, e, h3, h4⟩; exact ⟨k, t, h2.trans e, h3, (Matches.congr h1).2 h4⟩
  iff a ha := by
    constructor
    · rintro ⟨t, ht, hm⟩
      obtain ⟨k, hk⟩ := List.mem_iff_getElem?.1 ht
      have hlt := (List.getElem?_eq_some_iff.1 hk).1
      refine ⟨fun i => if i = s then (k : Int) else a i, fun v hv => if_neg hv, fun i d hi => ?_, k, t, by simp [VarId.eval], hk, (Matches.congr fun v hv => ?_).1 hm⟩
      · by_cases his : i = s
        · subst his
          rw [hs] at hi; cases hi
          simp only [if_true]
          exact (hsd (List.ne_nil_of_mem ht) k).2 ⟨by omega, by omega⟩
        · simp only [if_neg his]; exact ha i d hi
      · refine VarId.eval_congr fun i hi => (if_neg fun e => ?_).symm
        subst e
        exact hoff v hv i hi hall
    · rintro ⟨b, hba, _, hsel⟩
      obtain ⟨t, ht, hm⟩ := hsel.inTable
      refine ⟨t, ht, (Matches.congr fun v hv => VarId.eval_congr fun i hi => hba i fun e => ?_).1 hm⟩
      subst e
      exact hoff v hv i hi hall

/-- C42, C49: generalised arc consistency. When the propagator has run without failing, every value that is left of one of the variables is part of an assignment within the domains that matches a tuple that is left,
if no two columns are views of the same variable. If it fails, there is no such assignment. -/
theorem table_consistent {c : Ctx} {s s' : Sys σ μ} {r : Res PState} (hs : sel.Valid n) (hv : ∀ v ∈ vars, v.Valid n) (ht : ∀ t ∈ tuples, t.length = vars.length ∧ ∀ x, some x ∈ t → InI64 x)
    (hrun : Runnable n m s) (hin : ∀ a, Within s.doms a → 0 ≤ sel.eval a ∧ sel.eval a < tuples.length) (hr : runProg c (Table.prop sel vars tuples fresh cache) s = .ok (r, s')) :
    (Failed r s' → ∀ a, Within s.doms a → ¬ Selected tuples vars sel a) ∧
    (¬ Failed r s' → ((vars ++ [sel]).filterMap VarId.underlyingIndex).Nodup → ∀ v ∈ vars, ∀ y, Poss s'.doms v y → ∃ a, Within s'.doms a ∧ v.eval a = y ∧ Selected tuples vars sel a) := by
  have hin' : ∀ k, Poss s.doms sel k → 0 ≤ k ∧ k < tuples.length := by rintro k ⟨a, ha, rfl⟩; exact hin a ha
  have ver := ver_facts _ _ hrun.domsOK hrun.domsLen (Table.prop_ver (σ := σ) (μ := μ) (J := { n, m, R := (· = .overflow), C := Selected tuples vars sel }) rfl hs hv ⟨fun t h => (ht t h).1, fun t h => (ht t h).2⟩ (fun _ h => h)
    fresh cache hrun.domsOK hrun.domsLen hin')
  refine ⟨fun hf a ha hA => ?_, fun hf hn v hv' y hy => ?_⟩
  · exact (sound_run (np := c.owner + 1) c (Nat.lt_succ_self _) _ s (Ver.okAt _ _ ver) (Ver.soundAt (J := { n, m, R := (· = .overflow), C := Selected tuples vars sel }) hA _ _ ver ha) hrun ha _ _ hr).1 hf
  · have h := wp_run (np := c.owner + 1) c (Nat.lt_succ_self _) _ s (Ver.okAt _ _ ver) (Ver.wp _ _ ver) hrun r s' hr hf
    obtain ⟨ps, _, ⟨hd', hl', hs'⟩, _, _, h2⟩ := h
    have hsep := Table.separate_of_nodup hn
    obtain ⟨i, hi⟩ := List.mem_iff_getElem?.1 hv'
    obtain ⟨k, hk, t, e, e1, e2, e3⟩ := (h2 hsep).2 i v hi y hy
    obtain ⟨t', e1', hcan⟩ := (h2 hsep).1 k hk
    rw [e1] at e1'; cases e1'
    obtain ⟨w, hw⟩ := exists_within hd'
    have hlen : t.length = vars.length := (ht t (List.mem_of_getElem? e1)).1
    -- values for the columns and the selector
    let f : Nat → Int := fun p => if p = i then y else if p = vars.length then k else match t[p]? with | some (some x) => x | _ => ((vars[p]?.map (·.eval w)).getD 0)
    have hi' : i < vars.length := (List.getElem?_eq_some_iff.1 hi).1
    obtain ⟨a, ha, hae⟩ := exists_values hd' (vars ++ [sel]) hn f (by
      intro p u hp
      by_cases hpi : p = i
      · subst hpi
        rw [List.getElem?_append_left hi', hi] at hp; cases hp
        simp only [f, if_true]; exact hy
      · by_cases hpl : p = vars.length
        · subst hpl
          simp at hp; subst hp
          simp only [f, if_neg hpi, if_true]; exact hk
        · have hplt : p < vars.length := by
            have := (List.getElem?_eq_some_iff.1 hp).1
            simp at this; omega
          rw [List.getElem?_append_left hplt] at hp
          simp only [f, if_neg hpi, if_neg hpl]
          split
          · rename_i x hx; exact hcan p u x hp hx
          · rw [hp]; exact hw.poss u)
    have hsel : sel.eval a = k := by
      rw [hae vars.length sel (by simp)]
      simp only [f, if_neg (show vars.length ≠ i by omega), if_true]
    refine ⟨a, ha, ?_, k.toNat, t, ?_, e1, fun p u z hp hz => ?_⟩
    · rw [hae i v (by rw [List.getElem?_append_left hi']; exact hi)]; simp only [f, if_true]
    · have := hin' k (Inverse.Poss.mono hs' hk); omega
    · have hplt := (List.getElem?_eq_some_iff.1 hp).1
      rw [hae p u (by rw [List.getElem?_append_left hplt]; exact hp)]
      by_cases hpi : p = i
      · subst hpi
        rw [e2] at hz; cases hz
        simp only [f, if_true]; exact e3
      · simp only [f, if_neg hpi, if_neg (show p ≠ vars.length by omega)]
        cases z with
        | none => exact .inl rfl
        | some x => rw [hz]; exact .inr rfl

end

namespace Table

/-! Two columns, of which the second is a view, and a table with wildcards whose rows overlap. The variable with number 2 is the selector. -/
def x : VarId := .simple 0
def y : VarId := .view 1 false 1
def rows : List (List (Option Int)) := [[some 1, none], [none, some 2], [some 0, some 3], [some 5, some 1]]
def start : Doms := [[(0, 2)], [(0, 2)], [(0, 3)]]
def fresh : Nat → Bool := fun k => decide (k = 0)
/-- Something useless was remembered. -/
def cache : Nat → Nat → Int → Option Nat := fun k i _ => if k = 0 then none else some (k + i)
def cs : List (Posted Unit Unit) := [posted (.simple 2) [x, y] rows fresh cache, ⟨Comparison.lessThan x y, fun a => x.eval a < y.eval a, [x, y]⟩]
def S : Setup Unit Unit := (Setup.create start 0 (cs.map (·.install)) Setup.empty).toOption.getD Setup.empty

def env : SearchEnv Unit Unit where
  engine := S.engine
  abort := fun _ => false
  branch := fun _ s => branchWith (dom [x, y]) largestFirst s.doms
  solution := fun _ _ => true
  trace := fun _ _ => true
  minimise := none
  learn := none

theorem xy_valid : ∀ v ∈ [x, y], v.Valid 3 := by decide

theorem branches : BranchesOn 3 0 env [x, y] where
  valid := xy_valid
  shape := fun _ s hs => by
    have hl : s.doms.length = 3 := hs.call.domsLen
    refine ⟨_, _, rfl, (dom_chooses hs.call.domsOK (by rw [hl]; exact xy_valid)).mono fun _ h => h.picked, fun v hv ho => ?_, largestFirst_guesses⟩
    exact (largestFirst_branches hs.call.domsOK (by rw [hl]; exact xy_valid v hv) ho).mono fun _ h => h.1

theorem within_sel {a : Asg} (ha : Within start a) : 0 ≤ a 2 ∧ a 2 < 4 := by
  have := ha 2 [(0, 3)] rfl
  simp [Mem] at this; omega

theorem rows_ok : ∀ t ∈ rows, ∀ x, some x ∈ t → InI64 x := by
  intro t ht x hx
  simp only [rows, List.mem_cons, List.not_mem_nil, or_false] at ht
  rcases ht with rfl | rfl | rfl | rfl <;> simp at hx
  · subst hx; decide
  · subst hx; decide
  · rcases hx with rfl | rfl <;> decide
  · rcases hx with rfl | rfl <;> decide

theorem problem : ProblemServed 3 0 (· = .overflow) start cs [] (fun _ _ => False) S env [x, y] where
  domsOK := by decide +kernel
  domsLen := rfl
  statesLen := rfl
  overflow := rfl
  constraints := by
    intro i c hc
    rcases i with _ | _ | i
    · cases hc
      exact (table_right (R := (· = .overflow)) (root := start) (sel := .simple 2) (vars := [x, y]) (tuples := rows) rfl (by decide) (by decide) rows_ok fun _ a ha => within_sel ha).1
    · cases hc
      exact (lessThan_right (R := (· = .overflow)) (root := start) (n := 3) (v1 := x) (v2 := y) rfl (by decide +kernel) rfl (by decide) (by decide)).1.serves _ _
    · simp [cs] at hc
  apart := fun _ _ _ h => h.elim
  created := rfl
  branches := branches
  covered := by
    intro c hc v hv i hi
    have : v = x ∨ v = y := by
      simp only [cs, List.mem_cons, List.not_mem_nil, or_false] at hc
      rcases hc with rfl | rfl <;> simpa using hv
    rcases this with rfl | rfl
    · exact ⟨x, by simp, hi⟩
    · exact ⟨y, by simp, hi⟩
  objective := fun o ho => nomatch ho
  monotone := fun i j _ h => nomatch h

/-- The selector belongs to the first constraint. -/
def hid (i v : Nat) : Prop := i = 0 ∧ v = 2
def means (i : Nat) (a : Asg) : Prop := if i = 0 then InTable rows [x, y] a else x.eval a < y.eval a

theorem hidden : HiddenOK start cs hid means [x, y] where
  means := by
    intro i c hc
    rcases i with _ | _ | i
    · cases hc
      have h := table_means (σ := Unit) (μ := Unit) (fresh := fresh) (cache := cache) (root := start) (s := 2) (sd := [(0, 3)]) (tuples := rows) (vars := [x, y]) (all := fun v => ∃ j, hid j v) rfl
        (fun _ k => by simp [Mem, rows]; omega) ⟨0, rfl, rfl⟩ (by rintro v hv i hi ⟨_, _, rfl⟩; simp at hv; rcases hv with rfl | rfl <;> cases hi)
      have e : hid 0 = (· = 2) := by funext v; simp [hid]
      rw [e]; exact h
    · cases hc
      have e : hid 1 = fun _ => False := by funext v; simp [hid]
      rw [e]
      refine Means.plain fun a b hab => ?_
      have h0 : a 0 = b 0 := hab 0 (by rintro ⟨_, _, h⟩; cases h)
      have h1 : a 1 = b 1 := hab 1 (by rintro ⟨_, _, h⟩; cases h)
      simp only [x, y, VarId.eval, h0, h1]
    · simp [cs] at hc
  apart := by rintro i j v ⟨rfl, _⟩ ⟨rfl, _⟩; rfl
  vars := by
    rintro v hv i hi j ⟨_, rfl⟩
    simp at hv
    rcases hv with rfl | rfl <;> cases hi

/-- Two of the rows match the second solution reported, and the selector is left with both. -/
theorem runs : ∃ res has s' t, solve env S 12 1 none (Sys.start start [] () S.watches) = .ok ((res, has, s', t), true) ∧
    t.found = [[[(1, 1)], [(2, 2)], [(0, 0)]], [[(1, 1)], [(1, 1)], [(0, 1)]], [[(0, 0)], [(2, 2)], [(2, 2)]], [[(0, 0)], [(1, 1)], [(1, 1)]]] := by
  have h : (match solve env S 12 1 none (Sys.start start [] () S.watches) with
    | .ok ((_, _, _, t), true) => decide (t.found = [[[(1, 1)], [(2, 2)], [(0, 0)]], [[(1, 1)], [(1, 1)], [(0, 1)]], [[(0, 0)], [(2, 2)], [(2, 2)]], [[(0, 0)], [(1, 1)], [(1, 1)]]])
    | _ => false) = true := by decide +kernel
  split at h
  · exact ⟨_, _, _, _, by assumption, of_decide_eq_true h⟩
  · cases h

/-- What the theorem says about this run: `x = 1`, `y = 2` matches two rows, and is reported once. -/
example : ∃ found : List Doms, found.length = 4 ∧ ∀ a, Within start a → (InTable rows [x, y] a ∧ x.eval a < y.eval a ↔
    ∃ (i : Nat) (d : Doms), found[i]? = some d ∧ (∃ b, Within d b ∧ Seen hid b a) ∧ ∀ (j : Nat) (e : Doms), found[j]? = some e → (∃ b, Within e b ∧ Seen hid b a) → j = i) := by
  obtain ⟨res, has, s', t, h, hf⟩ := runs
  refine ⟨t.found, by rw [hf]; rfl, fun a ha => ?_⟩
  rw [← hidden_enumerates problem hidden rfl rfl (depthFuel := 12) (fuel := 1) (by decide) (by decide) rfl h a ha]
  constructor
  · rintro ⟨h1, h2⟩ i c hc
    rcases i with _ | _ | i
    · exact h1
    · exact h2
    · simp [cs] at hc
  · exact fun hm => ⟨hm 0 _ rfl, hm 1 _ rfl⟩

/-- No tuples: no solutions. A tuple of the wrong length: posting throws. -/
example : Run.run start [fun _ => install (.simple 2) [x, y] [] fresh cache] = some ([], true) := by decide +kernel
example : install (σ := Unit) (μ := Unit) (.simple 2) [x, y] [[some 1, none], [some 1]] fresh cache = .error .invalidProblem := rfl

/-- The propagator, where a value of the second column has to go that is in a row whose first value has gone. -/
example : Run.run [[(0, 1), (3, 3)], [(0, 5)], [(0, 2)]] [fun _ => install (.simple 2) [.simple 0, .simple 1] [[some 2, some 5], [some 0, some 1], [some 3, some 4]] fresh cache] =
    some ([[[(0, 0)], [(1, 1)], [(1, 1)]], [[(3, 3)], [(4, 4)], [(2, 2)]]], true) := by decide +kernel

end Table
end Gcs
