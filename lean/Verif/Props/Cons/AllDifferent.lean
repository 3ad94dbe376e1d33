import Verif.Lemmas.Cons.AllDifferentInstall
import Verif.Props.Cons.Run
import Verif.Props.Cons.Demo
import Verif.Props.Stateful

/-!
# C39: all-different constraints
-/

namespace Gcs
open IntervalSet

section
variable {σ μ : Type} {n m : Nat} {R : Err → Prop} {root : Doms} {vars : List VarId} {vals excluded : List Int} {old : Nat → List (Option Nat)}

/-- C39: `AllDifferentExcept(vars, excluded)`: no two of the variables have the same value unless it is one of `excluded`. Posting throws only if a value is not a 64-bit integer. Whatever earlier calls left
of their matching, as long as no value is in it twice. -/
theorem allDifferentExcept_right (ho : R .overflow) (hd : DomsOK root) (hv : ∀ v ∈ vars, v.Valid root.length) (he : ∀ y ∈ excluded, InI64 y) (hold : ∀ k, Gac.Injective (old k)) :
    (Posted.mk (AllDifferentExcept.install (σ := σ) (μ := μ) vars excluded old) (DifferExcept vars excluded) vars).Right root.length m R root (· = .overflow) :=
  AllDifferentExcept.install_right ho hd hv he hold

/-- C39: what a call leaves of its matching is such. -/
theorem matching_left (G : Gac.Graph) {old : List (Option Nat)} (ho : Gac.Injective old) : ∃ N, Gac.build G old = .ok N ∧ Gac.Injective ((List.range G.nL).map N.m) := by
  obtain ⟨N, h, _⟩ := Gac.build_spec (G := G) ho
  exact ⟨N, h, Gac.build_injective ho h⟩

/-- C39: the matching and the strongly connected components give exactly the edges to delete: either there is no way of giving all variables different values, or the edges deleted are those that are part
of no such way. -/
theorem matching_prunes (G : Gac.Graph) (hw : G.WF) {old : List (Option Nat)} (ho : Gac.Injective old) :
    (Gac.prune G old = .ok none ∧ ∀ c, ¬ Gac.Choice G c) ∨
    ∃ dels, Gac.prune G old = .ok (some dels) ∧ (∃ c, Gac.Choice G c) ∧ ∀ i r, (i, r) ∈ dels ↔ i < G.nL ∧ r ∈ G.adj i ∧ r < G.nVals ∧ ∀ c, Gac.Choice G c → c i ≠ r :=
  Gac.prune_spec hw ho

/-- C39: generalised arc consistency. `vals` are the values the variables could have when the constraint was posted, but for those excluded. When the propagator has run without failing, every value that is
left of one of the variables is part of an assignment within the domains that satisfies the constraint, if no two of the variables are views of the same; and if it fails there is none. -/
theorem allDifferent_consistent {c : Ctx} {s s' : Sys σ μ} {r : Res Unit} (hd : DomsOK root) (hl : root.length = n) (hv : ∀ v ∈ vars, v.Valid n) (he : ∀ y ∈ excluded, InI64 y) (hold : ∀ k, Gac.Injective (old k))
    (hvals : AllDifferent.compress root excluded [] vars = .ok vals) (hs : Runnable n m s) (hsub : ∀ a, Within s.doms a → Within root a) (hr : runProg c (AllDifferent.gac vars vals excluded old) s = .ok (r, s')) :
    (Failed r s' → ∀ a, Within s.doms a → ¬ DifferExcept vars excluded a) ∧
    (¬ Failed r s' → (vars.filterMap VarId.underlyingIndex).Nodup → ∀ v ∈ vars, ∀ y, Poss s'.doms v y → ∃ a, Within s'.doms a ∧ v.eval a = y ∧ DifferExcept vars excluded a) := by
  obtain ⟨v1, v2, v3⟩ := (AllDifferent.compress_roo hd vars [] .nil (by simp) fun v h => hl.symm ▸ hv v h).value hvals
  have hval : AllDifferent.Values root vars vals excluded := AllDifferent.values_of he v1 v2 fun y => by rw [v3]; simp
  have ver := AllDifferent.gac_ver (σ := σ) (μ := μ) (J := { n, m, R := (· = .overflow), C := fun a => Within root a ∧ DifferExcept vars excluded a }) rfl hval hv hold (fun _ h => h) hs.domsOK hs.domsLen
  refine ⟨fun hf a ha hA => ?_, fun hf hn v hv y hy => ?_⟩
  · exact (sound_run (np := c.owner + 1) c (Nat.lt_succ_self _) _ s (Ver.okAt _ _ ver) (Ver.soundAt (J := { n, m, R := (· = .overflow), C := fun a => Within root a ∧ DifferExcept vars excluded a }) ⟨hsub a ha, hA⟩ _ _ ver ha) hs ha _ _ hr).1 hf
  · obtain ⟨_, _, h⟩ := wp_run (np := c.owner + 1) c (Nat.lt_succ_self _) _ s (Ver.okAt _ _ ver) (Ver.wp _ _ ver) hs r s' hr hf
    obtain ⟨i, hi⟩ := List.mem_iff_getElem?.1 hv
    obtain ⟨b, hb, rfl⟩ := hy
    have hb' := (h.2 b).1 hb
    -- values for all variables, with the right one here
    have key : ∃ f, AllDifferent.Sel s.doms vars vals excluded f ∧ f i = v.eval b := by
      rcases hval.all v hv _ ((hsub b hb'.1).poss v) with hm | hm
      · exact hb'.2 i v hi hm
      · obtain ⟨f, hf⟩ := h.1
        refine ⟨fun j => if j = i then v.eval b else f j, fun j w hw => ?_, by simp⟩
        by_cases hji : j = i
        · subst hji
          rw [hi] at hw; cases hw
          simp only [if_pos]
          exact ⟨hb'.1.poss v, .inr hm, fun _ _ _ _ => hm⟩
        · simp only [if_neg hji]
          refine ⟨(hf j w hw).1, (hf j w hw).2.1, fun k hk hjk e => ?_⟩
          by_cases hki : k = i
          · rw [if_pos hki] at e; rw [e]; exact hm
          · rw [if_neg hki] at e; exact (hf j w hw).2.2 k hk hjk e
    obtain ⟨f, hf, hfi⟩ := key
    obtain ⟨a, ha, e⟩ := h.keeps hs.domsOK hn hf
    refine ⟨a, ha, by rw [e i v hi, hfi], fun j k x z hx hz hjk hE => ?_⟩
    rw [e j x hx, e k z hz] at hE
    rw [e j x hx]
    exact (hf j x hx).2.2 k (List.getElem?_eq_some_iff.1 hz).1 hjk hE

variable {B : Kind σ (List VarId)} {h : Nat} {z0 : List σ}

/-- C39: `AllDifferent(vars)`, with generalised arc consistency: what is installed is right, whether or not there is a first stage, given that the constraint state with the handle `h` starts as what
`prepare` adds. Posting throws only if a value is not a 64-bit integer. -/
theorem allDifferent_right (ho : R .overflow) (hd : DomsOK root) (hv : ∀ v ∈ vars, v.Valid root.length) (hold : ∀ k, Gac.Injective (old k)) (hz : ∀ l, AllDifferent.stateOf .gac vars root = .ok (some l) → z0[h]? = some (B.put l)) :
    (Posted.mk (AllDifferent.install (σ := σ) (μ := μ) .gac vars B h old) (fun a => (vars.map (·.eval a)).Nodup) vars).Serves root.length m R root z0 (· = h) ∧
    ∀ e, AllDifferent.install (σ := σ) (μ := μ) .gac vars B h old root = .error e → e = .overflow := by
  have key := AllDifferent.install_ok (μ := μ) (m := m) ho hd hv hold hz (fun e => nomatch e)
  exact ⟨fun items e => key.value e, fun e he => by rcases key with k | ⟨_, k, _⟩ <;> rw [k] at he <;> cases he; rfl⟩

/-- C39: `AllDifferent(vars).with_consistency(consistency::VC{})`. Missing: variables that have a value already when the constraint is posted are never looked at (`vc_accepts_equal`). So this is for the case
that no such value is possible for another of the variables. -/
theorem allDifferentVC_right_partial (ho : R .overflow) (hd : DomsOK root) (hv : ∀ v ∈ vars, v.Valid root.length) (hz : ∀ l, AllDifferent.stateOf .vc vars root = .ok (some l) → z0[h]? = some (B.put l))
    (hfix : ∀ x ∈ vars, ∀ y ∈ vars, x ≠ y → ∀ v, Pinned root x v → ¬ Poss root y v) :
    (Posted.mk (AllDifferent.install (σ := σ) (μ := μ) .vc vars B h (fun _ => [])) (fun a => (vars.map (·.eval a)).Nodup) vars).Serves root.length m R root z0 (· = h) ∧
    ∀ e, AllDifferent.install (σ := σ) (μ := μ) .vc vars B h (fun _ => []) root = .error e → e = .overflow := by
  have key := AllDifferent.install_ok (μ := μ) (m := m) (old := fun _ => []) ho hd hv (fun _ => fun i j r hi => by simp at hi) hz (fun _ => hfix)
  exact ⟨fun items e => key.value e, fun e he => by rcases key with k | ⟨_, k, _⟩ <;> rw [k] at he <;> cases he; rfl⟩

/-- C49: value consistency. If the variables not in the list `u` are done, and no two variables are views of the same, then when the pass has run without failing, no value that one of the variables is fixed to is
left for any other; and if it fails, the constraint cannot be satisfied. -/
theorem allDifferentVC_consistent {c : Ctx} {s s' : Sys σ μ} {r : Res (Option (List VarId))} {u : List VarId} (hn : vars.Nodup) (hv : ∀ v ∈ vars, v.Valid n) (hs : Runnable n m s)
    (hi : AllDifferent.Inv vars True s.doms u []) (hr : runProg c (AllDifferent.pass u) s = .ok (r, s')) :
    (Failed r s' → ∀ a, Within s.doms a → ¬ (vars.map (·.eval a)).Nodup) ∧
    (¬ Failed r s' → (vars.filterMap VarId.underlyingIndex).Nodup → ∀ x ∈ vars, ∀ v, Pinned s'.doms x v → ∀ y ∈ vars, y ≠ x → ¬ Poss s'.doms y v) := by
  have ver := AllDifferent.pass_ver (σ := σ) (μ := μ) (J := { n, m, R := (· = .overflow), C := fun a => (vars.map (·.eval a)).Nodup }) (F := True) (D := (vars.filterMap VarId.underlyingIndex).Nodup) rfl
    (fun a ha => (AllDifferent.differ_all hn).1 (differExcept_nil.2 ha)) hv id hs.domsOK hs.domsLen hi
  refine ⟨fun hf a ha hA => ?_, fun hf hD x hx v hp y hy hne => ?_⟩
  · exact (sound_run (np := c.owner + 1) c (Nat.lt_succ_self _) _ s (Ver.okAt _ _ ver) (Ver.soundAt (J := { n, m, R := (· = .overflow), C := fun a => (vars.map (·.eval a)).Nodup }) hA _ _ ver ha) hs ha _ _ hr).1 hf
  · obtain ⟨_, _, q, _, h1, h2, _⟩ := wp_run (np := c.owner + 1) c (Nat.lt_succ_self _) _ s (Ver.okAt _ _ ver) (Ver.wp _ _ ver) hs r s' hr hf
    rintro ⟨b, hb, e⟩
    rcases h1.done trivial x hx with k | ⟨p, hp, _⟩ | ⟨w, k1, k2⟩
    · exact h2 hD x k fun a a' ha ha' => (hp a ha).trans (hp a' ha').symm
    · cases hp
    · exact k2 y hy hne b hb (by rw [e, ← hp b hb, k1 b hb])

end

/-! Concrete cases of the hypotheses, and runs. -/

namespace AllDifferent

def doms : Doms := [[(0, 1)], [(0, 1)], [(0, 3)]]
def vars : List VarId := [.simple 0, .view 1 true 1, .simple 2]

example : DomsOK doms ∧ (∀ v ∈ vars, v.Valid doms.length) ∧ (∀ y ∈ [3, 7], InI64 y) ∧ (vars.filterMap VarId.underlyingIndex).Nodup := by decide +kernel
example : Gac.Injective [some 2, none, some 0] := by
  intro i j r hi hj
  rcases i with _ | _ | _ | i <;> rcases j with _ | _ | _ | j <;> simp at hi hj <;> first | rfl | omega
/-- The constraint is satisfied by some assignments and not by others. -/
example : DifferExcept vars [3] (fun i => [0, 0, 2].getD i 0) ∧ ¬ DifferExcept vars [3] (fun i => [0, 1, 2].getD i 0) := by
  constructor
  · rw [differExcept_iff]; simp [vars, Differ2, VarId.eval]
  · rw [differExcept_iff]; simp [vars, Differ2, VarId.eval]
/-- Two of the variables take 0 and 1, which the third then cannot have. -/
example : (runProg ⟨0, []⟩ (gac (σ := Unit) (μ := Unit) vars [0, 1, 2, 3] [] fun _ => []) (Sys.start doms [] () (Run.setup doms []).watches)).toOption.map (fun p => (p.1, p.2.doms, p.2.tr.contradicted)) =
    some (.val (), [[(0, 1)], [(0, 1)], [(2, 3)]], false) := by decide +kernel
/-- With 1 excluded: the first variable is 0, so the others are not, and they may both be 1. -/
example : (runProg ⟨0, []⟩ (gac (σ := Unit) (μ := Unit) [.simple 0, .simple 1, .simple 2] [0, 2, 3] [1] fun _ => []) (Sys.start [[(0, 0)], [(0, 1)], [(0, 3)]] [] () (Run.setup doms []).watches)).toOption.map
      (fun p => (p.1, p.2.doms, p.2.tr.contradicted)) = some (.val (), [[(0, 0)], [(1, 1)], [(1, 3)]], false) := by decide +kernel
/-- All the solutions, with a variable that occurs twice. -/
example : Run.run [[(0, 1)], [(0, 1)]] [AllDifferentExcept.install [.simple 1, .simple 0, .simple 1] [0, 5] fun _ => []] = some ([[[(0, 0)], [(0, 0)]], [[(1, 1)], [(0, 0)]]], true) := by decide +kernel

/-! Constraint states that are lists of variables. -/

def kind : Kind (List VarId) (List VarId) := ⟨id, some, fun _ => rfl⟩

/-- The code reports `x = y = 1` as a solution of `AllDifferent{x, y}` with value consistency, if `x` is 1 from the start. -/
theorem vc_accepts_equal : stateOf .vc [.simple 0, .simple 1] [[(1, 1)], [(1, 2)]] = .ok (some [.simple 1]) ∧
    Run.runWith [[.simple 1]] [[(1, 1)], [(1, 2)]] [install .vc [.simple 0, .simple 1] kind 0 fun _ => []] = some ([[[(1, 1)], [(1, 1)]], [[(1, 1)], [(2, 2)]]], true) := by decide +kernel

/-- It finds out about it with generalised arc consistency, and if `x` gets its value later. -/
example : Run.runWith [] [[(1, 1)], [(1, 2)]] [install .gac [.simple 0, .simple 1] kind 0 fun _ => []] = some ([[[(1, 1)], [(2, 2)]]], true) := by decide +kernel
example : Run.runWith [[.simple 0, .simple 1]] [[(1, 2)], [(1, 2)]] [install .vc [.simple 0, .simple 1] kind 0 fun _ => []] = some ([[[(1, 1)], [(2, 2)]], [[(2, 2)], [(1, 1)]]], true) := by decide +kernel
/-- A repeated variable. -/
example : Run.runWith [] [[(1, 2)], [(1, 2)]] [install .vc [.simple 0, .simple 1, .simple 0] kind 0 fun _ => []] = some ([], true) := by decide +kernel

/-- Both stages of the staged propagator: a first call pushes a value, a second one prunes more. -/
example : (runProg ⟨0, []⟩ (stagedProp (μ := Unit) kind 0 vars [0, 1, 2, 3] fun _ => []) (Sys.start [[(0, 1)], [(1, 1)], [(0, 3)]] [vars] () (Run.setup doms []).watches)).toOption.map (fun p => (p.1, p.2.doms, p.2.top)) =
    some (.val .enable, [[(1, 1)], [(1, 1)], [(2, 3)]], [[.simple 2]]) := by decide +kernel
example : (runProg ⟨0, []⟩ (stagedProp (μ := Unit) kind 0 vars [0, 1, 2, 3] fun _ => []) (Sys.start doms [vars] () (Run.setup doms []).watches)).toOption.map (fun p => (p.1, p.2.doms, p.2.top)) =
    some (.val .enableButIdempotent, [[(0, 1)], [(0, 1)], [(2, 3)]], [vars]) := by decide +kernel

/-- It is staged if there are at least 256 pairs of a variable and a value. -/
example : (stateOf .gac ((List.range 16).map .simple) (List.replicate 16 [(1, 16)])).toOption = some (some ((List.range 16).map .simple)) ∧ stateOf .gac vars doms = .ok none := by decide +kernel

/-! A problem with states: the hypotheses of the theorems in `Props/Stateful.lean` are met. -/
namespace Problem

def root : Doms := [[(0, 2)], [(0, 1)], [(0, 1)]]
def xs : List VarId := [.simple 0, .view 1 false 0, .simple 2]
def sts : List (List VarId) := [[.simple 0, .simple 2, .view 1 false 0]]
def all : Posted (List VarId) Unit := ⟨install .vc xs kind 0 fun _ => [], fun a => (xs.map (·.eval a)).Nodup, xs⟩
def less : Posted (List VarId) Unit := ⟨Comparison.lessThan (.simple 1) (.simple 0), fun a => (VarId.simple 1).eval a < (VarId.simple 0).eval a, [.simple 1, .simple 0]⟩
def cs : List (Posted (List VarId) Unit) := [less, all]
def own (i k : Nat) : Prop := i = 1 ∧ k = 0
def S : Setup (List VarId) Unit := (Setup.create root 0 (cs.map (·.install)) Setup.empty).toOption.getD Setup.empty

def env : SearchEnv (List VarId) Unit where
  engine := S.engine
  abort := fun _ => false
  branch := fun _ s => branchWith (dom [.simple 0, .simple 1, .simple 2]) largestFirst s.doms
  solution := fun _ _ => true
  trace := fun _ _ => true
  minimise := none
  learn := none

theorem valid : ∀ v ∈ [VarId.simple 0, .simple 1, .simple 2], v.Valid 3 := by decide

theorem open_root : ∀ x ∈ xs, ∀ v, ¬ Pinned root x v := by
  have w0 : Within root (fun _ => 0) := by intro i s hs; rcases i with _ | _ | _ | i <;> simp [root] at hs <;> subst hs <;> simp [Mem]
  have w1 : Within root (fun _ => 1) := by intro i s hs; rcases i with _ | _ | _ | i <;> simp [root] at hs <;> subst hs <;> simp [Mem]
  intro x hx v hp
  have h0 := hp _ w0
  have h1 := hp _ w1
  simp only [xs, List.mem_cons, List.not_mem_nil, or_false] at hx
  rcases hx with rfl | rfl | rfl <;> simp [VarId.eval] at h0 h1 <;> omega

theorem problem : ProblemServed 3 1 (· = .overflow) root cs sts own S env [.simple 0, .simple 1, .simple 2] where
  domsOK := by decide +kernel
  domsLen := rfl
  statesLen := rfl
  overflow := rfl
  constraints i c hc := by
    rcases i with _ | _ | i
    · cases hc
      exact (lessThan_right (R := (· = .overflow)) (root := root) (n := 3) (v1 := .simple 1) (v2 := .simple 0) rfl (by decide +kernel) rfl (by decide) (by decide)).1.serves _ _
    · cases hc
      have := (allDifferentVC_right_partial (σ := List VarId) (μ := Unit) (m := 1) (R := (· = .overflow)) (root := root) (vars := xs) (B := kind) (h := 0) (z0 := sts) rfl (by decide +kernel) (by decide +kernel)
        (fun l e => by
          have : stateOf .vc xs root = .ok (some [.simple 0, .simple 2, .view 1 false 0]) := by decide +kernel
          rw [this] at e; cases e; rfl) fun x hx _ _ _ v hp => absurd hp (open_root x hx v)).1
      have e : own 1 = (· = 0) := by funext k; simp [own]
      rw [e]; exact this
    · cases hc
  apart i j k h1 h2 := h1.1.trans h2.1.symm
  created := rfl
  branches := ⟨valid, fun _ s hs => by
    have hl : s.doms.length = 3 := hs.call.domsLen
    refine ⟨_, _, rfl, (dom_chooses hs.call.domsOK (by rw [hl]; exact valid)).mono fun _ h => h.picked, fun v hv ho => ?_, largestFirst_guesses⟩
    exact (largestFirst_branches hs.call.domsOK (by rw [hl]; exact valid v hv) ho).mono fun _ h => h.1⟩
  covered c hc x hx v hv := by
    have : v = 0 ∨ v = 1 ∨ v = 2 := by
      simp only [cs, List.mem_cons, List.not_mem_nil, or_false] at hc
      rcases hc with rfl | rfl
      · simp only [less, List.mem_cons, List.not_mem_nil, or_false] at hx
        rcases hx with rfl | rfl <;> cases hv <;> simp
      · simp only [all, xs, List.mem_cons, List.not_mem_nil, or_false] at hx
        rcases hx with rfl | rfl | rfl <;> cases hv <;> simp
    rcases this with rfl | rfl | rfl
    · exact ⟨.simple 0, by simp, rfl⟩
    · exact ⟨.simple 1, by simp, rfl⟩
    · exact ⟨.simple 2, by simp, rfl⟩
  objective o ho := nomatch ho
  monotone i j _ h := nomatch h

def solutions : List Doms := [[[(2, 2)], [(1, 1)], [(0, 0)]], [[(2, 2)], [(0, 0)], [(1, 1)]]]

theorem runs : ∃ res has s' t, solve env S 12 1 none (Sys.start root sts () S.watches) = .ok ((res, has, s', t), true) ∧ t.found = solutions := by
  have h : (match solve env S 12 1 none (Sys.start root sts () S.watches) with
    | .ok ((_, _, _, t), true) => decide (t.found = solutions)
    | _ => false) = true := by decide +kernel
  split at h
  · exact ⟨_, _, _, _, by assumption, of_decide_eq_true h⟩
  · cases h

/-- So there are no other solutions. -/
example : ∀ a, (∀ c ∈ cs, c.holds a) ∧ Within root a → ∃ d ∈ solutions, Within d a := by
  obtain ⟨res, has, s', t, h, hf⟩ := runs
  intro a ha
  obtain ⟨i, d, hd, hw, _⟩ := ((stateful_enumerates problem rfl rfl (depthFuel := 12) (fuel := 1) (by decide) (by decide) rfl h).1 a).1 ha
  rw [hf] at hd
  exact ⟨d, List.mem_of_getElem? hd, hw⟩

end Problem
end AllDifferent
end Gcs
