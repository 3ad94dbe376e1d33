import Verif.Model.Cons.NegativeTable
import Verif.Model.Cons.Table
import Verif.Spec.Table
import Verif.Props.Nogoods
import Verif.Props.Heuristics
import Verif.Lemmas.RefinedOK
import Verif.Lemmas.Cons.Steps
import Verif.Lemmas.Cons.Reified
import Verif.Model.Solve

/-!
# C42: NegativeTable
-/

namespace Gcs
open IntervalSet Nogoods

namespace NegativeTable
section
variable {σ μ : Type} {J : Job} {vars : List VarId} {d : Doms}

/-- The conditions for a tuple say that the tuple matches. -/
theorem forbids_iff : ∀ {vars : List VarId} {t : List (Option Int)} {a : Asg}, t.length = vars.length → (Forbids (conds vars t) a ↔ Matches t vars a)
  | [], [], a, _ => by simp [conds, Forbids, Matches]
  | v :: vs, e :: t, a, h => by
    have ih := forbids_iff (vars := vs) (t := t) (a := a) (by simpa using h)
    have key : Matches (e :: t) (v :: vs) a ↔ Allows e (v.eval a) ∧ Matches t vs a := by
      constructor
      · exact fun h => ⟨h 0 v e rfl rfl, fun p u f hp hf => h (p + 1) u f (by simpa using hp) (by simpa using hf)⟩
      · rintro ⟨h1, h2⟩ p u f hp hf
        cases p with
        | zero => cases hp; cases hf; exact h1
        | succ p => exact h2 p u f (by simpa using hp) (by simpa using hf)
    rw [key, ← ih]
    cases e with
    | none => simp [conds, Allows]
    | some x =>
      simp only [conds, Forbids, List.forall_mem_cons, Allows]
      have : (Cond.eq v x).holds a ↔ some x = some (v.eval a) := by
        have := Lit.holds_eq (v := v) (k := x) (a := a)
        simp only [Lit.holds] at this
        rw [this]; simp [eq_comm]
      rw [this]; simp
  | [], _ :: _, _, h => by simp at h
  | _ :: _, [], _, h => by simp at h

theorem conds_mem : ∀ {vars : List VarId} {t : List (Option Int)} {c : Cond}, c ∈ conds vars t → ∃ v ∈ vars, ∃ x, some x ∈ t ∧ c = Cond.eq v x
  | [], t, c, h => by cases t <;> simp [conds] at h
  | v :: vs, [], c, h => by simp [conds] at h
  | v :: vs, none :: t, c, h => by
    obtain ⟨u, h1, x, h2, h3⟩ := conds_mem (vars := vs) (t := t) h
    exact ⟨u, by simp [h1], x, by simp [h2], h3⟩
  | v :: vs, some x :: t, c, h => by
    rcases List.mem_cons.1 h with rfl | h
    · exact ⟨v, by simp, x, by simp, rfl⟩
    · obtain ⟨u, h1, x, h2, h3⟩ := conds_mem (vars := vs) (t := t) h
      exact ⟨u, by simp [h1], x, by simp [h2], h3⟩

theorem conds_proper {n : Nat} {t : List (Option Int)} (hv : ∀ v ∈ vars, v.Valid n) (ht : ∀ x, some x ∈ t → InI64 x) : Proper n (conds vars t) := by
  intro c hc
  obtain ⟨v, h1, x, h2, rfl⟩ := conds_mem hc
  exact ⟨.eq (hv v h1) (ht x h2), by simp [Lit.RangeOK, Cond.eq]⟩

/-- What the initialiser does with a tuple: afterwards one of the literals is false, or there are two at different places that are not known to be true. -/
theorem detectOne_ver (ho : J.R .overflow) {g : List Cond} (hg : Proper J.n g) (hC : ∀ a, J.C a → ¬ Forbids g a) (hd : DomsOK d) (hl : d.length = J.n) :
    (detectOne g : Prog σ μ Unit).Ver J (fun _ => False)
      (fun _ d' => (∃ c ∈ g, ∀ a, Within d' a → ¬ c.holds a) ∨ ∃ (p q : Nat) (x y : Cond), p ≠ q ∧ g[p]? = some x ∧ g[q]? = some y ∧ ¬ Entailed d' (.cond x) ∧ ¬ Entailed d' (.cond y)) d := by
  have find : ∀ skip, RightOrOverflow (findUnbroken d skip 0 g) fun r => findUnbroken d skip 0 g = .ok r := fun skip => by
    rcases unbroken_ends hd hl skip g 0 hg with h | ⟨v, h, _⟩
    · exact .inl h
    · exact .inr ⟨v, h, h⟩
  refine ver_ask ho (find none) fun r hr => ?_
  obtain ⟨h1, h2⟩ := unbroken_spec hd hl none g 0 r hg hr
  cases r with
  | none =>
    intro a ha hc
    refine hC a hc fun c hm => ?_
    obtain ⟨i, hi⟩ := List.mem_iff_getElem?.1 hm
    exact h1 rfl i c hi (by simp) a ha
  | some p =>
    obtain ⟨i, x, rfl, hx, _, hopen⟩ := h2 p rfl
    simp only [Nat.zero_add] at *
    refine ver_ask ho (find (some i)) fun r hr => ?_
    obtain ⟨k1, k2⟩ := unbroken_spec hd hl (some i) g 0 r hg hr
    cases r with
    | none =>
      simp only [hx]
      refine ⟨Lit.Valid.not (hg x (List.mem_of_getElem? hx)).1, fun a ha hc => (Cond.not_holds x a).2 fun hh => hC a hc fun c hm => ?_, fun d' _ _ h3 => ?_, fun h => nomatch h⟩
      · obtain ⟨j, hj⟩ := List.mem_iff_getElem?.1 hm
        by_cases hij : j = i
        · subst hij; rw [hx] at hj; cases hj; exact hh
        · exact k1 rfl j c hj (by simpa using fun e => hij e.symm) a ha
      · exact .inl ⟨x, List.mem_of_getElem? hx, fun a ha => (Cond.not_holds x a).1 ((h3 a).1 ha).2⟩
    | some q =>
      obtain ⟨j, y, rfl, hy, hne, hopen'⟩ := k2 q rfl
      exact .inr ⟨i, 0 + j, x, y, fun e => hne (by rw [e]), hx, by simpa using hy, hopen, hopen'⟩

theorem detectRoot_ver (ho : J.R .overflow) {gs : List (List Cond)} (hg : ∀ g ∈ gs, Proper J.n g) (hC : ∀ a, J.C a → ∀ g ∈ gs, ¬ Forbids g a) (hd : DomsOK d) (hl : d.length = J.n) :
    (detectRoot gs : Prog σ μ Unit).Ver J (fun _ => False) (fun _ _ => True) d :=
  ver_mono (fun _ _ _ => trivial) _ _ (ver_forEach (fun gs _ => (∀ g ∈ gs, Proper J.n g) ∧ ∀ a, J.C a → ∀ g ∈ gs, ¬ Forbids g a)
    (fun g gs _ h1 h2 h => ver_mono (fun _ _ _ => ⟨fun x hx => h.1 x (by simp [hx]), fun a ha x hx => h.2 a ha x (by simp [hx])⟩) _ _ (detectOne_ver ho (h.1 g (by simp)) (fun a ha => h.2 a ha g (by simp)) h1 h2)) gs d hd hl ⟨hg, hC⟩)

end
end NegativeTable

section
variable {σ μ : Type} {n m : Nat} {cell : Cell μ NogoodMem} {vars : List VarId} {tuples : List (List (Option Int))}

/-- C42: whatever the watches and messages, the propagator of NegativeTable never loses an assignment that matches none of the tuples. -/
theorem negativeTable_sound (me : Nat) {c : Ctx} {s s' : Sys σ μ} (hs : Runnable n m s) (hlen : ∀ t ∈ tuples, t.length = vars.length) (hm : (cell.get s.mem).store = (NegativeTable.memory vars tuples).store)
    {r : Res PState} (e : runProg ⟨me, c.scope⟩ (refined cell me) s = .ok (r, s')) {a : Asg} (ha : Within s.doms a) (hn : ¬ InTable tuples vars a) :
    r = .val .enable ∧ Within s'.doms a ∧ (cell.get s'.mem).store = (NegativeTable.memory vars tuples).store := by
  have := refined_nogoods_sound (c := c) me hs e ha (by
    intro g hg hf
    rw [hm] at hg
    obtain ⟨t, ht, rfl⟩ := List.mem_map.1 hg
    exact hn ⟨t, ht, (NegativeTable.forbids_iff (hlen t ht)).1 hf⟩)
  exact ⟨this.1, this.2.1, this.2.2.trans hm⟩

/-- C42, C48: nor does its initialiser, which makes everything of the tuples that can be seen at the start from one tuple. -/
theorem negativeTable_detects {c : Ctx} {s s' : Sys σ μ} {r : Res Unit} (hv : ∀ v ∈ vars, v.Valid n) (ht : ∀ t ∈ tuples, t.length = vars.length ∧ ∀ x, some x ∈ t → InI64 x) (hs : Runnable n m s)
    (e : runProg c (NegativeTable.detectRoot (tuples.map (NegativeTable.conds vars))) s = .ok (r, s')) {a : Asg} (ha : Within s.doms a) (hn : ¬ InTable tuples vars a) : ¬ Failed r s' ∧ Within s'.doms a := by
  have ver := NegativeTable.detectRoot_ver (σ := σ) (μ := μ) (J := { n, m, R := (· = .overflow), C := fun a => ¬ InTable tuples vars a, watch := False }) rfl
    (gs := tuples.map (NegativeTable.conds vars)) (by
      intro g hg
      obtain ⟨t, h, rfl⟩ := List.mem_map.1 hg
      exact NegativeTable.conds_proper hv (ht t h).2)
    (by
      intro b hb g hg hf
      obtain ⟨t, h, rfl⟩ := List.mem_map.1 hg
      exact hb ⟨t, h, (NegativeTable.forbids_iff (ht t h).1).1 hf⟩) hs.domsOK hs.domsLen
  have := sound_run (np := c.owner + 1) c (Nat.lt_succ_self _) _ s (Ver.okAt _ _ ver) (Ver.soundAt (J := { n, m, R := (· = .overflow), C := fun a => ¬ InTable tuples vars a, watch := False }) hn _ _ ver ha) hs ha _ _ e
  exact ⟨this.1, this.2⟩

end

/-! ## Together with a Table -/

namespace NegativeTable

def cell : Cell NogoodMem NogoodMem := ⟨id, fun v _ => v, fun _ _ => rfl⟩
def x : VarId := .simple 0
def y : VarId := .simple 1
def z : VarId := .simple 2
/-- The last variable is the selector of the Table. -/
def root : Doms := [[(0, 1)], [(0, 1)], [(0, 1)], [(0, 1)]]
/-- Either `z = 0`, `x = 1`, `y = 1` or `z = 1`, `x = 0`, `y = 1`. -/
def rows : List (List (Option Int)) := [[some 0, some 1, some 1], [some 1, some 0, some 1]]

/-- `NegativeTable({x, y}, {{1, 1}})` and `Table({z, x, y}, rows)`. -/
def posts : List (Doms → Chk (List (Item Unit NogoodMem))) :=
  [fun _ => install cell 0 [x, y] [[some 1, some 1]], fun _ => Table.install (.simple 3) [z, x, y] rows (fun k => decide (k = 0)) fun _ _ _ => none]

def S : Setup Unit NogoodMem := (Setup.create root 0 posts Setup.empty).toOption.getD Setup.empty

theorem created : Setup.create root 0 posts Setup.empty = .ok S := by
  have h : (Setup.create root 0 posts Setup.empty).toOption.isSome = true := by decide +kernel
  revert h
  unfold S
  cases Setup.create root 0 posts Setup.empty with
  | error e => intro h; cases h
  | ok s => intro _; rfl

def env : SearchEnv Unit NogoodMem where
  engine := S.engine
  abort := fun _ => false
  branch := fun _ s => branchWith (dom [z, x, y]) largestFirst s.doms
  solution := fun _ _ => true
  trace := fun _ _ => true
  minimise := none
  learn := none

/-- C42 is false of the code when NegativeTable is posted together with Table, or anything else that claims to be idempotent: an assignment that matches the forbidden tuple is reported. After the
guess that `z = 0`, Table sets `x` in one run and claims to be idempotent; on that round refined watches are not fired (propagators.cc:822-843), and NegativeTable is never told. -/
theorem accepts_forbidden : ∃ res has s' t, solve env S 12 1 none (Sys.start root [] (memory [x, y] [[some 1, some 1]]) S.watches) = .ok ((res, has, s', t), true) ∧
    ∃ d ∈ t.found, ∀ a, Within d a → InTable [[some 1, some 1]] [x, y] a := by
  have h : (match solve env S 12 1 none (Sys.start root [] (memory [x, y] [[some 1, some 1]]) S.watches) with
    | .ok ((_, _, _, t), true) => decide ([[(1, 1)], [(1, 1)], [(0, 0)], [(0, 0)]] ∈ t.found)
    | _ => false) = true := by decide +kernel
  split at h
  · refine ⟨_, _, _, _, by assumption, _, of_decide_eq_true h, fun a ha => ⟨_, List.mem_singleton.2 rfl, ?_⟩⟩
    have h0 : a 0 = 1 := by have := ha 0 _ rfl; simp [Mem] at this; omega
    have h1 : a 1 = 1 := by have := ha 1 _ rfl; simp [Mem] at this; omega
    intro p v e hp he
    rcases p with _ | _ | p
    · cases hp; cases he; exact .inr (by simp [x, VarId.eval, h0])
    · cases hp; cases he; exact .inr (by simp [y, VarId.eval, h1])
    · simp at hp
  · cases h

/-- Without the Table: what is not forbidden. -/
def alone : Setup Unit NogoodMem := (Setup.create root 0 (posts.take 1) Setup.empty).toOption.getD Setup.empty
example : (match solve { env with engine := alone.engine, branch := fun _ s => branchWith (dom [x, y]) largestFirst s.doms } alone 12 1 none
      (Sys.start [[(0, 1)], [(0, 1)]] [] (memory [x, y] [[some 1, some 1]]) alone.watches) with
    | .ok ((_, _, _, t), b) => some (t.found, b)
    | .error _ => none) = some ([[[(1, 1)], [(0, 0)]], [[(0, 0)], [(1, 1)]], [[(0, 0)], [(0, 0)]]], true) := by decide +kernel

end NegativeTable
end Gcs
