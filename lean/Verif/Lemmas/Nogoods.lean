import Verif.Model.Nogoods
import Verif.Lemmas.Checks
import Verif.Lemmas.Firing

/-! Nogoods: what one run of the propagators does. -/

namespace Gcs
open IntervalSet Queue

/-- No assignment within the domains meets the condition. -/
def Refuted (d : Doms) (c : Cond) : Prop := ∀ a, Within d a → ¬ c.holds a

theorem Refuted.evolve {d d' : Doms} {cs : List (Nat × Inference)} (h : Evolve d cs d') {c : Cond} (h0 : Refuted d c) : Refuted d' c :=
  fun a ha => h0 a (h.within ha)

namespace Nogoods

/-- Every condition of the nogood is about an existing variable and properly made. -/
def Proper (n : Nat) (g : List Cond) : Prop := ∀ c ∈ g, (Lit.cond c).Valid n ∧ (Lit.cond c).RangeOK

theorem varFits_iff (n : Nat) (v : VarId) : varFits n v = true ↔ v.Valid n := by
  cases v <;> simp [varFits, VarId.Valid]

theorem condFits_iff (n : Nat) (c : Cond) : condFits n c = true ↔ (Lit.cond c).Valid n ∧ (Lit.cond c).RangeOK := by
  unfold condFits
  simp only [Bool.and_eq_true, varFits_iff, decide_eq_true_eq, Bool.or_eq_true, Bool.not_eq_true', decide_eq_false_iff_not]
  simp only [Lit.Valid, Cond.Valid, Lit.RangeOK]
  constructor
  · rintro ⟨⟨⟨h1, h2⟩, h3⟩, h4⟩
    exact ⟨⟨h1, h2, h3⟩, fun h => h4.resolve_left fun hn => hn h⟩
  · rintro ⟨⟨h1, h2, h3⟩, h4⟩
    refine ⟨⟨⟨h1, h2⟩, h3⟩, ?_⟩
    by_cases h : c.op = .inRange ∨ c.op = .notInRange
    · exact .inr (h4 h)
    · exact .inl h

theorem fits_iff (n : Nat) (store : List (List Cond)) : fits n store = true ↔ store.length < 2 ^ 32 ∧ ∀ g ∈ store, g.length < 2 ^ 32 ∧ Proper n g := by
  unfold fits Proper
  simp only [Bool.and_eq_true, decide_eq_true_eq, List.all_eq_true, condFits_iff]

theorem unbroken_spec {n : Nat} {d : Doms} (hd : DomsOK d) (hl : d.length = n) (skip : Option Nat) : ∀ (g : List Cond) (p0 : Nat) (r : Option Nat), Proper n g →
    findUnbroken d skip p0 g = .ok r →
    (r = none → ∀ (i : Nat) c, g[i]? = some c → skip ≠ some (p0 + i) → Entailed d (.cond c)) ∧
    (∀ p, r = some p → ∃ (i : Nat) (c : Cond), p = p0 + i ∧ g[i]? = some c ∧ skip ≠ some p ∧ ¬ Entailed d (.cond c))
  | [], p0, r, _, e => by cases e; simp
  | c :: cs, p0, r, hg, e => by
    have hcs : Proper n cs := fun x hx => hg x (by simp [hx])
    have hrec : ∀ r, findUnbroken d skip (p0 + 1) cs = .ok r → (skip = some p0 ∨ Entailed d (.cond c)) →
        (r = none → ∀ (i : Nat) x, (c :: cs)[i]? = some x → skip ≠ some (p0 + i) → Entailed d (.cond x)) ∧
        (∀ p, r = some p → ∃ (i : Nat) (x : Cond), p = p0 + i ∧ (c :: cs)[i]? = some x ∧ skip ≠ some p ∧ ¬ Entailed d (.cond x)) := by
      intro r e h0
      obtain ⟨h1, h2⟩ := unbroken_spec hd hl skip cs (p0 + 1) r hcs e
      constructor
      · intro hr i x hx hs
        cases i with
        | zero =>
          simp at hx; subst hx
          exact h0.resolve_left hs
        | succ i => exact h1 hr i x (by simpa using hx) (by rw [Nat.add_assoc, Nat.add_comm 1 i]; exact hs)
      · intro p hp
        obtain ⟨i, x, h3, h4, h5⟩ := h2 p hp
        exact ⟨i + 1, x, by omega, by simpa using h4, h5⟩
    unfold findUnbroken at e
    split at e
    · rename_i hs
      exact hrec r e (.inl hs)
    · rename_i hs
      obtain ⟨hv, hr⟩ := hg c (by simp)
      rcases testLiteral_spec d (.cond c) hd (hl.symm ▸ hv) hr with h | ⟨x, h, hx⟩
      · simp [h, bind, Except.bind] at e
      · simp only [h, bind, Except.bind] at e
        split at e
        · rename_i hne
          cases e
          refine ⟨nofun, fun p hp => ?_⟩
          cases hp
          exact ⟨0, c, rfl, rfl, hs, fun he => hne (hx.1.2 he)⟩
        · rename_i he
          exact hrec r e (.inr (hx.1.1 (by simpa using he)))

theorem broken_spec {n : Nat} {d : Doms} (hd : DomsOK d) (hl : d.length = n) {g : List Cond} (hg : Proper n g) {p : Nat} {b : Bool} (e : isBroken d g p = .ok b) :
    ∃ c, g[p]? = some c ∧ (b = true ↔ Entailed d (.cond c)) := by
  unfold isBroken vecAt at e
  cases h : g[p]? with
  | none => rw [h] at e; cases e
  | some c =>
    rw [h] at e
    obtain ⟨hv, hr⟩ := hg c (List.mem_of_getElem? h)
    rcases testLiteral_spec d (.cond c) hd (hl.symm ▸ hv) hr with h1 | ⟨x, h1, hx⟩
    · simp [h1, bind, Except.bind] at e
    · simp [h1, bind, Except.bind, pure, Except.pure] at e
      exact ⟨c, rfl, by rw [← e, decide_eq_true_iff]; exact hx.1⟩

section
variable {σ μ : Type} {n m np : Nat} {R : Err → Prop}

theorem run_ask {α β : Type} {c : Ctx} {f : Doms → Chk α} {k : α → Prog σ μ β} {s s' : Sys σ μ} {r : Res β} (e : runProg c ((Prog.ask f).bind k) s = .ok (r, s')) :
    ∃ v, f s.doms = .ok v ∧ runProg c (k v) s = .ok (r, s') := by
  have e' : runProg c ((match f s.doms with | .ok a => Prog.ret a | .error e => Prog.raise e : Prog σ μ α).bind k) s = .ok (r, s') := e
  cases h : f s.doms with
  | error x => rw [h] at e'; cases e'
  | ok v => rw [h] at e'; exact ⟨v, rfl, e'⟩

/-- An inference either rules out everything, and ends the run, or it goes on with what is left. -/
theorem run_plain_infer {α : Type} (c : Ctx) {l : Lit} {k : Bool → Prog σ μ α} {s : Sys σ μ} (hl : l.Valid n) (h : Runnable n m s) {r : Res α} {s' : Sys σ μ}
    (e : runProg c (.infer l false k) s = .ok (r, s')) :
    (r = .failed ∧ (∀ a, Within s.doms a → ¬ l.holds a) ∧ s'.mem = s.mem) ∨ ∃ s1 cs, runProg c (k true) s1 = .ok (r, s') ∧ Runnable n m s1 ∧ Evolve s.doms cs s1.doms ∧
      (∀ b, Within s1.doms b ↔ Within s.doms b ∧ l.holds b) ∧ s1.w = s.w ∧ s1.mem = s.mem := by
  by_cases hx : ∃ st, s.st.infer l = .ok (.contradiction, st)
  · left
    obtain ⟨st, hx⟩ := hx
    have e0 := e
    unfold runProg at e
    rw [if_neg (by simp)] at e
    rw [hx] at e
    simp only [Sys.track] at e
    cases e
    refine ⟨rfl, ?_, rfl⟩
    obtain ⟨d, rest, hv⟩ : ∃ d rest, s.st.vars = d :: rest := by
      cases hv : s.st.vars with
      | nil => exact absurd hv h.varsNe
      | cons d r => exact ⟨d, r, rfl⟩
    have hd := doms_eq hv
    have hdOK := h.domsOK; have hdl := h.domsLen; rw [hd] at hdOK hdl ⊢
    rcases infer_spec d l hdOK (hdl.symm ▸ hl) with he | ⟨x, he, hspec⟩
    · simp [State.infer, hv, he, bind, Except.bind] at hx
    · have hm := inferMeaning_of_spec hdOK hspec
      simp [State.infer, hv, he, bind, Except.bind, pure, Except.pure] at hx
      exact hm.contra.1 hx.1
  · right
    unfold runProg at e
    rw [if_neg (by simp)] at e
    obtain ⟨d, rest, hv⟩ : ∃ d rest, s.st.vars = d :: rest := by
      cases hv : s.st.vars with
      | nil => exact absurd hv h.varsNe
      | cons d r => exact ⟨d, r, rfl⟩
    have hd := doms_eq hv
    have hdOK := h.domsOK; have hdl := h.domsLen; rw [hd] at hdOK hdl
    rcases infer_spec d l hdOK (hdl.symm ▸ hl) with he | ⟨x, he, hspec⟩
    · simp [State.infer, hv, he, bind, Except.bind] at e
    have hinf : s.st.infer l = .ok (x.1, { s.st with vars := x.2 :: rest }) := by
      simp [State.infer, hv, he, bind, Except.bind, pure, Except.pure]
    rw [hinf] at e
    have hm := inferMeaning_of_spec hdOK hspec
    have hcon : x.1 ≠ .contradiction := fun hc => hx ⟨_, by rw [hinf, hc]⟩
    have hok : ∀ (t : Tracker) (y : List Ev), t.contradicted = false → Runnable n m ({ s with st := { s.st with vars := x.2 :: rest }, tr := t, trace := y } : Sys σ μ) :=
      fun t y ht => ⟨hm.domsOK hcon, by show x.2.length = n; rw [hspec.length, hdl], by simp, h.cstatesLen, ht⟩
    by_cases hno : x.1 = .noChange
    · have htr : s.track x.1 l { s.st with vars := x.2 :: rest } = ({ s with st := { s.st with vars := x.2 :: rest } }, true) := by rw [hno]; rfl
      simp only [htr, if_true] at e
      have hsame : x.2 = d := hm.noChange hno
      refine ⟨_, [], e, hok s.tr s.trace h.fine, ?_, ?_, rfl, rfl⟩
      · show Evolve s.doms [] x.2
        rw [hsame, hd]; exact .refl _ hdOK
      · rw [hd]; exact fun b => hm.within hcon b
    · obtain ⟨v, hlv⟩ := infer_var_of_effective hspec hno hcon
      have htr : s.track x.1 l { s.st with vars := x.2 :: rest } =
          ({ s with
              st := { s.st with vars := x.2 :: rest }
              tr := { s.tr with inferences := s.tr.inferences ++ [(v, x.1)], didAnything := true, madeProgress := true }
              trace := s.trace ++ [.change v x.1] }, true) := by
        cases hr : x.1 <;> simp [hr] at hno hcon <;> simp [Sys.track, Tracker.record, hlv]
      simp only [htr, if_true] at e
      refine ⟨_, [(v, x.1)], e, hok { s.tr with inferences := s.tr.inferences ++ [(v, x.1)], didAnything := true, madeProgress := true } (s.trace ++ [.change v x.1]) h.fine, ?_, ?_, rfl, rfl⟩
      · show Evolve s.doms [(v, x.1)] x.2
        rw [hd]
        exact .snoc (.refl _ hdOK) (step_of_spec hdOK hspec hno hcon hlv)
      · rw [hd]; exact fun b => hm.within hcon b

theorem Proper.not {g : List Cond} (hg : Proper n g) {p : Nat} {x : Cond} (h : g[p]? = some x) : (Lit.cond x.not).Valid n := by
  obtain ⟨⟨h1, h2, h3⟩, _⟩ := hg x (List.mem_of_getElem? h)
  obtain ⟨v, op, y, u⟩ := x
  cases op <;> first | exact ⟨h1, h2, h3⟩ | exact ⟨h1, h2, show InI64 0 by decide⟩

/-- `infer(¬ nogood[p])`: everything is ruled out, or the condition is refuted from then on. -/
theorem run_inferNot {c : Ctx} {g : List Cond} (hg : Proper n g) {p : Nat} {k : Prog σ μ PState} {s : Sys σ μ} (h : Runnable n m s) {r : Res PState} {s' : Sys σ μ}
    (e : runProg c (inferNot g p k) s = .ok (r, s')) :
    ∃ x, g[p]? = some x ∧ ((r = .failed ∧ (∀ a, Within s.doms a → x.holds a) ∧ s'.mem = s.mem) ∨ ∃ s1 cs, runProg c k s1 = .ok (r, s') ∧ Runnable n m s1 ∧ Evolve s.doms cs s1.doms ∧
      (∀ a, Within s1.doms a ↔ Within s.doms a ∧ ¬ x.holds a) ∧ s1.w = s.w ∧ s1.mem = s.mem) := by
  unfold inferNot at e
  cases hx : g[p]? with
  | none => rw [hx] at e; cases e
  | some x =>
    rw [hx] at e
    refine ⟨x, rfl, ?_⟩
    have hnot : ∀ a, (Lit.cond x.not).holds a ↔ ¬ x.holds a := fun a => x.not_holds a
    rcases run_plain_infer c (hg.not hx) h e with ⟨h1, h2, h3⟩ | ⟨s1, cs, h1, h2, h3, h4, h5, h6⟩
    · exact .inl ⟨h1, fun a ha => Classical.byContradiction fun hc => h2 a ha ((hnot a).2 hc), h3⟩
    · exact .inr ⟨s1, cs, h1, h2, h3, fun a => by rw [h4, hnot], h5, h6⟩

theorem run_watchAt {c : Ctx} {g : List Cond} {p ni : Nat} {k : Prog σ μ PState} {s : Sys σ μ} {r : Res PState} {s' : Sys σ μ} (e : runProg c (watchAt g p ni k) s = .ok (r, s')) :
    ∃ x, g[p]? = some x ∧ runProg c k { s with w := s.w.register c.owner (.cond x) ni true } = .ok (r, s') := by
  unfold watchAt at e
  cases hx : g[p]? with
  | none => rw [hx] at e; cases e
  | some x => rw [hx] at e; exact ⟨x, rfl, e⟩

/-- One literal of the nogood was not yet known to be true, or is now known to be false. -/
def Unbroken (d d' : Doms) (g : List Cond) : Prop := ∃ x ∈ g, ¬ Entailed d (.cond x) ∨ Refuted d' x

theorem Unbroken.mono {d d1 d2 d' : Doms} {cs1 cs2 : List (Nat × Inference)} (h1 : Evolve d cs1 d1) (h2 : Evolve d2 cs2 d') {g : List Cond} (h : Unbroken d1 d2 g) : Unbroken d d' g := by
  obtain ⟨x, hx, h⟩ := h
  exact ⟨x, hx, h.imp (fun h he => h (he.evolve h1)) (fun h => h.evolve h2)⟩

/-- What happens up to the point where a run goes on: assignments satisfying `ok` are not lost, the nogoods are the same. -/
structure Moved (n m : Nat) (cell : Cell μ NogoodMem) (ok : Asg → Prop) (s s1 : Sys σ μ) : Prop where
  run : Runnable n m s1
  evolve : ∃ cs, Evolve s.doms cs s1.doms
  keep : ∀ a, Within s.doms a → ok a → Within s1.doms a
  store : (cell.get s1.mem).store = (cell.get s.mem).store

theorem Moved.refl {cell : Cell μ NogoodMem} {ok : Asg → Prop} {s : Sys σ μ} (h : Runnable n m s) : Moved n m cell ok s s := ⟨h, ⟨[], .refl _ h.domsOK⟩, fun _ h _ => h, rfl⟩

theorem Moved.trans {cell : Cell μ NogoodMem} {p q r : Asg → Prop} {s s1 s2 : Sys σ μ} (h1 : Moved n m cell p s s1) (h2 : Moved n m cell q s1 s2) (hp : ∀ a, r a → p a) (hq : ∀ a, r a → q a) :
    Moved n m cell r s s2 := by
  obtain ⟨c1, e1⟩ := h1.evolve
  obtain ⟨c2, e2⟩ := h2.evolve
  exact ⟨h2.run, ⟨_, e1.trans e2⟩, fun a ha hr => h2.keep a (h1.keep a ha (hp a hr)) (hq a hr), h2.store.trans h1.store⟩

theorem _root_.Gcs.Runnable.setMem {s : Sys σ μ} (h : Runnable n m s) (x : μ) : Runnable n m { s with mem := x } := ⟨h.1, h.2, h.3, h.4, h.5⟩
theorem _root_.Gcs.Runnable.setW {s : Sys σ μ} (h : Runnable n m s) (w : Watches) : Runnable n m { s with w := w } := ⟨h.1, h.2, h.3, h.4, h.5⟩

/-- Unit propagation: all but one literal known to be true. -/
theorem run_unit {c : Ctx} {g : List Cond} (hg : Proper n g) {q : Nat} {k : Prog σ μ PState} {s : Sys σ μ} (h : Runnable n m s) {r : Res PState} {s' : Sys σ μ}
    (hu : ∀ (i : Nat) x, g[i]? = some x → some q ≠ some (0 + i) → Entailed s.doms (.cond x)) (e : runProg c (inferNot g q k) s = .ok (r, s')) :
    (r = .failed ∧ (∀ a, Within s.doms a → Forbids g a) ∧ s'.mem = s.mem) ∨ ∃ s1 cs x, runProg c k s1 = .ok (r, s') ∧ Runnable n m s1 ∧ Evolve s.doms cs s1.doms ∧
      (∀ a, Within s.doms a → ¬ Forbids g a → Within s1.doms a) ∧ g[q]? = some x ∧ Refuted s1.doms x ∧ s1.w = s.w ∧ s1.mem = s.mem := by
  obtain ⟨x, hx, h1⟩ := run_inferNot hg h e
  have key : ∀ a, Within s.doms a → x.holds a → Forbids g a := by
    intro a ha hxa y hy
    obtain ⟨i, hi⟩ := List.mem_iff_getElem?.1 hy
    by_cases hiq : q = i
    · subst hiq; rw [hx] at hi; cases hi; exact hxa
    · exact hu i y hi (by simpa using hiq) a ha
  rcases h1 with ⟨h2, h3, h4⟩ | ⟨s1, cs, h2, h3, h4, h5, h6, h7⟩
  · exact .inl ⟨h2, fun a ha => key a ha (h3 a ha), h4⟩
  · exact .inr ⟨s1, cs, x, h2, h3, h4, fun a ha hn => (h5 a).2 ⟨ha, fun hxa => hn (key a ha hxa)⟩, hx, fun a ha => ((h5 a).1 ha).2, h6, h7⟩

/-- The two ways in which one step for one nogood can end. -/
def Stepped (n m : Nat) (cell : Cell μ NogoodMem) (c : Ctx) (gs : List (List Cond)) (k : Prog σ μ PState) (s : Sys σ μ) (r : Res PState) (s' : Sys σ μ) : Prop :=
  (r = .failed ∧ (∀ a, Within s.doms a → ∃ g ∈ gs, Forbids g a) ∧ (cell.get s'.mem).store = (cell.get s.mem).store) ∨
  ∃ s1, runProg c k s1 = .ok (r, s') ∧ Moved n m cell (fun a => ∀ g ∈ gs, ¬ Forbids g a) s s1 ∧ ∀ g ∈ gs, Unbroken s.doms s1.doms g

theorem stepped_unit {cell : Cell μ NogoodMem} {c : Ctx} {g : List Cond} (hg : Proper n g) {q : Nat} {k : Prog σ μ PState} {s : Sys σ μ} (h : Runnable n m s) {r : Res PState} {s' : Sys σ μ}
    (hu : ∀ (i : Nat) x, g[i]? = some x → some q ≠ some (0 + i) → Entailed s.doms (.cond x)) (e : runProg c (inferNot g q k) s = .ok (r, s')) : Stepped n m cell c [g] k s r s' := by
  rcases run_unit hg h hu e with ⟨h1, h2, h3⟩ | ⟨s1, cs, x, h1, h2, h3, h4, h5, h6, h7, h8⟩
  · exact .inl ⟨h1, fun a ha => ⟨g, by simp, h2 a ha⟩, by rw [h3]⟩
  · refine .inr ⟨s1, h1, ⟨h2, ⟨cs, h3⟩, fun a ha hn => h4 a ha (hn g (by simp)), by rw [h8]⟩, fun g' hg' => ?_⟩
    cases List.mem_singleton.1 hg'
    exact ⟨x, List.mem_of_getElem? h5, .inr h6⟩

/-- The nogood is not known to be broken and only memory changes. -/
theorem stepped_open {cell : Cell μ NogoodMem} {c : Ctx} {g : List Cond} {k : Prog σ μ PState} {s s1 : Sys σ μ} (h : Runnable n m s) {r : Res PState} {s' : Sys σ μ} {x : Cond} (hx : x ∈ g)
    (hn : ¬ Entailed s.doms (.cond x)) (hs : ∃ y, s1 = { s with mem := y } ∧ (cell.get y).store = (cell.get s.mem).store) (e : runProg c k s1 = .ok (r, s')) : Stepped n m cell c [g] k s r s' := by
  obtain ⟨y, rfl, hy⟩ := hs
  refine .inr ⟨_, e, ⟨h.setMem y, ⟨[], .refl _ h.domsOK⟩, fun _ h _ => h, hy⟩, fun g' hg' => ?_⟩
  cases List.mem_singleton.1 hg'
  exact ⟨x, hx, .inl hn⟩

theorem stepped_fail {cell : Cell μ NogoodMem} {c : Ctx} {g : List Cond} {k : Prog σ μ PState} {s : Sys σ μ} {r : Res PState} {s' : Sys σ μ}
    (hu : ∀ (i : Nat) x, g[i]? = some x → none ≠ some (0 + i) → Entailed s.doms (.cond x)) (e : runProg c (.fail : Prog σ μ PState) s = .ok (r, s')) : Stepped n m cell c [g] k s r s' := by
  cases e
  refine .inl ⟨rfl, fun a ha => ⟨g, by simp, fun x hx => ?_⟩, rfl⟩
  obtain ⟨i, hi⟩ := List.mem_iff_getElem?.1 hx
  exact hu i x hi (by simp) a ha

theorem run_setPair {cell : Cell μ NogoodMem} {c : Ctx} {ni p q : Nat} {k : Prog σ μ PState} {s : Sys σ μ} {r : Res PState} {s' : Sys σ μ} (e : runProg c (setPair cell ni p q k) s = .ok (r, s')) :
    ∃ s1, runProg c k s1 = .ok (r, s') ∧ ∃ y, s1 = { s with mem := y } ∧ (cell.get y).store = (cell.get s.mem).store :=
  ⟨_, e, _, rfl, by rw [cell.get_set]⟩
theorem run_addPair {cell : Cell μ NogoodMem} {c : Ctx} {p q : Nat} {k : Prog σ μ PState} {s : Sys σ μ} {r : Res PState} {s' : Sys σ μ} (e : runProg c (addPair cell p q k) s = .ok (r, s')) :
    ∃ s1, runProg c k s1 = .ok (r, s') ∧ ∃ y, s1 = { s with mem := y } ∧ (cell.get y).store = (cell.get s.mem).store :=
  ⟨_, e, _, rfl, by rw [cell.get_set]⟩

theorem Stepped.after {cell : Cell μ NogoodMem} {c : Ctx} {g : List Cond} {k k' : Prog σ μ PState} {s : Sys σ μ} {r : Res PState} {s' : Sys σ μ} (h : Stepped n m cell c [g] k' s r s')
    (hk : ∀ s1, runProg c k' s1 = .ok (r, s') → ∃ s2, runProg c k s2 = .ok (r, s') ∧ ∃ y, s2 = { s1 with mem := y } ∧ (cell.get y).store = (cell.get s1.mem).store) : Stepped n m cell c [g] k s r s' := by
  rcases h with h | ⟨s1, h1, h2, h3⟩
  · exact .inl h
  · obtain ⟨s2, e, y, rfl, hy⟩ := hk s1 h1
    exact .inr ⟨_, e, ⟨h2.run.setMem y, h2.evolve, h2.keep, hy.trans h2.store⟩, h3⟩

theorem initPair_step {cell : Cell μ NogoodMem} {c : Ctx} {g : List Cond} (hg : Proper n g) {k : Prog σ μ PState} {s : Sys σ μ} (h : Runnable n m s) {r : Res PState} {s' : Sys σ μ}
    (e : runProg c (initPair cell g k) s = .ok (r, s')) : Stepped n m cell c [g] k s r s' := by
  unfold initPair at e
  obtain ⟨p, h1, e⟩ := run_ask e
  obtain ⟨a1, a2⟩ := unbroken_spec h.domsOK h.domsLen none g 0 p hg h1
  cases p with
  | none => exact stepped_fail (a1 rfl) e
  | some p =>
    obtain ⟨i, x, _, hx, _, hn⟩ := a2 p rfl
    obtain ⟨q, h2, e⟩ := run_ask e
    obtain ⟨b1, b2⟩ := unbroken_spec h.domsOK h.domsLen (some p) g 0 q hg h2
    cases q with
    | none => exact (stepped_unit hg h (b1 rfl) e).after fun _ => run_addPair
    | some q =>
      obtain ⟨s1, h3, h4⟩ := run_addPair e
      exact stepped_open h (List.mem_of_getElem? hx) hn h4 h3

theorem scanOne_step {cell : Cell μ NogoodMem} {c : Ctx} {g : List Cond} (hg : Proper n g) {ni p q : Nat} {k : Prog σ μ PState} {s : Sys σ μ} (h : Runnable n m s) {r : Res PState} {s' : Sys σ μ}
    (e : runProg c (scanOne cell g ni p q k) s = .ok (r, s')) : Stepped n m cell c [g] k s r s' := by
  unfold scanOne at e
  obtain ⟨b1, hb1, e⟩ := run_ask e
  obtain ⟨x1, hx1, hi1⟩ := broken_spec h.domsOK h.domsLen hg hb1
  obtain ⟨b2, hb2, e⟩ := run_ask e
  obtain ⟨x2, hx2, hi2⟩ := broken_spec h.domsOK h.domsLen hg hb2
  cases b1 with
  | true =>
    cases b2 with
    | true =>
      simp only [if_true] at e
      obtain ⟨p', h1, e⟩ := run_ask e
      obtain ⟨a1, a2⟩ := unbroken_spec h.domsOK h.domsLen none g 0 p' hg h1
      cases p' with
      | none => exact stepped_fail (a1 rfl) e
      | some p' =>
        obtain ⟨i, x, _, hx, _, hn⟩ := a2 p' rfl
        obtain ⟨q', h2, e⟩ := run_ask e
        obtain ⟨b1, b2⟩ := unbroken_spec h.domsOK h.domsLen (some p') g 0 q' hg h2
        cases q' with
        | none => exact stepped_unit hg h (b1 rfl) e
        | some q' =>
          obtain ⟨s1, h3, h4⟩ := run_setPair e
          exact stepped_open h (List.mem_of_getElem? hx) hn h4 h3
    | false =>
      simp only [if_true, Bool.false_eq_true, if_false] at e
      obtain ⟨p', h1, e⟩ := run_ask e
      obtain ⟨a1, a2⟩ := unbroken_spec h.domsOK h.domsLen (some q) g 0 p' hg h1
      cases p' with
      | none => exact stepped_unit hg h (a1 rfl) e
      | some p' =>
        obtain ⟨s1, h3, h4⟩ := run_setPair e
        exact stepped_open h (List.mem_of_getElem? hx2) (fun he => by simpa using hi2.2 he) h4 h3
  | false =>
    have hn1 : ¬ Entailed s.doms (.cond x1) := fun he => by simpa using hi1.2 he
    cases b2 with
    | true =>
      simp only [if_true, Bool.false_eq_true, if_false] at e
      obtain ⟨q', h1, e⟩ := run_ask e
      obtain ⟨a1, a2⟩ := unbroken_spec h.domsOK h.domsLen (some p) g 0 q' hg h1
      cases q' with
      | none => exact stepped_unit hg h (a1 rfl) e
      | some q' =>
        obtain ⟨s1, h3, h4⟩ := run_setPair e
        exact stepped_open h (List.mem_of_getElem? hx1) hn1 h4 h3
    | false =>
      simp only [Bool.false_eq_true, if_false] at e
      exact stepped_open h (List.mem_of_getElem? hx1) hn1 ⟨s.mem, rfl, rfl⟩ e

theorem stepped_cons {cell : Cell μ NogoodMem} {c : Ctx} {g : List Cond} {gs : List (List Cond)} {k k' : Prog σ μ PState} {s : Sys σ μ} {r : Res PState} {s' : Sys σ μ} (h : Stepped n m cell c [g] k' s r s')
    (hk : ∀ s1, Runnable n m s1 → runProg c k' s1 = .ok (r, s') → Stepped n m cell c gs k s1 r s') : Stepped n m cell c (g :: gs) k s r s' := by
  rcases h with ⟨h1, h2, h3⟩ | ⟨s1, h1, h2, h3⟩
  · exact .inl ⟨h1, fun a ha => (h2 a ha).imp fun x hx => ⟨by simp [List.mem_singleton.1 hx.1], hx.2⟩, h3⟩
  · rcases hk s1 h2.run h1 with ⟨k1, k2, k3⟩ | ⟨s2, k1, k2, k3⟩
    · refine .inl ⟨k1, fun a ha => ?_, k3.trans h2.store⟩
      by_cases hg : Forbids g a
      · exact ⟨g, by simp, hg⟩
      · obtain ⟨x, hx, hf⟩ := k2 a (h2.keep a ha fun x hx => by rw [List.mem_singleton.1 hx]; exact hg)
        exact ⟨x, by simp [hx], hf⟩
    · refine .inr ⟨s2, k1, h2.trans k2 (fun a ha x hx => ha x (by simp [List.mem_singleton.1 hx])) (fun a ha x hx => ha x (by simp [hx])), fun x hx => ?_⟩
      obtain ⟨c1, e1⟩ := h2.evolve
      obtain ⟨c2, e2⟩ := k2.evolve
      rcases List.mem_cons.1 hx with rfl | hx
      · exact (h3 x (by simp)).mono (.refl _ e1.okL) e2
      · exact (k3 x hx).mono e1 (.refl _ k2.run.domsOK)

theorem stepped_nil {cell : Cell μ NogoodMem} {c : Ctx} {k : Prog σ μ PState} {s : Sys σ μ} (h : Runnable n m s) {r : Res PState} {s' : Sys σ μ} (e : runProg c k s = .ok (r, s')) :
    Stepped n m cell c [] k s r s' := .inr ⟨s, e, .refl h, by simp⟩

theorem initPairs_step {cell : Cell μ NogoodMem} {c : Ctx} {k : Prog σ μ PState} {r : Res PState} {s' : Sys σ μ} : ∀ (gs : List (List Cond)) {s : Sys σ μ}, (∀ g ∈ gs, Proper n g) → Runnable n m s →
    runProg c (initPairs cell k gs) s = .ok (r, s') → Stepped n m cell c gs k s r s'
  | [], _, _, h, e => stepped_nil h e
  | g :: gs, _, hg, h, e => stepped_cons (initPair_step (hg g (by simp)) h e) fun _ h1 e1 => initPairs_step gs (fun x hx => hg x (by simp [hx])) h1 e1

theorem scanAll_step {cell : Cell μ NogoodMem} {c : Ctx} {r : Res PState} {s' : Sys σ μ} : ∀ (gs : List (List Cond)) (ni : Nat) {s : Sys σ μ}, (∀ g ∈ gs, Proper n g) → Runnable n m s →
    runProg c (scanAll cell ni gs) s = .ok (r, s') → Stepped n m cell c gs (.ret .enable) s r s'
  | [], _, _, _, h, e => stepped_nil h e
  | g :: gs, ni, s, hg, h, e => by
    unfold scanAll at e
    have e' : runProg c (match (cell.get s.mem).watches[ni]? with | none => .raise .ub | some (p, q) => scanOne cell g ni p q (scanAll cell (ni + 1) gs)) s = .ok (r, s') := e
    split at e'
    · cases e'
    · exact stepped_cons (scanOne_step (hg g (by simp)) h e') fun _ h1 e1 => scanAll_step gs (ni + 1) (fun x hx => hg x (by simp [hx])) h1 e1

/-- One run of the scanning propagator: it fails, and everything within the domains is forbidden; or it ends and says it wants to be run again, without losing anything that is not forbidden, and no nogood
of the store was known to be broken at the start unless a literal of it is now known to be false. -/
theorem scan_run {cell : Cell μ NogoodMem} {c : Ctx} {s : Sys σ μ} (h : Runnable n m s) {r : Res PState} {s' : Sys σ μ} (e : runProg c (scan cell) s = .ok (r, s')) :
    (r = .failed ∧ (∀ a, Within s.doms a → ∃ g ∈ (cell.get s.mem).store, Forbids g a) ∧ (cell.get s'.mem).store = (cell.get s.mem).store) ∨
    (r = .val .enable ∧ Moved n m cell (fun a => ∀ g ∈ (cell.get s.mem).store, ¬ Forbids g a) s s' ∧ ∀ g ∈ (cell.get s.mem).store, Unbroken s.doms s'.doms g) := by
  have e' : runProg c (if (cell.get s.mem).store.all (·.all (condFits s.doms.length)) = true then
      initPairs cell (scanAll cell 0 (cell.get s.mem).store) ((cell.get s.mem).store.drop (cell.get s.mem).watches.length) else .raise .ub) s = .ok (r, s') := e
  split at e'
  · rename_i hfit
    have hg : ∀ g ∈ (cell.get s.mem).store, Proper n g := by
      intro g hgm x hx
      rw [h.domsLen] at hfit
      simp only [List.all_eq_true] at hfit
      exact (condFits_iff n x).1 (hfit g hgm x hx)
    rcases initPairs_step _ (fun g hm => hg g (List.mem_of_mem_drop hm)) h e' with ⟨h1, h2, h3⟩ | ⟨s1, h1, h2, h3⟩
    · exact .inl ⟨h1, fun a ha => (h2 a ha).imp fun g hg => ⟨List.mem_of_mem_drop hg.1, hg.2⟩, h3⟩
    · rcases scanAll_step _ 0 hg h2.run h1 with ⟨k1, k2, k3⟩ | ⟨s2, k1, k2, k3⟩
      · refine .inl ⟨k1, fun a ha => Classical.byContradiction fun hn => ?_, k3.trans h2.store⟩
        have hn' : ∀ g ∈ (cell.get s.mem).store, ¬ Forbids g a := fun g hg hf => hn ⟨g, hg, hf⟩
        obtain ⟨g, h4, h5⟩ := k2 a (h2.keep a ha fun g hg => hn' g (List.mem_of_mem_drop hg))
        exact hn' g h4 h5
      · cases k1
        obtain ⟨cs, he⟩ := h2.evolve
        exact .inr ⟨rfl, h2.trans k2 (fun a ha g hg => ha g (List.mem_of_mem_drop hg)) (fun a ha => ha), fun g hg => (k3 g hg).mono he (.refl _ k2.run.domsOK)⟩
  · cases e'

/-! ## What is asked of every propagation function -/

theorem unbroken_ends {d : Doms} (hd : DomsOK d) (hl : d.length = n) (skip : Option Nat) : ∀ (g : List Cond) (p0 : Nat), Proper n g → RightOrOverflow (findUnbroken d skip p0 g) fun _ => True
  | [], _, _ => .inr ⟨none, rfl, trivial⟩
  | c :: cs, p0, hg => by
    have hcs : Proper n cs := fun x hx => hg x (by simp [hx])
    unfold findUnbroken
    split
    · exact unbroken_ends hd hl skip cs (p0 + 1) hcs
    · obtain ⟨hv, hr⟩ := hg c (by simp)
      rcases testLiteral_spec d (.cond c) hd (hl.symm ▸ hv) hr with h | ⟨x, h, _⟩
      · rw [h]; exact .inl rfl
      · rw [h]
        show RightOrOverflow (if x ≠ LiteralIs.definitelyTrue then _ else _) _
        split
        · exact .inr ⟨some p0, rfl, trivial⟩
        · exact unbroken_ends hd hl skip cs (p0 + 1) hcs

theorem broken_ends {d : Doms} (hd : DomsOK d) (hl : d.length = n) {g : List Cond} (hg : Proper n g) (p : Nat) :
    (∃ e, isBroken d g p = .error e ∧ (e = .overflow ∨ e = .ub)) ∨ ∃ b, isBroken d g p = .ok b := by
  unfold isBroken vecAt
  cases h : g[p]? with
  | none => exact .inl ⟨.ub, rfl, .inr rfl⟩
  | some c =>
    obtain ⟨hv, hr⟩ := hg c (List.mem_of_getElem? h)
    rcases testLiteral_spec d (.cond c) hd (hl.symm ▸ hv) hr with h | ⟨x, h, _⟩
    · refine .inl ⟨.overflow, ?_, .inl rfl⟩
      show Except.bind (testLiteral d (.cond c)) _ = _
      rw [h]; rfl
    · refine .inr ⟨decide (x = .definitelyTrue), ?_⟩
      show Except.bind (testLiteral d (.cond c)) _ = _
      rw [h]; rfl

theorem find_ok {g : List Cond} (hg : Proper n g) (ho : R .overflow) (skip : Option Nat) {k : Option Nat → Prog σ μ PState} (hk : ∀ v, (k v).OK n m R) :
    ((Prog.ask (findUnbroken · skip 0 g)).bind k).OK n m R :=
  roo_ask (fun _ => True) ho (fun _ hd hl => unbroken_ends hd hl skip g 0 hg) fun v _ => hk v

theorem isBroken_ok {g : List Cond} (hg : Proper n g) (ho : R .overflow) (hu : R .ub) (p : Nat) {k : Bool → Prog σ μ PState} (hk : ∀ v, (k v).OK n m R) :
    ((Prog.ask (isBroken · g p)).bind k).OK n m R :=
  ok_ask (fun _ => True) (fun _ hd hl => (broken_ends hd hl hg p).imp (fun ⟨e, he, h⟩ => ⟨e, he, h.elim (· ▸ ho) (· ▸ hu)⟩) fun ⟨b, hb⟩ => ⟨b, hb, trivial⟩) fun v _ => hk v

theorem inferNot_ok {g : List Cond} (hg : Proper n g) (hu : R .ub) (p : Nat) {k : Prog σ μ PState} (hk : k.OK n m R) : (inferNot g p k).OK n m R := by
  unfold inferNot
  cases h : g[p]? with
  | none => exact hu
  | some c => exact ⟨hg.not h, hk, nofun⟩

theorem watchAt_ok {g : List Cond} (hg : Proper n g) (hu : R .ub) (p ni : Nat) {k : Prog σ μ PState} (hk : k.OK n m R) : (watchAt g p ni k).OK n m R := by
  unfold watchAt
  cases h : g[p]? with
  | none => exact hu
  | some c => exact ⟨(hg c (List.mem_of_getElem? h)).1, (hg c (List.mem_of_getElem? h)).2, hk⟩

theorem initPairs_ok {cell : Cell μ NogoodMem} (ho : R .overflow) (hu : R .ub) {k : Prog σ μ PState} (hk : k.OK n m R) : ∀ gs : List (List Cond), (∀ g ∈ gs, Proper n g) → (initPairs cell k gs).OK n m R
  | [], _ => hk
  | g :: gs, h => by
    have hg := h g (by simp)
    have hr := initPairs_ok (cell := cell) ho hu hk gs fun x hx => h x (by simp [hx])
    have hp : ∀ p q, (addPair cell p q (initPairs cell k gs)).OK n m R := fun p q s _ _ => hr
    refine find_ok hg ho _ fun v => ?_
    cases v with
    | none => trivial
    | some p =>
      refine find_ok hg ho _ fun v => ?_
      cases v with
      | none => exact inferNot_ok hg hu p (hp p p)
      | some q => exact hp p q

theorem scanAll_ok {cell : Cell μ NogoodMem} (ho : R .overflow) (hu : R .ub) : ∀ (gs : List (List Cond)) (ni : Nat), (∀ g ∈ gs, Proper n g) → (scanAll cell ni gs : Prog σ μ PState).OK n m R
  | [], _, _ => trivial
  | g :: gs, ni, h => by
    have hg := h g (by simp)
    have hr := scanAll_ok (cell := cell) ho hu gs (ni + 1) fun x hx => h x (by simp [hx])
    have hp : ∀ p q, (setPair cell ni p q (scanAll cell (ni + 1) gs)).OK n m R := fun p q s _ _ => hr
    intro s _ _
    show (match (cell.get s.mem).watches[ni]? with | none => .raise .ub | some (p, q) => scanOne cell g ni p q (scanAll cell (ni + 1) gs) : Prog σ μ PState).OK n m R
    split
    · exact hu
    · rename_i p q _
      refine isBroken_ok hg ho hu p fun b1 => isBroken_ok hg ho hu q fun b2 => ?_
      cases b1 <;> cases b2 <;> simp only [if_true, Bool.false_eq_true, if_false]
      · exact hr
      · refine find_ok hg ho _ fun v => ?_
        cases v with
        | none => exact inferNot_ok hg hu _ hr
        | some q' => exact hp _ _
      · refine find_ok hg ho _ fun v => ?_
        cases v with
        | none => exact inferNot_ok hg hu _ hr
        | some q' => exact hp _ _
      · refine find_ok hg ho _ fun v => ?_
        cases v with
        | none => trivial
        | some p' =>
          refine find_ok hg ho _ fun v => ?_
          cases v with
          | none => exact inferNot_ok hg hu _ hr
          | some q' => exact hp _ _

theorem scan_ok (cell : Cell μ NogoodMem) (ho : R .overflow) (hu : R .ub) : (scan cell : Prog σ μ PState).OK n m R := by
  intro s _ hl
  show (if (cell.get s.mem).store.all (·.all (condFits s.doms.length)) = true then
      initPairs cell (scanAll cell 0 (cell.get s.mem).store) ((cell.get s.mem).store.drop (cell.get s.mem).watches.length) else .raise .ub : Prog σ μ PState).OK n m R
  split
  · rename_i hfit
    have hg : ∀ g ∈ (cell.get s.mem).store, Proper n g := by
      intro g hgm x hx
      rw [hl] at hfit
      simp only [List.all_eq_true] at hfit
      exact (condFits_iff n x).1 (hfit g hgm x hx)
    exact initPairs_ok ho hu (scanAll_ok ho hu _ 0 hg) _ fun g hm => hg g (List.mem_of_mem_drop hm)
  · exact hu

end
end Nogoods
end Gcs
