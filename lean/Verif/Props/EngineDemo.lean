import Verif.Props.Propagate
import Verif.Lemmas.Ask

/-!
# A concrete engine

Shows that the hypotheses of the theorems in `Props/Propagate.lean` are met: two variables with values 0 to 3, two propagators, for `x < y` and `y < x + 3`, with
bounds triggers, at the root and below it.
-/

namespace Gcs.Demo
open IntervalSet Queue

/-- Bounds propagation for `x + k < y`, in terms of the operations propagation functions have. -/
def less (x y : VarId) (k : Int) : Prog Unit Unit PState :=
  (Prog.ask (fun d => do
    let lx ← lowerBound d x
    let uy ← upperBound d y
    let lo ← iAdd lx k
    let hi ← iSub uy k
    let lo1 ← iAdd lo 1
    return (lo1, hi))).bind fun r =>
  .infer (.cond (Cond.ge y r.1)) false fun _ => .infer (.cond (Cond.lt x r.2)) false fun _ => .ret .enable

def x : VarId := .simple 0
def y : VarId := .simple 1

def E : Engine Unit Unit :=
  (Engine.empty.install 0 (less x y 0) { onBounds := [x, y] }).install 1 (less y x (-3)) { onBounds := [x, y] }

def s0 : Sys Unit Unit :=
  ⟨⟨[[[(0, 3)], [(0, 3)]]], [[]], [[]], [], [], none, none⟩, .fresh, .empty, ⟨[], [], 0, 0, 0⟩, [], [], 0, 0, 0, [], (), 0, []⟩

theorem less_asks {n : Nat} {x y : VarId} {k : Int} (hk : InI64 k) (hx : x.Valid n) (hy : y.Valid n) (d : Doms) (hd : DomsOK d) (hl : d.length = n) :
    RightOrOverflow (α := Int × Int) (do
      let lx ← lowerBound d x
      let uy ← upperBound d y
      let lo ← iAdd lx k
      let hi ← iSub uy k
      let lo1 ← iAdd lo 1
      return (lo1, hi)) (fun r => InI64 r.1 ∧ InI64 r.2 ∧ ∀ a, Within d a → r.1 ≤ x.eval a + k + 1 ∧ y.eval a - k ≤ r.2) := by
  refine (lower_roo hd (by rw [hl]; exact hx)).bind fun lx h1 => ?_
  refine (upper_roo hd (by rw [hl]; exact hy)).bind fun uy h2 => ?_
  refine (add_roo h1.1 hk).bind fun lo h3 => ?_
  refine (sub_roo h2.1 hk).bind fun hi h4 => ?_
  refine (add_roo h3.2 (by decide)).bind fun lo1 h5 => ?_
  refine .pure ⟨h5.2, h4.2, fun a ha => ?_⟩
  have := h1.2.2 _ (ha.poss x)
  have := h2.2.2 _ (ha.poss y)
  show lo1 ≤ _ ∧ _ ≤ hi
  omega

theorem less_ok {n m : Nat} (x y : VarId) (k : Int) (hk : InI64 k) (hx : x.Valid n) (hy : y.Valid n) : (less x y k).OK n m (· = .overflow) := by
  refine roo_ask (fun r => InI64 r.1 ∧ InI64 r.2) rfl (fun d hd hl => (less_asks hk hx hy d hd hl).mono fun r h => ⟨h.1, h.2.1⟩) ?_
  intro r hr
  exact ⟨⟨hy, hr.1, show InI64 0 by decide⟩, ⟨⟨hx, hr.2, show InI64 0 by decide⟩, trivial, nofun⟩, nofun⟩

theorem less_sound {n : Nat} (x y : VarId) (k : Int) (hk : InI64 k) (hx : x.Valid n) (hy : y.Valid n) (a : Asg) (ha : x.eval a + k < y.eval a) : (less x y k).Sound n a := by
  refine sound_ask fun d hd hl hw r hr => ?_
  have := ((less_asks hk hx hy d hd hl).value hr).2.2 a hw
  refine ⟨?_, ?_, trivial⟩
  · show r.1 ≤ y.eval a; omega
  · show x.eval a < r.2; omega

theorem built : Built 2 0 (· = .overflow) E [(less x y 0, { onBounds := [x, y] }), (less y x (-3), { onBounds := [x, y] })] :=
  Built.install 1 (less y x (-3)) { onBounds := [x, y] }
    (Built.install 0 (less x y 0) { onBounds := [x, y] } .empty (less_ok x y 0 (by decide) (show 0 < 2 by decide) (show 1 < 2 by decide)).safe (by simp))
    (less_ok y x (-3) (by decide) (show 1 < 2 by decide) (show 0 < 2 by decide)).safe (by simp)

theorem dom_ok (l u : Int) (h : l ≤ u) (hl : InI64 l) (hu : InI64 u) : DomOK [(l, u)] :=
  ⟨⟨by simpa using h, by simp⟩, by simpa [IntervalSet.InRange] using ⟨hl, hu⟩, l, (l, u), by simp, Int.le_refl _, h⟩

theorem call : CallOK 2 0 E [] s0 where
  domsOK := by
    intro s hs
    have : s = [(0, 3)] := by simpa [Sys.doms, s0] using hs
    subst this; exact dom_ok 0 3 (by decide) (by decide) (by decide)
  domsLen := rfl
  varsNe := by simp [s0]
  cstatesLen := rfl
  epochs := by simp [s0]
  watches := by intro v ws x hv; simp [s0, Watches.empty] at hv
  boxes := by simp [box, s0, Watches.empty]
  inv := fun h => absurd rfl h

def sol (a : Asg) : Prop := a 0 < a 1 ∧ a 1 < a 0 + 3

theorem sound : ∀ (p : Nat) f, E.progs[p]? = some f → E.permDisabled[p]? = some false → ∀ a, sol a → f.Truthful 2 a := by
  intro p f hf _ a ha
  have : p = 0 ∧ f = less x y 0 ∨ p = 1 ∧ f = less y x (-3) := by
    rw [built.progs] at hf
    match p, hf with
    | 0, hf => left; exact ⟨rfl, by simpa using hf.symm⟩
    | 1, hf => right; exact ⟨rfl, by simpa using hf.symm⟩
    | p + 2, hf => simp at hf
  rcases this with ⟨_, rfl⟩ | ⟨_, rfl⟩
  · exact (less_sound x y 0 (by decide) (show 0 < 2 by decide) (show 1 < 2 by decide) a (by have := ha.1; simp [x, y, VarId.eval]; omega)).truthful
  · exact (less_sound y x (-3) (by decide) (show 1 < 2 by decide) (show 0 < 2 by decide) a (by have := ha.2; simp [x, y, VarId.eval]; omega)).truthful

/-- What the call returns: true, `x` in 0 to 2, `y` in 1 to 3; four propagation functions were run, none is disabled. -/
theorem runs : ∃ s', Sys.propagate E [] (fun _ => false) s0 = .ok (true, s') ∧ s'.doms = [[(0, 2)], [(1, 3)]] ∧ s'.total = 4 ∧ s'.q.queue.length ≤ s'.q.idle := by
  have h : (match Sys.propagate E [] (fun _ => false) s0 with
    | .ok (true, s') => decide (s'.doms = [[(0, 2)], [(1, 3)]] ∧ s'.total = 4 ∧ s'.q.queue.length ≤ s'.q.idle)
    | _ => false) = true := by decide +kernel
  split at h
  · exact ⟨_, by assumption, of_decide_eq_true h⟩
  · cases h

example : (∃ e, Sys.propagate E [] (fun _ => false) s0 = .error e ∧ (e = .overflow ∨ e = .overflow)) ∨
    ∃ b s', Sys.propagate E [] (fun _ => false) s0 = .ok (b, s') ∧ s'.total ≤ 0 + 2 + 3 * s0.doms.card := propagate_terminates built.wf _ call

example : ∀ a, sol a → (Within [[(0, 2)], [(1, 3)]] a ↔ Within s0.doms a) := by
  obtain ⟨s', h1, h2, _⟩ := runs
  have := propagate_loses_nothing built.wf (fun _ => false) call sol sound h1
  rw [if_pos rfl, h2] at this
  exact this

example : ∃ s', Sys.propagate E [] (fun _ => false) s0 = .ok (true, s') ∧ Ready s'.q = [] ∧ UpToDate E s'.trace 0 ∧ .start 1 ∈ s'.trace := by
  obtain ⟨s', h1, _, _, hq⟩ := runs
  have h := propagate_fixed_point built.wf call h1 (fun _ _ => rfl)
  have hd : ∀ p, ¬ IsDisabled s'.q p := by
    rintro p ⟨i, h1, h2⟩
    rw [List.getElem?_eq_none (by omega)] at h2; cases h2
  exact ⟨s', h1, h.1, (h.2 0 rfl (hd 0)).1, (h.2 1 rfl (hd 1)).2 (.inl rfl)⟩

end Gcs.Demo
