import Verif.Lemmas.Cons.LinearSlack
import Verif.Props.Cons.Linear

/-!
# C38: waking by slack

An inequality that is woken only by some of its variables does not miss anything, as long as all watches that fire are passed on (which they are not always: see `WatchDemo.claims_lose_watches`).
-/

namespace Gcs
open IntervalSet Linear

section
variable {σ μ : Type} {n m : Nat} {terms : List WTerm} {value : Int}

/-- C38: the propagator for `wsum terms ≤ value` has run without failing, and watches have been chosen. As long as none of the watched literals is true whatever the values, every value that is left, of any variable, is
part of an assignment within the domains for which the inequality holds. So waking the propagator would be useless, and when all variables have values, the inequality holds. `sort` puts the terms in descending
order, in one way or another. -/
theorem linearSlack_enough {c : Ctx} {s s' : Sys σ μ} {r : Res PState} {x : List Term × Int} {bs ws : List Bounded} {d' : Doms} {sort : List (Bounded × Int) → List (Bounded × Int)} (ht : TermsOK n terms)
    (hv : InI64 (value + x.2)) (hx : tidy terms = .ok x) (hs : Runnable n m s) (hr : runProg c (propagate false x.1 (value + x.2)) s = .ok (r, s')) (hf : ¬ Failed r s')
    (hsort : ∀ ps, (sort ps).Perm ps ∧ ((sort ps).map (·.2)).Pairwise (· ≥ ·)) (hb : readBounds s'.doms x.1 = .ok bs) (hc : slackCover sort (value + x.2) bs = .ok ws)
    (hd' : DomsOK d') (hsub : ∀ a, Within d' a → Within s'.doms a) (hw : ∀ t ∈ ws, ∃ l, slackLiteral t = .ok l ∧ ∃ a, Within d' a ∧ ¬ l.holds a) (v : Nat) (y : Int) (hy : ∃ a, Within d' a ∧ a v = y) :
    ∃ a, Within d' a ∧ a v = y ∧ wsum terms a ≤ value := by
  obtain ⟨tx, _, _, sx⟩ := (tidy_roo ht).value hx
  have ver := propagate_consistent (σ := σ) (μ := μ) (J := { n, m, R := (· = .overflow), C := fun a => tsum x.1 a ≤ value + x.2 }) rfl hv tx (fun _ h => h) hs.domsOK hs.domsLen
  have ver := ver_facts _ _ hs.domsOK hs.domsLen ver
  obtain ⟨_, _, ⟨h1, h2, _⟩, h⟩ := wp_run (np := c.owner + 1) c (Nat.lt_succ_self _) _ s (Ver.okAt _ _ ver) (Ver.wp _ _ ver) hs r s' hr hf
  obtain ⟨eb, fb⟩ := (readBounds_roo h1 h2 tx.var).value hb
  have key := slackCover_enough tx hv hsort h1 eb fb h hc hd' hsub ?_ v y hy
  · obtain ⟨a, h1, h2, h3⟩ := key
    exact ⟨a, h1, h2, by have := sx a; omega⟩
  · intro t ht'
    obtain ⟨l, hl, a, ha, hna⟩ := hw t ht'
    have hm := slackCover_sub hsort hc t ht'
    have ft := fb t hm
    have b1 := ft.lo.2 _ ⟨a, hsub a ha, rfl⟩
    have b2 := ft.hi.2 _ ⟨a, hsub a ha, rfl⟩
    simp only [VarId.eval] at b1 b2
    refine ⟨a, ha, ?_⟩
    simp only [slackLiteral] at hl
    simp only [low, eff, Bool.false_eq_true, if_false]
    split at hl
    · rename_i hp
      obtain ⟨k, hk, hl⟩ := bind_ok hl
      cases hl
      have := Pb.iAdd_eq hk
      simp only [Cond.holds, Cond.ge, VarId.eval] at hna
      rw [if_pos hp, show a t.term.var = t.lo by omega]
    · rename_i hp
      obtain ⟨k, hk, hl⟩ := bind_ok hl
      obtain ⟨k', hk', hl⟩ := bind_ok hl
      cases hl
      have := Pb.iSub_eq hk
      have := Pb.iAdd_eq hk'
      simp only [Cond.holds, Cond.lt, VarId.eval] at hna
      rw [if_neg hp, show a t.term.var = t.hi by omega]

end

/-! A concrete case: `3x - 5y + z + w ≤ 3`, with `x`, `y` and `w` in 0..1 and `z` in 0..2. Only `x` and `y` are watched: `z` and `w` together can add at most 3 to -5, and then a single variable at most 5. -/

namespace Linear.Slack

def doms : Doms := [[(0, 1)], [(0, 1)], [(0, 2)], [(0, 1)]]
def ts : List Term := [⟨3, 0⟩, ⟨-5, 1⟩, ⟨1, 2⟩, ⟨1, 3⟩]
/-- Insertion sort. -/
def insert (p : Bounded × Int) : List (Bounded × Int) → List (Bounded × Int)
  | [] => [p]
  | q :: qs => if p.2 ≥ q.2 then p :: q :: qs else q :: insert p qs
def sort : List (Bounded × Int) → List (Bounded × Int)
  | [] => []
  | p :: ps => insert p (sort ps)

theorem insert_perm (p : Bounded × Int) : ∀ ps, (insert p ps).Perm (p :: ps)
  | [] => .refl _
  | q :: qs => by
    unfold insert
    split
    · exact .refl _
    · exact ((insert_perm p qs).cons q).trans (.swap ..)

theorem insert_sorted (p : Bounded × Int) : ∀ ps : List (Bounded × Int), (ps.map (·.2)).Pairwise (· ≥ ·) → ((insert p ps).map (·.2)).Pairwise (· ≥ ·)
  | [], _ => by simp [insert]
  | q :: qs, h => by
    rw [List.map_cons, List.pairwise_cons] at h
    unfold insert
    split
    · rename_i hpq
      rw [List.map_cons, List.map_cons, List.pairwise_cons, List.pairwise_cons]
      refine ⟨fun y hy => ?_, h⟩
      rcases List.mem_cons.1 hy with rfl | hy
      · exact hpq
      · exact Int.le_trans (h.1 y hy) hpq
    · rename_i hpq
      rw [List.map_cons, List.pairwise_cons]
      refine ⟨fun y hy => ?_, insert_sorted p qs h.2⟩
      obtain ⟨z, hz, rfl⟩ := List.mem_map.1 hy
      rcases List.mem_cons.1 ((insert_perm p qs).mem_iff.1 hz) with rfl | hz
      · omega
      · exact h.1 _ (List.mem_map.2 ⟨z, hz, rfl⟩)

/-- What is demanded of `sort` can be had. -/
example : ∀ ps, (sort ps).Perm ps ∧ ((sort ps).map (·.2)).Pairwise (· ≥ ·)
  | [] => ⟨.refl _, by simp [sort]⟩
  | p :: ps => by
    have key : ∀ ps, (sort ps).Perm ps ∧ ((sort ps).map (·.2)).Pairwise (· ≥ ·) := by
      intro ps
      induction ps with
      | nil => exact ⟨.refl _, by simp [sort]⟩
      | cons p ps ih => exact ⟨(insert_perm p _).trans (ih.1.cons p), insert_sorted p _ ih.2⟩
    exact key _

def bs : List Bounded := [⟨⟨3, 0⟩, 0, 1⟩, ⟨⟨-5, 1⟩, 0, 1⟩, ⟨⟨1, 2⟩, 0, 2⟩, ⟨⟨1, 3⟩, 0, 1⟩]

example : (runProg ⟨0, []⟩ (propagate (σ := Unit) (μ := Unit) false ts 3) (Sys.start doms [] () (Run.setup doms []).watches)).toOption.map (fun p => (p.1, p.2.doms, p.2.tr.contradicted)) =
    some (.val .enableButIdempotent, doms, false) := by decide +kernel
example : readBounds doms ts = .ok bs := by decide +kernel
example : slackCover sort 3 bs = .ok [⟨⟨-5, 1⟩, 0, 1⟩, ⟨⟨3, 0⟩, 0, 1⟩] := by decide +kernel
example : slackLiteral ⟨⟨-5, 1⟩, 0, 1⟩ = .ok (Cond.lt (.simple 1) 1) ∧ slackLiteral ⟨⟨3, 0⟩, 0, 1⟩ = .ok (Cond.ge (.simple 0) 1) := by decide +kernel
/-- The others may change, and the watched literals are still not entailed. -/
example : ∃ a, Within [[(0, 1)], [(0, 1)], [(2, 2)], [(1, 1)]] a ∧ ¬ (Cond.lt (.simple 1) 1).holds a ∧ ¬ (Cond.ge (.simple 0) 1).holds a := by
  refine ⟨fun i => [0, 1, 2, 1].getD i 0, fun j s hs => ?_, by decide, by decide⟩
  rcases j with _ | _ | _ | _ | j <;> cases hs <;> decide

end Linear.Slack
end Gcs
