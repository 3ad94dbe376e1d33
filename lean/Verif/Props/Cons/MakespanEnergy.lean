import Verif.Lemmas.Cons.MakespanLinks
import Verif.Lemmas.Cons.MakespanSlots

/-!
# C73: bounds on a makespan from the energy of tasks
-/

namespace Gcs
open Makespan

/-- C73: a task whose start is within the bounds runs at no fewer time points of the window, not counting those for which there are no flags, than `window_energy_bound` says. If moreover neither the window nor the flags begin after the bounds and the flags reach as far as the task may, as when a makespan is bounded, some start that is within the bounds attains this. -/
theorem window_energy_right (length flagsLo : Int) (flagsSize : Nat) (lo hi first last : Int) :
    (∀ s, first ≤ s → s ≤ last → windowEnergyBound length flagsLo flagsSize lo hi (first, last) ≤ overlap length (max lo flagsLo) (min hi (flagsLo + flagsSize)) s) ∧
    (first ≤ last → lo ≤ first → flagsLo ≤ first → last + length ≤ flagsLo + flagsSize →
      ∃ s, first ≤ s ∧ s ≤ last ∧ windowEnergyBound length flagsLo flagsSize lo hi (first, last) = overlap length lo hi s) :=
  ⟨fun _ h1 h2 => window_clipped h1 h2, fun h h1 h2 h3 => ⟨last, h, Int.le_refl _, window_eq h h1 h2 h3⟩⟩

/-- The bound is not always the least overlap, although gcs/constraints/innards/window_energy.hh:126-130 says it is, even if the flags cover whatever the task may do: a task of length 3 that starts from -1 to 1 runs at two or more of the times 0, 1 and 2, and the bound is 1. It may even be negative. -/
theorem window_energy_not_least :
    windowEnergyBound 3 (-1) 5 0 3 (-1, 1) = 1 ∧ (∀ s, -1 ≤ s → s ≤ 1 → 2 ≤ overlap 3 0 3 s) ∧ windowEnergyBound 3 (-5) 15 0 3 (-5, 7) = -3 := by
  refine ⟨by decide, fun s h1 h2 => ?_, by decide⟩
  rw [overlap_eq (by decide)]
  omega

/-- What is counted is at how many times some task may run, which is what the bound on the makespan needs to know. -/
theorem time_slots_right {d : Doms} {ts : List Cumulative.Task} {ws : List (Int × Int)} (hd : DomsOK d) (hv : ∀ t ∈ ts, t.Valid d.length) (hne : ws ≠ []) (proper : ∀ w ∈ ws, w.1 ≤ w.2) (hin : ∀ w ∈ ws, InI64 w.1 ∧ InI64 w.2) :
    RightOrOverflow (Cumulative.prepare d ts ws) (fun o => o.tasks ≠ [] → SlotCounts ws o.lo o.slots ∧ ∀ w ∈ ws, o.lo ≤ w.1 ∧ w.2 < o.lo + ((o.slots.length : Int) - 1)) :=
  prepare_counts hd hv hne proper hin

/-- C73: the search for a bound does not read outside the counts; a bound that it finds is better than what is known, no more than one above where the search ends, and holds in every schedule, whatever the makespan, that respects the capacity at each time, the bounds of starts, and the links. -/
theorem makespan_bound_right (windows : List (Int × Int)) (ks : List Task) (capacity : Int) (pre : List Int) (lo known upTo : Int) (hc : SlotCounts windows lo pre) (hk : ∀ k ∈ ks, k.Proper windows lo) :
    ∃ r, makespanEnergyBound ks capacity pre lo known upTo = .ok r ∧ ∀ b, r = some b → known < b.bound ∧ b.bound ≤ upTo + 1 ∧ b.lo = lo ∧ b.hi = b.bound - 1 ∧
      ∀ (σ : Schedule) (makespan : Int), σ.map (·.1) = ks → σ.Meets makespan → (∀ t, σ.use t ≤ capacity) → b.bound ≤ makespan := by
  unfold makespanEnergyBound
  split
  · exact ⟨none, rfl, fun b e => by cases e⟩
  · rename_i h
    have hp : pre ≠ [] := fun e => h (.inr (.inr (by simp [e])))
    by_cases hl : lo ≤ min upTo (lo + ((pre.length : Int) - 1)) + 1
    · obtain ⟨r, e, r1, -⟩ := loop_ok (ks := ks) (capacity := capacity) (known := known) hc hp hl (by omega)
      refine ⟨r, e, fun b eb => ?_⟩
      obtain ⟨x1, x2, ⟨x3, x4⟩, x5, x6, -⟩ := r1 b eb
      refine ⟨by omega, by omega, x6, by omega, fun σ M hσ hm hu => Classical.byContradiction fun n => ?_⟩
      have hw : ∀ k ∈ σ, k.1.Proper windows lo := fun k m => hk _ (hσ ▸ List.mem_map_of_mem m)
      have a1 := used_le (hi := b.hi) hw hm hu
      have a2 := energy_le_used (mu := b.hi) hw hm (by omega)
      rw [hσ] at a2
      omega
    · rw [Cumulative.times_nil (by omega)]
      exact ⟨none, rfl, fun b e => by cases e⟩

/-- C73: what is said about a wider window is right: it is whether some task may run at the time that it adds. Windows end before the counts do, as in `time_slots_right`. -/
theorem makespan_bound_wider (windows : List (Int × Int)) (ks : List Task) (capacity : Int) (pre : List Int) (lo known upTo : Int) (hc : SlotCounts windows lo pre) (he : ∀ w ∈ windows, w.2 < lo + ((pre.length : Int) - 1))
    {b : Bound} (hb : makespanEnergyBound ks capacity pre lo known upTo = .ok (some b)) : b.widerSuppliesMore = true ↔ ∃ w ∈ windows, w.1 ≤ b.hi ∧ b.hi ≤ w.2 := by
  unfold makespanEnergyBound at hb
  split at hb
  · cases hb
  · rename_i h
    have hp : pre ≠ [] := fun e => h (.inr (.inr (by simp [e])))
    by_cases hl : lo ≤ min upTo (lo + ((pre.length : Int) - 1)) + 1
    · obtain ⟨r, e, r1, -⟩ := loop_ok (ks := ks) (capacity := capacity) (known := known) hc hp hl (by omega)
      rw [hb] at e
      cases e
      obtain ⟨x1, x2, -, -, -, x3⟩ := r1 b rfl
      rw [x3]
      by_cases c : b.hi + 1 ≤ lo + ((pre.length : Int) - 1)
      · rw [Int.min_eq_left c, slots_succ x1]
        by_cases k : (windows.any fun w => decide (w.1 ≤ b.hi ∧ b.hi ≤ w.2)) = true
        · rw [if_pos k]
          simp only [List.any_eq_true, decide_eq_true_eq] at k
          exact ⟨fun _ => k, fun _ => by omega⟩
        · rw [if_neg k]
          simp only [List.any_eq_true, decide_eq_true_eq] at k
          exact ⟨fun h => by omega, fun h => absurd h k⟩
      · rw [show min (b.hi + 1) (lo + ((pre.length : Int) - 1)) = b.hi by omega]
        exact ⟨fun h => by omega, fun ⟨w, hw, h⟩ => by have := he w hw; omega⟩
    · rw [Cumulative.times_nil (by omega)] at hb
      cases hb

/-- C73: and no better one follows from energy alone. Let the known bound be that of the makespan's lower bound and the links, which holds in every schedule. For any makespan from there, from the bound found if there is one, and up to where the search ends, there are starts that respect the bounds and the links and need no more in the window than it supplies. -/
theorem makespan_bound_strongest (windows : List (Int × Int)) (ks : List Task) (capacity : Int) (pre : List Int) (lo makespanLo upTo : Int) (hc : SlotCounts windows lo pre) (hk : ∀ k ∈ ks, k.Proper windows lo)
    (hks : ks ≠ []) (hcap : 0 < capacity) (hp : 2 ≤ pre.length) {r : Option Bound} (hr : makespanEnergyBound ks capacity pre lo (knownBound makespanLo ks) upTo = .ok r) :
    (∀ (σ : Schedule) (makespan : Int), σ.map (·.1) = ks → σ.Meets makespan → makespanLo ≤ makespan → knownBound makespanLo ks ≤ makespan) ∧
    ∀ mu, knownBound makespanLo ks ≤ mu → lo ≤ mu → mu ≤ upTo → mu < lo + pre.length → (∀ b, r = some b → b.bound ≤ mu) →
      ∃ σ : Schedule, σ.map (·.1) = ks ∧ σ.Meets mu ∧ σ.used lo mu ≤ capacity * slots windows lo mu := by
  refine ⟨fun σ M e hm h => known_le h fun k m b eb => ?_, fun mu h1 h2 h3 h4 h5 => ⟨latest mu ks, by simp [latest, Function.comp_def], latest_meets hk h1, ?_⟩⟩
  · rw [← e] at m
    obtain ⟨j, hj, rfl⟩ := List.mem_map.1 m
    have x := hm j hj
    have := x.2.2 b eb
    have := x.1
    omega
  · rw [latest_used hk h1]
    unfold makespanEnergyBound at hr
    rw [if_neg (by rintro (h | h | h) <;> first | exact hks h | omega)] at hr
    obtain ⟨r', e, -, r2⟩ := loop_ok (ks := ks) (capacity := capacity) (known := knownBound makespanLo ks) hc (by rintro rfl; exact absurd hp (by decide)) (hi := min upTo (lo + ((pre.length : Int) - 1)) + 1) (by omega) (by omega)
    rw [hr] at e
    cases e
    refine Classical.byContradiction fun n => ?_
    obtain ⟨b, eb, hb⟩ := r2 mu h2 (by omega) ⟨h1, by omega⟩
    have := h5 b eb
    omega

/-- C73: the links found are those of rows posted. In every solution of the rows, `makespan - start` is at least the bound of the link; the row named says just that; there is one link for each start, never the makespan itself; of rows that say so for the same start the strongest is taken. With proofs off the bounds are the same, if each row has a label when proofs are on. -/
theorem makespan_links_right (makespan : VarId) (rows : List Row) :
    (∀ logger a, (∀ c ∈ rows, c.Holds a) → ∀ x ∈ findLinks logger makespan rows, x.2.bound ≤ makespan.eval a - a x.1) ∧
    (∀ logger, ((findLinks logger makespan rows).map (·.1)).Nodup ∧
      (∀ x ∈ findLinks logger makespan rows, .simple x.1 ≠ makespan ∧ 0 < x.2.bound ∧ (logger = true → x.2.row ≠ none) ∧ ∃ c ∈ rows, c.Links makespan x.1 x.2.bound ∧ c.label = x.2.row) ∧
      ∀ c ∈ rows, ∀ i bound, .simple i ≠ makespan → 0 < bound → c.Links makespan i bound → (logger = true → c.label ≠ none) → ∃ l, (i, l) ∈ findLinks logger makespan rows ∧ bound ≤ l.bound) ∧
    ((∀ c ∈ rows, c.label ≠ none) → findLinks true makespan rows = findLinks false makespan rows) := by
  have main : ∀ logger, LinksOf (fun i l => ∃ c ∈ rows, Usable logger makespan i l c) (findLinks logger makespan rows) := fun logger => by
    have := links_ok (logger := logger) (makespan := makespan) rows [] [] ⟨by simp, fun _ h => (by cases h), fun _ _ ⟨_, h, _⟩ => (by cases h)⟩
    simpa [findLinks] using this
  refine ⟨fun logger a ha x hx => ?_, fun logger => ⟨(main logger).keys, fun x hx => ?_, fun c hc i b h1 h2 h3 h4 => ?_⟩, fun h => ?_⟩
  · obtain ⟨c, hc, u⟩ := (main logger).from_ x hx
    have r := ha c hc u.links.reif
    have v := u.links.value
    rcases u.links.terms with e | e <;> rw [e] at r <;> simp only [List.map_cons, List.map_nil, List.sum_cons, List.sum_nil, show (VarId.simple x.1).eval a = a x.1 from rfl] at r <;> omega
  · obtain ⟨c, hc, u⟩ := (main logger).from_ x hx
    exact ⟨u.other, u.pos, fun e => u.label ▸ u.named e, c, hc, u.links, u.label.symm⟩
  · exact (main logger).most i ⟨b, c.label⟩ ⟨c, hc, h3, h2, h1, rfl, h4⟩
  · unfold findLinks
    suffices ∀ (rs : List Row) (m : List (Nat × Link)), (∀ c ∈ rs, c.label ≠ none) →
        rs.foldl (addLink true makespan) m =
        rs.foldl (addLink false makespan) m from this rows [] h
    intro rs
    induction rs with
    | nil => intro m _; rfl
    | cons c rs ih =>
      intro m hl
      have e : linkOf true makespan c = linkOf false makespan c := by
        unfold linkOf
        simp [hl c List.mem_cons_self]
      rw [List.foldl_cons, List.foldl_cons, show addLink true makespan m c = addLink false makespan m c by unfold addLink; rw [e]]
      exact ih _ fun d hd => hl d (List.mem_cons_of_mem _ hd)

/-- C73, from the rows to the bound: for tasks with start variables, linked by the rows posted, the bound holds in every assignment that satisfies these rows, has the starts within their bounds, and respects the capacity at each time. -/
theorem makespan_bound_holds (windows : List (Int × Int)) (rows : List Row) (makespan : VarId) (logger : Bool) (tasks : List (Nat × Task)) (capacity : Int) (pre : List Int) (lo known upTo : Int)
    (hc : SlotCounts windows lo pre) (hk : ∀ k ∈ tasks, k.2.Proper windows lo) {b : Bound}
    (hb : makespanEnergyBound (tasks.map fun k => k.2.linked (findLinks logger makespan rows) k.1) capacity pre lo known upTo = .ok (some b))
    (a : Asg) (hr : ∀ c ∈ rows, c.Holds a) (hs : ∀ k ∈ tasks, k.2.startLb ≤ a k.1 ∧ a k.1 ≤ k.2.startUb)
    (hu : ∀ t, (tasks.map fun k => if a k.1 ≤ t ∧ t < a k.1 + k.2.length then k.2.height else 0).sum ≤ capacity) : b.bound ≤ makespan.eval a := by
  obtain ⟨r, e, h⟩ := makespan_bound_right windows (tasks.map fun k => k.2.linked (findLinks logger makespan rows) k.1) capacity pre lo known upTo hc fun k m => by
    obtain ⟨j, hj, rfl⟩ := List.mem_map.1 m
    obtain ⟨x1, x2, x3, x4, x5, x6⟩ := hk j hj
    exact ⟨x1, x2, x3, x4, x5, x6⟩
  rw [hb] at e
  cases e
  refine (h b rfl).2.2.2.2 (tasks.map fun k => (k.2.linked (findLinks logger makespan rows) k.1, a k.1)) _ (by simp [Function.comp_def]) (fun k m => ?_) fun t => ?_
  · obtain ⟨j, hj, rfl⟩ := List.mem_map.1 m
    refine ⟨(hs j hj).1, (hs j hj).2, fun x ex => ?_⟩
    obtain ⟨y, ey, rfl⟩ := Option.map_eq_some_iff.1 (show ((findLinks logger makespan rows).find? fun x => x.1 = j.1).map (·.2.bound) = some x from ex)
    have hy := (makespan_links_right makespan rows).1 logger a hr y (List.mem_of_find?_eq_some ey)
    have := List.find?_some ey
    rw [decide_eq_true_eq] at this
    rw [← this]
    exact hy
  · refine Int.le_trans (Int.le_of_eq ?_) (hu t)
    simp [Schedule.use, Function.comp_def, Task.linked]

/-- Two rows for one start, of which the second is stronger; one that depends on a condition, one about a view, and one the other way round. -/
example : findLinks true (.simple 9) [⟨.mustHold, [(1, .simple 0), (-1, .simple 9)], -3, some 1⟩, ⟨.mustHold, [(-1, .simple 9), (1, .simple 0)], -4, some 2⟩, ⟨.mustHold, [(1, .simple 0), (-1, .simple 9)], -2, some 6⟩,
    ⟨.ifCond ⟨.simple 3, .equal, 1, 0⟩, [(1, .simple 1), (-1, .simple 9)], -3, some 3⟩, ⟨.mustHold, [(1, .view 1 false 3), (-1, .simple 9)], -1, some 4⟩, ⟨.mustHold, [(1, .simple 9), (-1, .simple 2)], -1, some 5⟩] = [(0, ⟨4, some 2⟩)] := by decide

example : (⟨.mustHold, [(-1, .simple 9), (1, .simple 0)], -4, some 2⟩ : Row).Links (.simple 9) 0 4 := ⟨rfl, .inr rfl, rfl⟩

/-- Three tasks of length 2 and height 1, capacity 1, and starts from 0 to 8: the makespan is at least 6, although each link only says 2. -/
def threeTasks : List Task := List.replicate 3 ⟨2, 1, 0, 9, 0, 8, some 2⟩

example : makespanEnergyBound threeTasks 1 [0, 1, 2, 3, 4, 5, 6, 7, 8, 9, 10] 0 (knownBound 0 threeTasks) 10 = .ok (some ⟨6, 0, 5, true⟩) := by decide

example : SlotCounts [(0, 9)] 0 [0, 1, 2, 3, 4, 5, 6, 7, 8, 9, 10] ∧ ∀ k ∈ threeTasks, k.Proper [(0, 9)] 0 := by
  refine ⟨by unfold SlotCounts; decide, fun k hk => ?_⟩
  rw [(List.mem_replicate.1 hk).2]
  exact ⟨by decide, by decide, by decide, by decide, by decide, by decide⟩

/-- A schedule that has this makespan. -/
example : let σ : Schedule := threeTasks.zip [0, 2, 4]
    σ.map (·.1) = threeTasks ∧ σ.Meets 6 ∧ ∀ t, σ.use t ≤ 1 := by
  refine ⟨rfl, ?_, fun t => ?_⟩
  · intro k hk
    simp only [threeTasks, List.replicate, List.zip_cons_cons, List.zip_nil_right, List.mem_cons, List.not_mem_nil, or_false] at hk
    rcases hk with rfl | rfl | rfl <;> refine ⟨by decide, by decide, fun b e => ?_⟩ <;> cases e <;> decide
  · simp only [Schedule.use, threeTasks, List.replicate, List.zip_cons_cons, List.zip_nil_right, List.map_cons, List.map_nil, List.sum_cons, List.sum_nil]
    split <;> split <;> split <;> omega

/-- The same, with links from rows. -/
example : makespanEnergyBound ([0, 1, 2].map fun i => (⟨2, 1, 0, 9, 0, 8, none⟩ : Task).linked (findLinks false (.simple 3) ([0, 1, 2].map fun i => ⟨.mustHold, [(1, .simple i), (-1, .simple 3)], -2, none⟩)) i) 1 [0, 1, 2, 3, 4, 5, 6, 7, 8, 9, 10] 0 2 10 =
    .ok (some ⟨6, 0, 5, true⟩) := by decide

/-- A gap at which no task may run is not counted. -/
example : makespanEnergyBound [⟨2, 2, 0, 1, 0, 0, none⟩, ⟨2, 2, 5, 9, 5, 8, some 2⟩, ⟨2, 1, 5, 9, 5, 8, some 2⟩] 2 [0, 1, 2, 2, 2, 2, 3, 4, 5, 6, 7] 0 7 10 = .ok (some ⟨8, 0, 7, true⟩) := by decide

/-- A wider window that has no more to supply: one task, of height 2 with capacity 1, that cannot run after the time 1. -/
example : makespanEnergyBound [⟨1, 2, 0, 1, 0, 1, some 1⟩] 1 [0, 1, 2, 2, 2, 3] 0 1 3 = .ok (some ⟨2, 0, 1, true⟩) ∧ makespanEnergyBound [⟨1, 3, 0, 1, 0, 1, some 1⟩] 1 [0, 1, 2, 2, 2, 3] 0 1 3 = .ok (some ⟨4, 0, 3, false⟩) := by decide

/-- What is prepared for two tasks that cannot run in between. -/
example : (Cumulative.prepare [[(0, 2)], [(6, 7)]] [⟨.simple 0, .const 1, .const 1, none⟩, ⟨.simple 1, .const 1, .const 1, none⟩] [(0, 2), (6, 7)]).map (fun o => (o.lo, o.slots)) = .ok (0, [0, 1, 2, 3, 3, 3, 3, 4, 5]) := by decide

end Gcs
