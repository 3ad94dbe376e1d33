import Verif.Lemmas.Cons.CumulativeInstall
import Verif.Lemmas.Cons.MakespanEnergy

/-! Bounds on a makespan: what `prepare` counts. -/

namespace Gcs.Makespan

open Gcs.Cumulative

theorem any_tot {u : Int} : ∀ {ws : List (Int × Int)}, (ws.any fun w => decide (w.1 ≤ u ∧ u ≤ w.2)) = true ↔ tot (fun w : Int × Int => if w.1 ≤ u ∧ u ≤ w.2 then (1 : Int) else 0) ws > 0
  | [] => by simp
  | w :: ws => by
    have n : 0 ≤ tot (fun w : Int × Int => if w.1 ≤ u ∧ u ≤ w.2 then (1 : Int) else 0) ws := tot_nonneg fun _ _ => by split <;> decide
    rw [List.any_cons, Bool.or_eq_true, any_tot (ws := ws), tot_cons]
    by_cases h : w.1 ≤ u ∧ u ≤ w.2
    · simp only [h, and_self, decide_true, true_or, if_true, true_iff]
      omega
    · rw [if_neg h, decide_eq_false h, Int.zero_add]
      simp

theorem prepare_counts {d : Doms} {ts : List Cumulative.Task} {ws : List (Int × Int)} (hd : DomsOK d) (hv : ∀ t ∈ ts, t.Valid d.length) (hne : ws ≠ []) (proper : ∀ w ∈ ws, w.1 ≤ w.2) (hin : ∀ w ∈ ws, InI64 w.1 ∧ InI64 w.2) :
    RightOrOverflow (prepare d ts ws) (fun o => o.tasks ≠ [] → SlotCounts ws o.lo o.slots ∧ ∀ w ∈ ws, o.lo ≤ w.1 ∧ w.2 < o.lo + ((o.slots.length : Int) - 1)) := by
  classical
  refine (Disjunctive2D.keep_roo (P := fun t => eligible d t = .ok true) ts fun t ht => ?_).bind fun es hes => ?_
  · rcases eligible_roo hd (hv t ht) with h | ⟨b, h, _⟩
    · exact .inl h
    · exact .inr ⟨b, h, by rw [h]; exact ⟨fun e => by rw [e], fun e => by injection e⟩⟩
  split
  · exact .pure fun h => absurd rfl h
  · cases ws with
    | nil => exact absurd rfl hne
    | cons w rest =>
      dsimp only
      obtain ⟨l1, l2, l3⟩ := foldl_min rest w.1 (hin w List.mem_cons_self).1 fun y hy => (hin y (List.mem_cons_of_mem _ hy)).1
      obtain ⟨h1, h2, h3⟩ := foldl_max rest w.2 (hin w List.mem_cons_self).2 fun y hy => (hin y (List.mem_cons_of_mem _ hy)).2
      generalize rest.foldl (fun l w => min l w.1) w.1 = lo at l1 l2 l3 ⊢
      generalize rest.foldl (fun h w => max h w.2) w.2 = hi at h1 h2 h3 ⊢
      have lims : ∀ y ∈ w :: rest, lo ≤ y.1 ∧ y.2 ≤ hi := fun y hy => by
        rcases List.mem_cons.1 hy with rfl | hy
        · exact ⟨l2, h2⟩
        · exact ⟨l3 y hy, h3 y hy⟩
      refine (sub_roo h1 l1).bind fun q hq => (add_roo hq.2 (by decide)).bind fun range hrange => ?_
      have e1 := hq.1; have e2 := hrange.1
      have q0 := lims w List.mem_cons_self
      have q1 := proper w List.mem_cons_self
      refine (foldlM_roo (I := fun left v => ∃ seen, seen ++ left = w :: rest ∧ Vec v lo (range.toNat + 1) (diff seen)) ?_ (w :: rest) _
        ⟨[], rfl, ⟨by simp, fun k hk => by simp [hk, diff]⟩⟩).bind fun v hvv => ?_
      · rintro x left v ⟨seen, e, hvv⟩
        have mx : x ∈ w :: rest := by rw [← e]; simp
        have lx := lims x mx
        refine (mark_roo l1 (hin x mx).1 (hin x mx).2 lx.1 (proper x mx) (by omega) hvv).mono fun v' hv' => ⟨seen ++ [x], by rw [← e]; simp, hv'.congr fun u _ _ => ?_⟩
        simp [diff]
      · obtain ⟨seen, e, hvv⟩ := hvv
        rw [List.append_nil] at e
        subst e
        have len : (v.take range.toNat).length = range.toNat := by rw [List.length_take, hvv.size]; omega
        have take : Vec (v.take range.toNat) lo (v.take range.toNat).length (diff (w :: rest)) := ⟨rfl, fun k hk => by
          rw [len] at hk
          rw [List.getElem?_take_of_lt hk]
          exact hvv.at_ k (by omega)⟩
        have cv := covered_vec (c := 0) take
        have clen := cv.size
        rw [len] at clen
        have cv' : Vec (covered 0 (v.take range.toNat)) lo (covered 0 (v.take range.toNat)).length (fun u => if 0 + tot (diff (w :: rest)) (times lo (u + 1)) > 0 then 1 else 0) := by
          rw [clen]; rw [len] at cv; exact cv
        refine (sums_roo cv' (fun u _ _ => ?_) (by decide)).bind fun sl hslots => .pure fun _ => ?_
        · show InI64 (if _ then 1 else 0)
          split <;> decide
        · rw [clen] at hslots
          simp only [Int.zero_add] at hslots
          have sz := hslots.1.size
          refine ⟨fun k hk => ?_, fun y hy => ?_⟩
          · have hk : k < sl.length := hk
            have := hslots.1.at_ k (by omega)
            rw [List.getElem?_eq_getElem hk, Option.some.injEq] at this
            refine this.trans ?_
            rw [slots, countP_tot]
            refine tot_congr fun u hu => ?_
            have := (mem_times.1 hu).1
            have this : lo ≤ u := this
            rw [tot_diff (fun y hy => ⟨(lims y hy).1, proper y hy⟩) (by omega)]
            by_cases c : tot (fun w : Int × Int => if w.1 ≤ u ∧ u ≤ w.2 then (1 : Int) else 0) (w :: rest) > 0
            · rw [if_pos c, if_pos (any_tot.2 c)]
            · rw [if_neg c, if_neg fun h => c (any_tot.1 h)]
          · have := lims y hy
            show lo ≤ y.1 ∧ y.2 < lo + ((sl.length : Int) - 1)
            omega

end Gcs.Makespan
