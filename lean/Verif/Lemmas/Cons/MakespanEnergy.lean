import Verif.Lemmas.Cons.CumulativeSum
import Verif.Spec.MakespanEnergy

/-! Bounds on a makespan: sums over windows. -/

namespace Gcs.Makespan

open Gcs.Cumulative

theorem countP_tot {p : Int → Bool} : ∀ {l : List Int}, ((l.countP p : Nat) : Int) = tot (fun t => if p t then 1 else 0) l
  | [] => rfl
  | x :: l => by
    rw [tot_cons, ← countP_tot (l := l), List.countP_cons]
    by_cases h : p x = true <;> simp [h] <;> omega

theorem overlap_eq {p lo hi s : Int} (h : lo ≤ hi) : overlap p lo hi s = max 0 (min hi (s + p) - max lo s) := by
  have := tot_overlap (s := s) (e := s + p) (h := 1) h
  rw [Int.one_mul] at this
  rw [overlap, countP_tot, ← this]
  exact tot_congr fun t _ => by simp

theorem overlap_none {p lo hi s : Int} (h : hi ≤ lo) : overlap p lo hi s = 0 := by
  rw [overlap, times_nil h]
  rfl

theorem window_clipped {p f lo hi s : Int} {n : Nat} {sb : Int × Int} (h1 : sb.1 ≤ s) (h2 : s ≤ sb.2) : windowEnergyBound p f n lo hi sb ≤ overlap p (max lo f) (min hi (f + n)) s := by
  have h0 : 0 ≤ overlap p (max lo f) (min hi (f + n)) s := by unfold overlap; omega
  unfold windowEnergyBound
  dsimp only
  split
  · exact h0
  · rw [overlap_eq (by omega)]
    omega

theorem overlap_mono {p lo hi lo' hi' s : Int} (h1 : lo ≤ lo') (h2 : hi' ≤ hi) : overlap p lo' hi' s ≤ overlap p lo hi s := by
  by_cases e : hi' ≤ lo'
  · rw [overlap_none e]
    unfold overlap
    omega
  · rw [overlap_eq (by omega), overlap_eq (by omega)]
    omega

theorem window_le {p f lo hi s : Int} {n : Nat} {sb : Int × Int} (h1 : sb.1 ≤ s) (h2 : s ≤ sb.2) : windowEnergyBound p f n lo hi sb ≤ overlap p lo hi s :=
  Int.le_trans (window_clipped h1 h2) (overlap_mono (by omega) (by omega))

theorem window_eq {p f lo hi : Int} {n : Nat} {sb : Int × Int} (h : sb.1 ≤ sb.2) (h1 : lo ≤ sb.1) (h2 : f ≤ sb.1) (h3 : sb.2 + p ≤ f + n) :
    windowEnergyBound p f n lo hi sb = overlap p lo hi sb.2 := by
  by_cases e : hi ≤ lo
  · rw [overlap_none e, windowEnergyBound]
    dsimp only
    rw [if_pos (by omega)]
  · rw [overlap_eq (by omega), windowEnergyBound]
    dsimp only
    split <;> omega

theorem slotAt_ok {ws : List (Int × Int)} {lo t : Int} {pre : List Int} (hc : SlotCounts ws lo pre) (hp : pre ≠ []) : ∃ v, slotAt pre lo t = .ok v ∧ (lo ≤ t → v = slots ws lo (min t (lo + ((pre.length : Int) - 1)))) := by
  have hl : 0 < pre.length := List.length_pos_iff.2 hp
  have hk : (max 0 (min (t - lo) ((pre.length : Int) - 1))).toNat < pre.length := by omega
  refine ⟨pre[(max 0 (min (t - lo) ((pre.length : Int) - 1))).toNat], vecAt_ok.2 (List.getElem?_eq_getElem hk), fun a => ?_⟩
  rw [hc _ hk]
  congr 1
  omega

theorem slots_self {ws : List (Int × Int)} {lo : Int} : slots ws lo lo = 0 := by
  rw [slots, times_nil (Int.le_refl _)]
  rfl

theorem slotsWithin_ok {ws : List (Int × Int)} {lo t : Int} {pre : List Int} (hc : SlotCounts ws lo pre) (hp : pre ≠ []) : ∃ v, slotsWithin pre lo lo t = .ok v ∧ (lo ≤ t → v = slots ws lo (min t (lo + ((pre.length : Int) - 1)))) := by
  obtain ⟨x, hx, ex⟩ := slotAt_ok (t := t) hc hp
  obtain ⟨y, hy, ey⟩ := slotAt_ok (t := lo) hc hp
  have hl : 0 < pre.length := List.length_pos_iff.2 hp
  refine ⟨x - y, ?_, fun a => ?_⟩
  · simp only [slotsWithin, hx, hy, bind, Except.bind, pure, Except.pure]
  · rw [ex a, ey (Int.le_refl _), Int.min_eq_left (by omega : lo ≤ lo + ((pre.length : Int) - 1)), slots_self]
    omega

theorem energy_eq {lo hi : Int} : ∀ {ks : List Task} {e : Int}, ks.foldl (fun e k => e + k.height * k.energyWithin lo hi) e = e + tot (fun k => k.height * k.energyWithin lo hi) ks
  | [], e => by simp
  | k :: ks, e => by rw [List.foldl_cons, energy_eq, tot_cons]; omega

/-- What the loop looks for. -/
def Refuted (ks : List Task) (capacity : Int) (ws : List (Int × Int)) (lo known mu : Int) : Prop := known ≤ mu ∧ capacity * slots ws lo mu < energy lo mu ks

theorem loop_ok {ks : List Task} {capacity : Int} {ws : List (Int × Int)} {lo known : Int} {pre : List Int} (hc : SlotCounts ws lo pre) (hp : pre ≠ []) {hi : Int} (h : lo ≤ hi) :
    hi ≤ lo + ((pre.length : Int) - 1) + 1 → ∃ r, (times lo hi).foldlM (step ks capacity pre lo known) none = .ok r ∧
      (∀ b, r = some b → lo ≤ b.hi ∧ b.hi < hi ∧ Refuted ks capacity ws lo known b.hi ∧ b.bound = b.hi + 1 ∧ b.lo = lo ∧ (b.widerSuppliesMore = true ↔ slots ws lo b.hi < slots ws lo (min (b.hi + 1) (lo + ((pre.length : Int) - 1))))) ∧
      (∀ mu, lo ≤ mu → mu < hi → Refuted ks capacity ws lo known mu → ∃ b, r = some b ∧ mu + 1 ≤ b.bound) := by
  refine times_ind (P := fun hi => hi ≤ lo + ((pre.length : Int) - 1) + 1 → ∃ r, (times lo hi).foldlM (step ks capacity pre lo known) none = .ok r ∧
      (∀ b, r = some b → lo ≤ b.hi ∧ b.hi < hi ∧ Refuted ks capacity ws lo known b.hi ∧ b.bound = b.hi + 1 ∧ b.lo = lo ∧ (b.widerSuppliesMore = true ↔ slots ws lo b.hi < slots ws lo (min (b.hi + 1) (lo + ((pre.length : Int) - 1))))) ∧
      (∀ mu, lo ≤ mu → mu < hi → Refuted ks capacity ws lo known mu → ∃ b, r = some b ∧ mu + 1 ≤ b.bound)) ?_ ?_ h
  · intro _
    rw [times_nil (Int.le_refl _)]
    exact ⟨none, rfl, fun b e => (by cases e), fun mu a b => absurd b (by omega)⟩
  · intro hi h ih hb
    obtain ⟨r, er, r1, r2⟩ := ih (by omega)
    obtain ⟨v, hv, ev⟩ := slotsWithin_ok (t := hi) hc hp
    obtain ⟨w, hw, ew⟩ := slotsWithin_ok (t := hi + 1) hc hp
    have ev := ev h
    rw [Int.min_eq_left (by omega)] at ev
    have ew := ew (by omega)
    have keep : ¬ Refuted ks capacity ws lo known hi → (∀ b, r = some b → lo ≤ b.hi ∧ b.hi < hi + 1 ∧ Refuted ks capacity ws lo known b.hi ∧ b.bound = b.hi + 1 ∧ b.lo = lo ∧ (b.widerSuppliesMore = true ↔ slots ws lo b.hi < slots ws lo (min (b.hi + 1) (lo + ((pre.length : Int) - 1))))) ∧
      (∀ mu, lo ≤ mu → mu < hi + 1 → Refuted ks capacity ws lo known mu → ∃ b, r = some b ∧ mu + 1 ≤ b.bound) := by
      intro n
      refine ⟨fun b e => ?_, fun mu a b k => ?_⟩
      · obtain ⟨x1, x2, x3, x4⟩ := r1 b e
        exact ⟨x1, by omega, x3, x4⟩
      · by_cases e : mu = hi
        · exact absurd (e ▸ k) n
        · exact r2 mu a (by omega) k
    rw [times_succ h, List.foldlM_append, er]
    simp only [List.foldlM_cons, List.foldlM_nil, bind, Except.bind, pure, Except.pure, step, hv, hw]
    by_cases k : hi + 1 ≤ known
    · rw [if_pos k]
      exact ⟨r, rfl, keep fun n => absurd n.1 (by omega)⟩
    · rw [if_neg k]
      by_cases e : energy lo hi ks > capacity * v
      · rw [if_pos e]
        refine ⟨_, rfl, fun b eb => ?_, fun mu a b k => ⟨_, rfl, ?_⟩⟩
        · cases eb
          exact ⟨h, by simp only; omega, ⟨by simp only; omega, by rw [ev] at e; exact e⟩, rfl, rfl, by simp only [decide_eq_true_eq, ev, ew, gt_iff_lt]⟩
        · simp only
          omega
      · rw [if_neg e]
        exact ⟨r, rfl, keep fun n => e (by rw [ev]; exact n.2)⟩

theorem slots_succ {ws : List (Int × Int)} {lo t : Int} (h : lo ≤ t) : slots ws lo (t + 1) = slots ws lo t + if (ws.any fun w => decide (w.1 ≤ t ∧ t ≤ w.2)) then 1 else 0 := by
  rw [slots, slots, countP_tot, countP_tot, tot_times_succ h]

theorem used_eq {σ : Schedule} {lo hi : Int} : σ.used lo hi = tot (fun t => σ.use t) (times lo hi) := by
  have : ∀ k : Task × Int, k.1.height * overlap k.1.length lo hi k.2 = tot (fun t => if k.2 ≤ t ∧ t < k.2 + k.1.length then k.1.height else 0) (times lo hi) := by
    intro k
    rw [overlap, countP_tot, ← tot_mul]
    refine tot_congr fun t _ => ?_
    by_cases h : k.2 ≤ t ∧ t < k.2 + k.1.length <;> simp [h]
  show tot (fun k : Task × Int => k.1.height * overlap k.1.length lo hi k.2) σ = _
  rw [tot_congr fun k _ => this k, tot_swap]
  rfl

/-- What is used is no more than there is. -/
theorem used_le {σ : Schedule} {ws : List (Int × Int)} {lo hi cap M : Int} (hw : ∀ k ∈ σ, k.1.Proper ws lo) (hm : σ.Meets M) (hu : ∀ t, σ.use t ≤ cap) : σ.used lo hi ≤ cap * slots ws lo hi := by
  rw [used_eq, slots, countP_tot, ← tot_mul]
  refine tot_le fun t _ => ?_
  by_cases h : (ws.any fun w => decide (w.1 ≤ t ∧ t ≤ w.2)) = true
  · rw [if_pos h, Int.mul_one]
    exact hu t
  · rw [if_neg h, Int.mul_zero]
    refine Int.le_of_eq ?_
    show tot (fun k : Task × Int => if k.2 ≤ t ∧ t < k.2 + k.1.length then k.1.height else 0) σ = 0
    rw [tot_congr (g := fun _ => 0), tot_zero]
    intro k hk
    rw [if_neg]
    intro r
    have p := hw k hk
    have m := hm k hk
    have := p.first; have := p.last
    refine h (List.any_eq_true.2 ⟨_, p.window, ?_⟩)
    simp only [decide_eq_true_eq]
    omega

theorem energyWithin_le {k : Task} {s lo mu M : Int} (h1 : k.startLb ≤ s) (h2 : s ≤ k.startUb) (h3 : ∀ b, k.link = some b → b ≤ M - s) (hM : M ≤ mu) : k.energyWithin lo mu ≤ overlap k.length lo mu s := by
  refine window_le h1 ?_
  unfold Task.startBounds
  cases e : k.link with
  | none => exact h2
  | some b => have := h3 b e; simp only; omega

theorem energy_le_used {σ : Schedule} {ws : List (Int × Int)} {lo mu M : Int} (hw : ∀ k ∈ σ, k.1.Proper ws lo) (hm : σ.Meets M) (hM : M ≤ mu) : energy lo mu (σ.map (·.1)) ≤ σ.used lo mu := by
  rw [energy, energy_eq, Int.zero_add]
  show tot _ _ ≤ tot _ _
  have e : tot (fun k : Task => k.height * k.energyWithin lo mu) (σ.map (·.1)) = tot (fun k : Task × Int => k.1.height * k.1.energyWithin lo mu) σ := by simp [tot, Function.comp_def]
  rw [e]
  refine tot_le fun k hk => ?_
  obtain ⟨m1, m2, m3⟩ := hm k hk
  exact Int.mul_le_mul_of_nonneg_left (energyWithin_le m1 m2 m3 hM) (hw k hk).height

theorem known_ge : ∀ {ks : List Task} {x : Int}, x ≤ knownBound x ks
  | [], x => Int.le_refl _
  | k :: ks, x => by
    unfold knownBound
    rw [List.foldl_cons]
    refine Int.le_trans ?_ (known_ge (ks := ks))
    split <;> omega

theorem known_link : ∀ {ks : List Task} {x : Int}, ∀ k ∈ ks, ∀ b, k.link = some b → k.startLb + b ≤ knownBound x ks
  | j :: ks, x, k, hk, b, e => by
    unfold knownBound
    rw [List.foldl_cons]
    rcases List.mem_cons.1 hk with rfl | hk
    · refine Int.le_trans ?_ (known_ge (ks := ks))
      rw [e]
      simp only
      omega
    · exact known_link k hk b e

theorem known_le : ∀ {ks : List Task} {x M : Int}, x ≤ M → (∀ k ∈ ks, ∀ b, k.link = some b → k.startLb + b ≤ M) → knownBound x ks ≤ M
  | [], x, M, h, _ => h
  | k :: ks, x, M, h, hk => by
    unfold knownBound
    rw [List.foldl_cons]
    refine known_le ?_ fun j hj => hk j (List.mem_cons_of_mem _ hj)
    split
    · rename_i b e
      have := hk k List.mem_cons_self b e
      omega
    · exact h

/-- Every task as late as it may be, for a makespan. -/
def latest (mu : Int) (ks : List Task) : Schedule := ks.map fun k => (k, (k.startBounds mu).2)

theorem latest_meets {ks : List Task} {ws : List (Int × Int)} {lo mu x : Int} (hw : ∀ k ∈ ks, k.Proper ws lo) (hk : knownBound x ks ≤ mu) : (latest mu ks).Meets mu := by
  intro j hj
  obtain ⟨k, hk', rfl⟩ := List.mem_map.1 hj
  have := (hw k hk').some
  refine ⟨?_, ?_, fun b e => ?_⟩
  · cases e : k.link with
    | none => simpa [Task.startBounds, e] using this
    | some b =>
      have := known_link (x := x) k hk' b e
      simp only [Task.startBounds, e]
      omega
  · cases e : k.link with
    | none => simp [Task.startBounds, e]
    | some b =>
      simp only [Task.startBounds, e]
      omega
  · simp only at e
    simp only [Task.startBounds, e]
    omega

theorem latest_used {ks : List Task} {ws : List (Int × Int)} {lo mu x : Int} (hw : ∀ k ∈ ks, k.Proper ws lo) (hk : knownBound x ks ≤ mu) : (latest mu ks).used lo mu = energy lo mu ks := by
  rw [energy, energy_eq, Int.zero_add]
  have e : (latest mu ks).used lo mu = tot (fun k : Task => k.height * overlap k.length lo mu (k.startBounds mu).2) ks := by simp [Schedule.used, latest, tot, Function.comp_def]
  rw [e]
  refine tot_congr fun k hk' => ?_
  have p := hw k hk'
  have m := latest_meets hw hk (k, (k.startBounds mu).2) (List.mem_map.2 ⟨k, hk', rfl⟩)
  have p1 := p.first; have p2 := p.last; have p3 := p.after
  have e1 : (k.startBounds mu).1 = k.startLb := rfl
  have m1 := m.1; have m2 := m.2.1
  simp only at m1 m2
  rw [Task.energyWithin, window_eq] <;> omega

end Gcs.Makespan
