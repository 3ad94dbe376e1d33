import Verif.Lemmas.IntervalSet

/-!
# C04, C05: `IntervalSet` mutators and queries

`Mem`, `WF`, `InRange` (Lemmas/IntervalSet.lean) are the specification: membership as a plain set of integers, the documented class invariant, and
representability.
-/

namespace Gcs
namespace IntervalSet

/-! ## C04: mutators -/

/-- `erase` removes exactly the value. -/
theorem erase_spec (v : Int) (s : IntervalSet) (h : WF s) :
    WF (erase v s) ∧ (∀ x, Mem x (erase v s) ↔ Mem x s ∧ x ≠ v) := by
  suffices H : WF (erase v s) ∧ (∀ x, Mem x (erase v s) ↔ Mem x s ∧ x ≠ v) ∧ (∀ k, Above k s → Above k (erase v s)) from ⟨H.1, H.2.1⟩
  induction s with
  | nil => simp [erase]
  | cons p r ih =>
    obtain ⟨l, u⟩ := p
    obtain ⟨hlu, hab, hr⟩ := wf_cons.1 h
    obtain ⟨ih1, ih2, ih3⟩ := ih hr
    unfold erase
    split
    · rename_i hin
      have hnot : ∀ x, Mem x r → x ≠ v := fun x hx => by have := hab.mem hx; omega
      split
      · refine ⟨hr, fun x => ?_, fun k hk => (above_cons _ _ _ _ |>.1 hk).2⟩
        simp only [mem_cons]
        constructor
        · exact fun hx => ⟨.inr hx, hnot x hx⟩
        · rintro ⟨hx | hx, hne⟩
          · omega
          · exact hx
      · split
        · refine ⟨wf_cons.2 ⟨by omega, ih3 _ hab, ih1⟩, fun x => ?_, fun k hk => ?_⟩
          · simp only [mem_cons, ih2]
            constructor
            · rintro (hx | hx)
              · omega
              · exact ⟨.inr hx.1, hx.2⟩
            · rintro ⟨hx | hx, hne⟩
              · omega
              · exact .inr ⟨hx, hne⟩
          · simp only [above_cons] at hk ⊢
            exact ⟨by omega, ih3 _ hk.2⟩
        · split
          · refine ⟨wf_cons.2 ⟨by omega, (ih3 _ hab).mono (by omega), ih1⟩, fun x => ?_, fun k hk => ?_⟩
            · simp only [mem_cons, ih2]
              constructor
              · rintro (hx | hx)
                · omega
                · exact ⟨.inr hx.1, hx.2⟩
              · rintro ⟨hx | hx, hne⟩
                · omega
                · exact .inr ⟨hx, hne⟩
            · simp only [above_cons] at hk ⊢
              exact ⟨by omega, ih3 _ hk.2⟩
          · refine ⟨wf_cons.2 ⟨by omega, ?_, wf_cons.2 ⟨by omega, hab, hr⟩⟩, fun x => ?_, fun k hk => ?_⟩
            · simp only [above_cons]
              exact ⟨by omega, hab.mono (by omega)⟩
            · simp only [mem_cons]
              constructor
              · rintro (hx | hx | hx)
                · omega
                · omega
                · exact ⟨.inr hx, hnot x hx⟩
              · rintro ⟨hx | hx, hne⟩
                · omega
                · exact .inr (.inr hx)
            · simp only [above_cons] at hk ⊢
              exact ⟨by omega, by omega, hk.2⟩
    · rename_i hin
      split
      · refine ⟨h, fun x => ?_, fun k hk => hk⟩
        simp only [mem_cons]
        constructor
        · rintro (hx | hx)
          · omega
          · exact ⟨.inr hx, by have := hab.mem hx; omega⟩
        · exact fun hx => hx.1
      · refine ⟨wf_cons.2 ⟨hlu, ih3 _ hab, ih1⟩, fun x => ?_, fun k hk => ?_⟩
        · simp only [mem_cons, ih2]
          constructor
          · rintro (hx | hx)
            · omega
            · exact ⟨.inr hx.1, hx.2⟩
          · rintro ⟨hx | hx, hne⟩
            · omega
            · exact .inr ⟨hx, hne⟩
        · simp only [above_cons] at hk ⊢
          exact ⟨hk.1, ih3 _ hk.2⟩

/-- `erase_range` removes exactly the values in the closed range (nothing when `lo > hi`). -/
theorem eraseRange_spec (lo hi : Int) (s : IntervalSet) (h : WF s) :
    WF (eraseRange lo hi s) ∧ (∀ x, Mem x (eraseRange lo hi s) ↔ Mem x s ∧ ¬ (lo ≤ x ∧ x ≤ hi)) := by
  unfold eraseRange
  split
  · exact ⟨h, fun x => ⟨fun hx => ⟨hx, by omega⟩, fun hx => hx.1⟩⟩
  rename_i hle
  suffices H : WF (eraseRangeLoop lo hi s) ∧ (∀ x, Mem x (eraseRangeLoop lo hi s) ↔ Mem x s ∧ ¬ (lo ≤ x ∧ x ≤ hi)) ∧
      (∀ k, Above k s → Above k (eraseRangeLoop lo hi s)) from ⟨H.1, H.2.1⟩
  induction s with
  | nil => simp [eraseRangeLoop]
  | cons p r ih =>
    obtain ⟨l, u⟩ := p
    obtain ⟨hlu, hab, hr⟩ := wf_cons.1 h
    obtain ⟨ih1, ih2, ih3⟩ := ih hr
    unfold eraseRangeLoop
    split
    · refine ⟨wf_cons.2 ⟨hlu, ih3 _ hab, ih1⟩, fun x => ?_, fun k hk => ?_⟩
      · simp only [mem_cons, ih2]
        constructor
        · rintro (hx | hx)
          · omega
          · exact ⟨.inr hx.1, hx.2⟩
        · rintro ⟨hx | hx, hne⟩
          · omega
          · exact .inr ⟨hx, hne⟩
      · simp only [above_cons] at hk ⊢
        exact ⟨hk.1, ih3 _ hk.2⟩
    · split
      · refine ⟨h, fun x => ⟨fun hx => ⟨hx, ?_⟩, fun hx => hx.1⟩, fun k hk => hk⟩
        simp only [mem_cons] at hx
        rcases hx with hx | hx
        · omega
        · have := hab.mem hx; omega
      · split
        · refine ⟨wf_cons.2 ⟨by omega, ?_, wf_cons.2 ⟨by omega, hab, hr⟩⟩, fun x => ?_, fun k hk => ?_⟩
          · simp only [above_cons]; exact ⟨by omega, hab.mono (by omega)⟩
          · simp only [mem_cons]
            constructor
            · rintro (hx | hx | hx)
              · omega
              · omega
              · exact ⟨.inr hx, by have := hab.mem hx; omega⟩
            · rintro ⟨hx | hx, hne⟩
              · omega
              · exact .inr (.inr hx)
          · simp only [above_cons] at hk ⊢; exact ⟨by omega, by omega, hk.2⟩
        · split
          · refine ⟨wf_cons.2 ⟨by omega, (ih3 _ hab).mono (by omega), ih1⟩, fun x => ?_, fun k hk => ?_⟩
            · simp only [mem_cons, ih2]
              constructor
              · rintro (hx | hx)
                · omega
                · exact ⟨.inr hx.1, hx.2⟩
              · rintro ⟨hx | hx, hne⟩
                · omega
                · exact .inr ⟨hx, hne⟩
            · simp only [above_cons] at hk ⊢; exact ⟨hk.1, ih3 _ hk.2⟩
          · split
            · refine ⟨wf_cons.2 ⟨by omega, hab, hr⟩, fun x => ?_, fun k hk => ?_⟩
              · simp only [mem_cons]
                constructor
                · rintro (hx | hx)
                  · omega
                  · exact ⟨.inr hx, by have := hab.mem hx; omega⟩
                · rintro ⟨hx | hx, hne⟩
                  · omega
                  · exact .inr hx
              · simp only [above_cons] at hk ⊢; exact ⟨by omega, hk.2⟩
            · refine ⟨ih1, fun x => ?_, fun k hk => ?_⟩
              · simp only [mem_cons, ih2]
                constructor
                · exact fun hx => ⟨.inr hx.1, hx.2⟩
                · rintro ⟨hx | hx, hne⟩
                  · omega
                  · exact ⟨hx, hne⟩
              · simp only [above_cons] at hk; exact ih3 _ hk.2

theorem eraseLessThanLoop_none (v : Int) (s : IntervalSet) (h : WF s) (hn : eraseLessThanLoop v s = none) :
    ∀ x, Mem x s → x < v := by
  induction s with
  | nil => intro x hx; simp at hx
  | cons p r ih =>
    obtain ⟨l, u⟩ := p
    obtain ⟨hlu, hab, hr⟩ := wf_cons.1 h
    unfold eraseLessThanLoop at hn
    split at hn
    · cases hn
    · split at hn
      · cases hn
      · intro x hx
        simp only [mem_cons] at hx
        rcases hx with hx | hx
        · omega
        · exact ih hr hn x hx

/-- `erase_less_than` keeps exactly the values that are at least `v`. -/
theorem eraseLessThan_spec (v : Int) (s : IntervalSet) (h : WF s) :
    WF (eraseLessThan v s) ∧ (∀ x, Mem x (eraseLessThan v s) ↔ Mem x s ∧ v ≤ x) := by
  have loop : ∀ (s t : IntervalSet), WF s → eraseLessThanLoop v s = some t → WF t ∧ ∀ x, Mem x t ↔ Mem x s ∧ v ≤ x := by
    intro s
    induction s with
    | nil => intro t _ ht; simp [eraseLessThanLoop] at ht
    | cons p r ih =>
      obtain ⟨l, u⟩ := p
      intro t h ht
      obtain ⟨hlu, hab, hr⟩ := wf_cons.1 h
      unfold eraseLessThanLoop at ht
      split at ht
      · cases ht
        refine ⟨wf_cons.2 ⟨by omega, hab, hr⟩, fun x => ?_⟩
        simp only [mem_cons]
        constructor
        · rintro (hx | hx)
          · omega
          · exact ⟨.inr hx, by have := hab.mem hx; omega⟩
        · rintro ⟨hx | hx, hne⟩
          · omega
          · exact .inr hx
      · split at ht
        · cases ht
          refine ⟨h, fun x => ⟨fun hx => ⟨hx, ?_⟩, fun hx => hx.1⟩⟩
          simp only [mem_cons] at hx
          rcases hx with hx | hx
          · omega
          · have := hab.mem hx; omega
        · obtain ⟨i1, i2⟩ := ih t hr ht
          refine ⟨i1, fun x => ?_⟩
          rw [i2]; simp only [mem_cons]
          constructor
          · exact fun hx => ⟨.inr hx.1, hx.2⟩
          · rintro ⟨hx | hx, hne⟩
            · omega
            · exact ⟨hx, hne⟩
  unfold eraseLessThan
  split
  · rename_i t ht; exact loop s t h ht
  · rename_i hn
    have hall := eraseLessThanLoop_none v s h hn
    by_cases hs : s = []
    · subst hs; simp
    · obtain ⟨t, l, u, rfl⟩ := exists_snoc hs
      have hu := hall u (by
        rw [mem_append]; right; simp
        have := (wf_append.1 h).2.1; have := (wf_cons.1 this).1; omega)
      simp only [List.getLast?_append, List.getLast?_singleton, Option.some_or, hu, if_true, wf_nil, mem_nil, false_iff,
        not_and, true_and]
      intro x hx; have := hall x hx; omega

/-- `erase_greater_than` keeps exactly the values that are at most `v`. -/
theorem eraseGreaterThan_spec (v : Int) (s : IntervalSet) (h : WF s) :
    WF (eraseGreaterThan v s) ∧ (∀ x, Mem x (eraseGreaterThan v s) ↔ Mem x s ∧ x ≤ v) := by
  suffices H : WF (eraseGreaterThan v s) ∧ (∀ x, Mem x (eraseGreaterThan v s) ↔ Mem x s ∧ x ≤ v) ∧
      (∀ k, Above k s → Above k (eraseGreaterThan v s)) from ⟨H.1, H.2.1⟩
  induction s with
  | nil => simp [eraseGreaterThan]
  | cons p r ih =>
    obtain ⟨l, u⟩ := p
    obtain ⟨hlu, hab, hr⟩ := wf_cons.1 h
    obtain ⟨ih1, ih2, ih3⟩ := ih hr
    unfold eraseGreaterThan
    split
    · refine ⟨wf_cons.2 ⟨by omega, by simp, by simp⟩, fun x => ?_, fun k hk => ?_⟩
      · simp only [mem_cons, mem_nil, or_false]
        constructor
        · intro hx; exact ⟨.inl (by omega), by omega⟩
        · rintro ⟨hx | hx, hne⟩
          · omega
          · have := hab.mem hx; omega
      · simp only [above_cons] at hk ⊢; exact ⟨hk.1, by simp⟩
    · split
      · refine ⟨by simp, fun x => ?_, fun k hk => by simp⟩
        simp only [mem_nil, mem_cons, false_iff]
        rintro ⟨hx | hx, hne⟩
        · omega
        · have := hab.mem hx; omega
      · refine ⟨wf_cons.2 ⟨hlu, ih3 _ hab, ih1⟩, fun x => ?_, fun k hk => ?_⟩
        · simp only [mem_cons, ih2]
          constructor
          · rintro (hx | hx)
            · omega
            · exact ⟨.inr hx.1, hx.2⟩
          · rintro ⟨hx | hx, hne⟩
            · omega
            · exact .inr ⟨hx, hne⟩
        · simp only [above_cons] at hk ⊢; exact ⟨hk.1, ih3 _ hk.2⟩

/-- `clear` leaves nothing. -/
theorem clear_spec (s : IntervalSet) : WF (clear s) ∧ ∀ x, ¬ Mem x (clear s) := by simp [clear]

/-- `insert_at_end(value)` for a value above everything in the set adds exactly that value. -/
theorem insertAtEndOne_spec (v : Int) (s : IntervalSet) (h : WF s) (hr : InRange s) (hv : InI64 v) (hgt : ∀ x, Mem x s → x < v) :
    ∃ t, insertAtEndOne v s = .ok t ∧ WF t ∧ ∀ x, Mem x t ↔ Mem x s ∨ x = v := by
  by_cases hs : s = []
  · subst hs
    exact ⟨[(v, v)], rfl, by simp [wf_cons], fun x => by simp; omega⟩
  · obtain ⟨t, l, u, rfl⟩ := exists_snoc hs
    obtain ⟨w1, w2, w3⟩ := wf_append.1 h
    have hlu := (wf_cons.1 w2).1
    have hlt : u < v := hgt u (by rw [mem_append]; right; simp; omega)
    have hur := hr (l, u) (by simp)
    have hsub : iSub v 1 = .ok (v - 1) := by
      rw [iSub_exact v 1 hv (by decide)]; unfold exactOrThrow; rw [if_pos]
      unfold InI64 i64Min i64Max at *; omega
    unfold insertAtEndOne
    simp only [List.getLast?_append, List.getLast?_singleton, Option.some_or, hsub, bind, Except.bind]
    by_cases hc : u = v - 1
    · have hinc : iInc u = .ok (u + 1) := by
        rw [iInc_exact u hur.2]; unfold exactOrThrow; rw [if_pos]
        unfold InI64 i64Min i64Max at *; omega
      rw [if_pos hc, hinc]
      refine ⟨_, rfl, ?_, fun x => ?_⟩
      · simp only [List.dropLast_concat]
        refine wf_append.2 ⟨w1, wf_cons.2 ⟨by omega, by simp, by simp⟩, ?_⟩
        intro p hp q hq
        have := w3 p hp (l, u) (by simp)
        simp only [List.mem_singleton] at hq; subst hq; simpa using this
      · simp only [List.dropLast_concat, mem_append, mem_cons, mem_nil, or_false]
        constructor
        · rintro (hx | hx)
          · exact .inl (.inl hx)
          · by_cases hxv : x = v
            · exact .inr hxv
            · exact .inl (.inr (by omega))
        · rintro ((hx | hx) | hx)
          · exact .inl hx
          · exact .inr (by omega)
          · exact .inr (by omega)
    · rw [if_neg hc]
      refine ⟨_, rfl, ?_, fun x => ?_⟩
      · refine wf_append.2 ⟨h, by simp [wf_cons], ?_⟩
        intro p hp q hq
        simp only [List.mem_singleton] at hq; subst hq
        have hp2 := h.1 p hp
        have := le_last h (x := p.2) ⟨p, hp, hp2, by omega⟩
        simp only; omega
      · simp only [mem_append, mem_cons, mem_nil, or_false]
        exact or_congr Iff.rfl ⟨fun _ => by omega, fun _ => by omega⟩

/-- `insert_at_end(lower, upper)` for a non-empty interval above everything in the set adds exactly that interval. -/
theorem insertAtEnd_spec (lo hi : Int) (s : IntervalSet) (h : WF s) (hl : InI64 lo) (hle : lo ≤ hi) (hr : InRange s)
    (hgt : ∀ x, Mem x s → x < lo) :
    ∃ t, insertAtEnd lo hi s = .ok t ∧ WF t ∧ ∀ x, Mem x t ↔ Mem x s ∨ (lo ≤ x ∧ x ≤ hi) := by
  by_cases hs : s = []
  · subst hs
    exact ⟨[(lo, hi)], rfl, by simp [wf_cons, hle], fun x => by simp⟩
  · obtain ⟨t, l, u, rfl⟩ := exists_snoc hs
    obtain ⟨w1, w2, w3⟩ := wf_append.1 h
    have hlu := (wf_cons.1 w2).1
    have hlt : u < lo := hgt u (by rw [mem_append]; right; simp; omega)
    have hur := hr (l, u) (by simp)
    have hsub : iSub lo 1 = .ok (lo - 1) := by
      rw [iSub_exact lo 1 hl (by decide)]; unfold exactOrThrow; rw [if_pos]
      unfold InI64 i64Min i64Max at *; omega
    unfold insertAtEnd
    simp only [List.getLast?_append, List.getLast?_singleton, Option.some_or, hsub, bind, Except.bind]
    by_cases hc : u = lo - 1
    · rw [if_pos hc]
      refine ⟨_, rfl, ?_, fun x => ?_⟩
      · simp only [List.dropLast_concat]
        refine wf_append.2 ⟨w1, wf_cons.2 ⟨by omega, by simp, by simp⟩, ?_⟩
        intro p hp q hq
        have := w3 p hp (l, u) (by simp)
        simp only [List.mem_singleton] at hq; subst hq; simpa using this
      · simp only [List.dropLast_concat, mem_append, mem_cons, mem_nil, or_false]
        constructor
        · rintro (hx | hx)
          · exact .inl (.inl hx)
          · by_cases hxv : x ≤ u
            · exact .inl (.inr (by omega))
            · exact .inr (by omega)
        · rintro ((hx | hx) | hx)
          · exact .inl hx
          · exact .inr (by omega)
          · exact .inr (by omega)
    · rw [if_neg hc]
      refine ⟨_, rfl, ?_, fun x => ?_⟩
      · refine wf_append.2 ⟨h, by simp [wf_cons, hle], ?_⟩
        intro p hp q hq
        simp only [List.mem_singleton] at hq; subst hq
        have hp2 := h.1 p hp
        have := le_last h (x := p.2) ⟨p, hp, hp2, by omega⟩
        simp only; omega
      · simp only [mem_append, mem_cons, mem_nil, or_false]

theorem dropWhile_spec (l : Int) (t : IntervalSet) (h : WF t) :
    WF (t.dropWhile (fun q => q.2 < l)) ∧ (∀ x, l ≤ x → (Mem x (t.dropWhile (fun q => q.2 < l)) ↔ Mem x t)) ∧
    (∀ x, Mem x (t.dropWhile (fun q => q.2 < l)) → Mem x t) ∧ (∀ q ∈ (t.dropWhile (fun q => q.2 < l)), l ≤ q.2) := by
  induction t with
  | nil => simp
  | cons p r ih =>
    obtain ⟨a, b⟩ := p
    obtain ⟨hab, hA, hr⟩ := wf_cons.1 h
    obtain ⟨i1, i2, i3, i4⟩ := ih hr
    rw [List.dropWhile_cons]
    by_cases hc : b < l
    · rw [if_pos (by simpa using hc)]
      refine ⟨i1, fun x hx => ?_, fun x hx => ?_, i4⟩
      · rw [i2 x hx, mem_cons]; exact ⟨.inr, fun h => h.elim (fun h => by omega) id⟩
      · rw [mem_cons]; exact .inr (i3 x hx)
    · rw [if_neg (by simpa using hc)]
      refine ⟨h, fun x _ => Iff.rfl, fun x hx => hx, fun q hq => ?_⟩
      rcases List.mem_cons.1 hq with rfl | hq
      · simp only; omega
      · have := hA q hq; have := hr.1 q hq; omega

theorem intersectInner_spec (l u : Int) (hlu : l ≤ u) (t : IntervalSet) (h : WF t) (hl : ∀ q ∈ t, l ≤ q.2) :
    let r := intersectInner l u t
    WF r.1 ∧ WF r.2 ∧ (∀ x, Mem x r.1 ↔ Mem x t ∧ l ≤ x ∧ x ≤ u) ∧ (∀ x, u < x → (Mem x r.2 ↔ Mem x t)) ∧
    (∀ x, Mem x r.2 → Mem x t) ∧ (∀ k, Above k t → Above k r.1) := by
  induction t with
  | nil => simp [intersectInner]
  | cons p r ih =>
    obtain ⟨a, b⟩ := p
    obtain ⟨hab, hA, hr⟩ := wf_cons.1 h
    have hlb : l ≤ b := hl (a, b) (by simp)
    have ih' := ih hr (fun q hq => hl q (List.mem_cons_of_mem _ hq))
    simp only at ih' ⊢
    obtain ⟨i1, i2, i3, i4, i5, i6⟩ := ih'
    have hmax : ∀ x : Int, (if l > a then l else a) ≤ x ↔ l ≤ x ∧ a ≤ x := by intro x; split <;> omega
    have hmin : ∀ x : Int, x ≤ (if u < b then u else b) ↔ x ≤ u ∧ x ≤ b := by intro x; split <;> omega
    unfold intersectInner
    split
    · rename_i hau
      have hpiece : (if l > a then l else a) ≤ (if u < b then u else b) := by rw [hmax, hmin, hmin]; omega
      simp only
      by_cases hbu : b > u
      · rw [if_pos hbu]; simp only
        refine ⟨wf_cons.2 ⟨hpiece, by simp, by simp⟩, h, fun x => ?_, fun x _ => by simp only, fun x hx => hx, fun k hk => ?_⟩
        · simp only [mem_cons, mem_nil, or_false, hmax, hmin]
          constructor
          · intro hx; exact ⟨.inl (by omega), by omega⟩
          · rintro ⟨hx | hx, hy⟩
            · omega
            · have := hA.mem hx; omega
        · simp only [above_cons] at hk ⊢
          refine ⟨?_, by simp⟩
          split <;> omega
      · rw [if_neg hbu]; simp only
        refine ⟨wf_cons.2 ⟨hpiece, (i6 _ hA).mono ((hmin _).1 (Int.le_refl _)).2, i1⟩, i2, fun x => ?_, fun x hx => ?_, fun x hx => ?_,
          fun k hk => ?_⟩
        · simp only [mem_cons, hmax, hmin, i3]
          constructor
          · rintro (hx | hx)
            · exact ⟨.inl (by omega), by omega⟩
            · exact ⟨.inr hx.1, hx.2⟩
          · rintro ⟨hx | hx, hy⟩
            · exact .inl (by omega)
            · exact .inr ⟨hx, hy⟩
        · rw [i4 x hx, mem_cons]; exact ⟨.inr, fun h => h.elim (fun h => by omega) id⟩
        · rw [mem_cons]; exact .inr (i5 x hx)
        · simp only [above_cons] at hk ⊢
          refine ⟨?_, i6 _ hk.2⟩
          split <;> omega
    · rename_i hau
      refine ⟨by simp, h, fun x => ?_, fun x _ => Iff.rfl, fun x hx => hx, fun k _ => by simp⟩
      simp only [mem_nil, false_iff, mem_cons]
      rintro ⟨hx | hx, hy⟩
      · omega
      · have := hA.mem hx; omega

/-- `intersect_with` keeps exactly the values in both sets. -/
theorem intersectWith_spec (s t : IntervalSet) (hs : WF s) (ht : WF t) :
    WF (intersectWith s t) ∧ ∀ x, Mem x (intersectWith s t) ↔ Mem x s ∧ Mem x t := by
  induction s generalizing t with
  | nil => simp [intersectWith]
  | cons p r ih =>
    obtain ⟨l, u⟩ := p
    obtain ⟨hlu, hA, hr⟩ := wf_cons.1 hs
    obtain ⟨d1, d2, d3, d4⟩ := dropWhile_spec l t ht
    obtain ⟨i1, i2, i3, i4, i5, -⟩ := intersectInner_spec l u hlu _ d1 d4
    obtain ⟨j1, j2⟩ := ih _ hr i2
    simp only [intersectWith]
    constructor
    · refine wf_append.2 ⟨i1, j1, fun p hp q hq => ?_⟩
      have h1 := i1.1 p hp
      have h2 := j1.1 q hq
      have h3 := (i3 p.2).1 ⟨p, hp, h1, by omega⟩
      have h4 := (j2 q.1).1 ⟨q, hq, by omega, h2⟩
      have := hA.mem h4.1
      omega
    · intro x
      rw [mem_append, i3, j2, mem_cons]
      constructor
      · rintro (hx | hx)
        · exact ⟨.inl hx.2, (d2 x hx.2.1).1 hx.1⟩
        · exact ⟨.inr hx.1, d3 x (i5 x hx.2)⟩
      · rintro ⟨hx | hx, hy⟩
        · exact .inl ⟨(d2 x hx.1).2 hy, hx⟩
        · have := hA.mem hx
          exact .inr ⟨hx, (i4 x (by omega)).2 ((d2 x (by omega)).2 hy)⟩

/-- Membership of endpoints: a canonical set's endpoints are members, so a set all of whose members are representable is in range. -/
theorem inRange_of_mem {s : IntervalSet} (h : WF s) (hm : ∀ x, Mem x s → InI64 x) : InRange s := by
  intro p hp
  have := h.1 p hp
  exact ⟨hm _ ⟨p, hp, by omega, this⟩, hm _ ⟨p, hp, this, by omega⟩⟩

theorem mem_of_inRange {s : IntervalSet} (h : InRange s) {x : Int} (hx : Mem x s) : InI64 x := by
  obtain ⟨p, hp, h1, h2⟩ := hx
  have := h p hp
  exact ⟨by omega, by omega⟩

/-- C04 (no overflow): every endpoint a mutator computes is representable when the set's endpoints are: the `± 1` in the mutators
cannot throw. -/
theorem mutators_in_range (s t : IntervalSet) (v lo hi : Int) (hs : WF s) (ht : WF t) (hr : InRange s) :
    InRange (erase v s) ∧ InRange (eraseRange lo hi s) ∧ InRange (eraseLessThan v s) ∧ InRange (eraseGreaterThan v s) ∧
    InRange (intersectWith s t) :=
  ⟨inRange_of_mem (erase_spec v s hs).1 fun x hx => mem_of_inRange hr (((erase_spec v s hs).2 x).1 hx).1,
   inRange_of_mem (eraseRange_spec lo hi s hs).1 fun x hx => mem_of_inRange hr (((eraseRange_spec lo hi s hs).2 x).1 hx).1,
   inRange_of_mem (eraseLessThan_spec v s hs).1 fun x hx => mem_of_inRange hr (((eraseLessThan_spec v s hs).2 x).1 hx).1,
   inRange_of_mem (eraseGreaterThan_spec v s hs).1 fun x hx => mem_of_inRange hr (((eraseGreaterThan_spec v s hs).2 x).1 hx).1,
   inRange_of_mem (intersectWith_spec s t hs ht).1 fun x hx => mem_of_inRange hr (((intersectWith_spec s t hs ht).2 x).1 hx).1⟩

/-- Two sets representing the same values are the same stored list: behaviour depends only on the set of values. -/
theorem canonical_unique {s t : IntervalSet} (hs : WF s) (ht : WF t) (h : ∀ x, Mem x s ↔ Mem x t) : s = t := ext hs ht h

/-- Finding: the documentation of `insert_at_end` permits `value == upper()`; doing so breaks the class invariant and makes `size` count the value
twice. -/
theorem insertAtEnd_at_upper_breaks :
    ∃ (s t : IntervalSet) (v : Int), WF s ∧ upper s = .ok v ∧ insertAtEndOne v s = .ok t ∧ ¬ WF t ∧
      (∀ x, Mem x t ↔ Mem x s) ∧ size s = .ok 2 ∧ size t = .ok 3 :=
  ⟨[(4, 5)], [(4, 5), (5, 5)], 5, by decide, by decide, by decide, by decide, fun x => by simp; omega, by decide, by decide⟩

example : WF [(1, 4), (8, 10)] ∧ InRange [(1, 4), (8, 10)] ∧ erase 9 [(1, 4), (8, 10)] = [(1, 4), (8, 8), (10, 10)] ∧
    eraseRange 3 8 [(1, 4), (8, 10)] = [(1, 2), (9, 10)] ∧
    intersectWith [(1, 4), (8, 10)] [(0, 1), (3, 8), (10, 20)] = [(1, 1), (3, 4), (8, 8), (10, 10)] ∧
    insertAtEnd 11 12 [(1, 4), (8, 10)] = .ok [(1, 4), (8, 12)] := by decide

/-! ## C05: queries -/

/-- `contains` is membership. -/
theorem contains_spec (v : Int) (s : IntervalSet) (h : WF s) : contains v s = true ↔ Mem v s := by
  induction s with
  | nil => simp [contains]
  | cons p r ih =>
    obtain ⟨l, u⟩ := p
    obtain ⟨hlu, hA, hr⟩ := wf_cons.1 h
    unfold contains
    rw [mem_cons]
    split
    · simp_all
    · split
      · simp only [Bool.false_eq_true, false_iff]
        rintro (hx | hx)
        · omega
        · have := hA.mem hx; omega
      · rw [ih hr]; exact ⟨.inr, fun h => h.elim (fun h => by omega) id⟩

/-- `contains_any_of` is non-empty intersection. -/
theorem containsAnyOf_spec (s t : IntervalSet) (hs : WF s) (ht : WF t) :
    containsAnyOf s t = true ↔ ∃ x, Mem x s ∧ Mem x t := by
  fun_induction containsAnyOf s t with
  | case1 => simp
  | case2 => simp
  | case3 l u is l' u' js hc =>
    have h1 := (wf_cons.1 hs).1
    have h2 := (wf_cons.1 ht).1
    simp only [true_iff]
    by_cases h : l ≤ l'
    · exact ⟨l', by simp; omega, by simp; omega⟩
    · exact ⟨l, by simp; omega, by simp; omega⟩
  | case4 l u is l' u' js hc hlt ih =>
    obtain ⟨hlu, hA, hr⟩ := wf_cons.1 hs
    obtain ⟨hlu', hA', hr'⟩ := wf_cons.1 ht
    rw [ih hr ht]
    constructor
    · rintro ⟨x, h1, h2⟩; exact ⟨x, by simp [h1], h2⟩
    · rintro ⟨x, h1, h2⟩
      refine ⟨x, ?_, h2⟩
      rw [mem_cons] at h1
      rcases h1 with h1 | h1
      · exfalso
        rw [mem_cons] at h2
        rcases h2 with h2 | h2
        · omega
        · have := hA'.mem h2; omega
      · exact h1
  | case5 l u is l' u' js hc hlt ih =>
    obtain ⟨hlu, hA, hr⟩ := wf_cons.1 hs
    obtain ⟨hlu', hA', hr'⟩ := wf_cons.1 ht
    rw [ih hs hr']
    constructor
    · rintro ⟨x, h1, h2⟩; exact ⟨x, h1, by simp [h2]⟩
    · rintro ⟨x, h1, h2⟩
      refine ⟨x, h1, ?_⟩
      rw [mem_cons] at h2
      rcases h2 with h2 | h2
      · exfalso
        rw [mem_cons] at h1
        rcases h1 with h1 | h1
        · omega
        · have := hA.mem h1; omega
      · exact h2

/-- `empty` says there are no values. -/
theorem isEmpty_spec (s : IntervalSet) (h : WF s) : isEmpty s = true ↔ ∀ x, ¬ Mem x s := by
  rw [← nil_iff_no_mem h]; simp [isEmpty, List.isEmpty_iff]

/-- `lower` is the least value; reading it from an empty set is undefined behaviour. -/
theorem lower_spec (s : IntervalSet) (h : WF s) :
    (∀ l, lower s = .ok l ↔ Mem l s ∧ ∀ x, Mem x s → l ≤ x) ∧ (lower s = .error .ub ↔ ∀ x, ¬ Mem x s) := by
  cases s with
  | nil => simp [lower]
  | cons p r =>
    obtain ⟨a, b⟩ := p
    obtain ⟨hlu, hA, hr⟩ := wf_cons.1 h
    refine ⟨fun l => ?_, ?_⟩
    · simp only [lower, Except.ok.injEq]
      constructor
      · rintro rfl
        refine ⟨by simp; omega, fun x hx => ?_⟩
        rw [mem_cons] at hx
        rcases hx with hx | hx
        · omega
        · have := hA.mem hx; omega
      · rintro ⟨h1, h2⟩
        have := h2 a (by simp; omega)
        rw [mem_cons] at h1
        rcases h1 with hx | hx
        · omega
        · have := hA.mem hx; omega
    · simp only [lower, reduceCtorEq, false_iff, Classical.not_forall]
      exact ⟨a, by simp; omega⟩

/-- `upper` is the greatest value; reading it from an empty set is undefined behaviour. -/
theorem upper_spec (s : IntervalSet) (h : WF s) :
    (∀ u, upper s = .ok u ↔ Mem u s ∧ ∀ x, Mem x s → x ≤ u) ∧ (upper s = .error .ub ↔ ∀ x, ¬ Mem x s) := by
  by_cases hs : s = []
  · subst hs; simp [upper]
  · obtain ⟨t, a, b, rfl⟩ := exists_snoc hs
    have hab := (wf_cons.1 (wf_append.1 h).2.1).1
    have hmem : Mem b (t ++ [(a, b)]) := by rw [mem_append]; right; simp; omega
    rw [upper_snoc]
    refine ⟨fun u => ?_, ?_⟩
    · simp only [Except.ok.injEq]
      constructor
      · rintro rfl; exact ⟨hmem, fun x hx => le_last h hx⟩
      · rintro ⟨h1, h2⟩
        have := h2 b hmem
        have := le_last h h1
        omega
    · simp only [reduceCtorEq, false_iff, Classical.not_forall]
      exact ⟨b, fun hn => hn hmem⟩

/-- `has_holes`: some integer strictly between two members is missing. -/
theorem hasHoles_spec (s : IntervalSet) (h : WF s) :
    hasHoles s = true ↔ ∃ a x b, Mem a s ∧ Mem b s ∧ a < x ∧ x < b ∧ ¬ Mem x s := by
  unfold hasHoles
  cases s with
  | nil => simp
  | cons p r =>
    obtain ⟨l, u⟩ := p
    obtain ⟨hlu, hA, hr⟩ := wf_cons.1 h
    cases r with
    | nil =>
      simp only [List.length_cons, List.length_nil, mem_cons, mem_nil, or_false]
      simp only [show ¬ (0 + 1 > 1) by omega, decide_false, Bool.false_eq_true, false_iff]
      rintro ⟨a, x, b, h1, h2, h3, h4, h5⟩; omega
    | cons q r' =>
      obtain ⟨l', u'⟩ := q
      obtain ⟨hlu', hA', hr'⟩ := wf_cons.1 hr
      have := (above_cons _ _ _ _).1 hA
      simp only [List.length_cons, gt_iff_lt, decide_eq_true_eq]
      refine ⟨fun _ => ⟨u, u + 1, l', ?_, ?_, by omega, by omega, ?_⟩, fun _ => by omega⟩
      · simp; omega
      · simp; omega
      · rw [mem_cons]
        rintro (hx | hx)
        · omega
        · have := hA.mem hx; omega

/-- Mathematical number of values. -/
def count : IntervalSet → Int
  | [] => 0
  | (l, u) :: r => (u - l + 1) + count r

theorem count_nonneg (s : IntervalSet) (h : WF s) : 0 ≤ count s := by
  induction s with
  | nil => simp [count]
  | cons p r ih =>
    obtain ⟨l, u⟩ := p
    obtain ⟨hlu, _, hr⟩ := wf_cons.1 h
    have := ih hr
    simp only [count]; omega

theorem sizeLoop_spec (s : IntervalSet) (h : WF s) (hr : InRange s) (acc : Int) (ha : 0 ≤ acc) (hacc : InI64 acc) :
    sizeLoop acc s = exactOrThrow (acc + count s) := by
  induction s generalizing acc with
  | nil => simp only [sizeLoop, count, Int.add_zero]; unfold exactOrThrow; rw [if_pos hacc]
  | cons p r ih =>
    obtain ⟨l, u⟩ := p
    obtain ⟨hlu, _, hwr⟩ := wf_cons.1 h
    simp only [inRange_cons] at hr
    have hc := count_nonneg r hwr
    simp only [sizeLoop, count]
    rw [iSub_exact u l hr.1.2 hr.1.1]
    unfold exactOrThrow
    by_cases h1 : InI64 (u - l)
    · rw [if_pos h1]
      simp only [bind, Except.bind]
      rw [iAdd_exact _ 1 h1 (by decide)]
      unfold exactOrThrow
      by_cases h2 : InI64 (u - l + 1)
      · rw [if_pos h2]
        simp only
        rw [iAdd_exact _ _ hacc h2]
        unfold exactOrThrow
        by_cases h3 : InI64 (acc + (u - l + 1))
        · rw [if_pos h3]
          simp only
          rw [ih hwr hr.2 _ (by omega) h3]
          unfold exactOrThrow
          rw [Int.add_assoc]
        · rw [if_neg h3]
          simp only
          rw [if_neg]
          unfold InI64 i64Min i64Max at *; omega
      · rw [if_neg h2]
        simp only
        rw [if_neg]
        unfold InI64 i64Min i64Max at *; omega
    · rw [if_neg h1]
      simp only [bind, Except.bind]
      rw [if_neg]
      unfold InI64 i64Min i64Max at *; omega

/-- `size`: the number of values if that is representable, otherwise the overflow exception. `count` is tied to membership by
`size_counts_members` in Props/IntervalSetIter.lean. -/
theorem size_spec (s : IntervalSet) (h : WF s) (hr : InRange s) : size s = exactOrThrow (count s) := by
  unfold size; rw [sizeLoop_spec s h hr 0 (by omega) (by decide)]; rw [Int.zero_add]

example : containsAnyOf [(1, 4), (8, 10)] [(5, 7), (10, 11)] = true ∧ containsAnyOf [(1, 4), (8, 10)] [(5, 7), (11, 11)] = false ∧
    size [(1, 4), (8, 10)] = .ok 7 ∧ hasHoles [(1, 4), (8, 10)] = true := by
  refine ⟨by simp [containsAnyOf], by simp [containsAnyOf], by decide, by decide⟩

end IntervalSet
end Gcs

#print axioms Gcs.IntervalSet.erase_spec
#print axioms Gcs.IntervalSet.eraseRange_spec
#print axioms Gcs.IntervalSet.eraseLessThan_spec
#print axioms Gcs.IntervalSet.eraseGreaterThan_spec
#print axioms Gcs.IntervalSet.insertAtEndOne_spec
#print axioms Gcs.IntervalSet.insertAtEnd_spec
#print axioms Gcs.IntervalSet.intersectWith_spec
#print axioms Gcs.IntervalSet.mutators_in_range
#print axioms Gcs.IntervalSet.insertAtEnd_at_upper_breaks
#print axioms Gcs.IntervalSet.containsAnyOf_spec
#print axioms Gcs.IntervalSet.size_spec
