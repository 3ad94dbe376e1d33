import Verif.Props.IntervalSet

/-!
# C06, C07: `IntervalSet` iteration, and what happens at the ends of the integer range
-/

namespace Gcs
namespace IntervalSet

/-- `l` lists the values satisfying `P` once each, ascending. -/
def ListsAscending (P : Int → Prop) (l : List Int) : Prop := l.Pairwise (· < ·) ∧ ∀ x, x ∈ l ↔ P x

/-- `l` lists the values satisfying `P` once each, descending. -/
def ListsDescending (P : Int → Prop) (l : List Int) : Prop := l.Pairwise (· > ·) ∧ ∀ x, x ∈ l ↔ P x

theorem loopUp_spec (i u : Int) (hi : InI64 i) (hu : InI64 u) :
    ListsAscending (fun x => i ≤ x ∧ x ≤ u) (loopUp i u).1 ∧
    (loopUp i u).2 = if i ≤ u ∧ u = i64Max then some .overflow else none := by
  fun_induction loopUp i u with
  | case1 i h e he =>
    have hinc := iInc_exact i hi
    rw [he] at hinc
    unfold exactOrThrow at hinc
    split at hinc
    · cases hinc
    · cases hinc
      rename_i h2
      have : i = i64Max := by unfold InI64 i64Min i64Max at *; omega
      have : u = i64Max := by unfold InI64 at hu; omega
      refine ⟨⟨by simp, fun x => by simp; omega⟩, ?_⟩
      simp only; rw [if_pos ⟨h, this⟩]
  | case2 i h i' he r ih =>
    have hinc := iInc_exact i hi
    rw [he] at hinc
    unfold exactOrThrow at hinc
    split at hinc
    · cases hinc
      rename_i h2
      obtain ⟨⟨a1, a2⟩, a3⟩ := ih h2
      refine ⟨⟨?_, fun x => ?_⟩, ?_⟩
      · refine List.pairwise_cons.2 ⟨fun y hy => ?_, a1⟩
        have := (a2 y).1 hy; omega
      · rw [List.mem_cons, a2]; constructor
        · rintro (hx | hx) <;> omega
        · intro hx; by_cases hxi : x = i
          · exact .inl hxi
          · exact .inr (by omega)
      · simp only; rw [a3]
        by_cases hc : u = i64Max
        · rw [if_pos ⟨by unfold InI64 at *; omega, hc⟩, if_pos ⟨h, hc⟩]
        · rw [if_neg (fun h => hc h.2), if_neg (fun h => hc h.2)]
    · cases hinc
  | case3 i h =>
    refine ⟨⟨by simp, fun x => by simp; omega⟩, ?_⟩
    rw [if_neg (by omega)]

theorem loopDown_spec (i l : Int) (hi : InI64 i) (hl : InI64 l) :
    ListsDescending (fun x => l ≤ x ∧ x ≤ i) (loopDown i l).1 ∧
    (loopDown i l).2 = if l ≤ i ∧ l = i64Min then some .overflow else none := by
  fun_induction loopDown i l with
  | case1 i h e he =>
    have hinc := iDec_exact i hi
    rw [he] at hinc
    unfold exactOrThrow at hinc
    split at hinc
    · cases hinc
    · cases hinc
      rename_i h2
      have : i = i64Min := by unfold InI64 i64Min i64Max at *; omega
      have : l = i64Min := by unfold InI64 at hl; omega
      refine ⟨⟨by simp, fun x => by simp; omega⟩, ?_⟩
      simp only; rw [if_pos ⟨h, this⟩]
  | case2 i h i' he r ih =>
    have hinc := iDec_exact i hi
    rw [he] at hinc
    unfold exactOrThrow at hinc
    split at hinc
    · cases hinc
      rename_i h2
      obtain ⟨⟨a1, a2⟩, a3⟩ := ih h2
      refine ⟨⟨?_, fun x => ?_⟩, ?_⟩
      · refine List.pairwise_cons.2 ⟨fun y hy => ?_, a1⟩
        have := (a2 y).1 hy; omega
      · rw [List.mem_cons, a2]; constructor
        · rintro (hx | hx) <;> omega
        · intro hx; by_cases hxi : x = i
          · exact .inl hxi
          · exact .inr (by omega)
      · simp only; rw [a3]
        by_cases hc : l = i64Min
        · rw [if_pos ⟨by unfold InI64 at *; omega, hc⟩, if_pos ⟨h, hc⟩]
        · rw [if_neg (fun h => hc h.2), if_neg (fun h => hc h.2)]
    · cases hinc
  | case3 i h =>
    refine ⟨⟨by simp, fun x => by simp; omega⟩, ?_⟩
    rw [if_neg (by omega)]

/-- C06 / C07: `each` yields every value once, ascending. It then throws exactly when the set contains the largest representable integer. -/
theorem each_spec (s : IntervalSet) (h : WF s) (hr : InRange s) :
    ListsAscending (fun x => Mem x s) (each s).1 ∧ ((Mem i64Max s → (each s).2 = some .overflow) ∧ (¬ Mem i64Max s → (each s).2 = none)) := by
  induction s with
  | nil => simp [each, ListsAscending]
  | cons p r ih =>
    obtain ⟨l, u⟩ := p
    obtain ⟨hlu, hA, hwr⟩ := wf_cons.1 h
    simp only [inRange_cons] at hr
    obtain ⟨⟨a1, a2⟩, a3⟩ := loopUp_spec l u hr.1.1 hr.1.2
    obtain ⟨⟨b1, b2⟩, b3, b4⟩ := ih hwr hr.2
    unfold each Gen.append
    by_cases hc : u = i64Max
    · rw [a3, if_pos ⟨hlu, hc⟩]
      have hrn : r = [] := by
        cases r with
        | nil => rfl
        | cons q r' =>
          have := (above_cons _ _ _ _).1 hA
          have := hr.2 _ (List.mem_cons_self ..)
          unfold InI64 at this; omega
      subst hrn
      refine ⟨⟨a1, fun x => by rw [a2]; simp⟩, fun _ => rfl, fun hn => ?_⟩
      exact absurd (show Mem i64Max [(l, u)] by simp; omega) hn
    · rw [a3, if_neg (fun h => hc h.2)]
      refine ⟨⟨List.pairwise_append.2 ⟨a1, b1, fun x hx y hy => ?_⟩, fun x => ?_⟩, fun hm => ?_, fun hn => ?_⟩
      · have := (a2 x).1 hx; have := hA.mem ((b2 y).1 hy); omega
      · simp only [List.mem_append, a2, b2, mem_cons]
      · rw [mem_cons] at hm
        rcases hm with hm | hm
        · unfold InI64 at hr; omega
        · exact b3 hm
      · exact b4 (fun hm => hn (by rw [mem_cons]; exact .inr hm))

theorem Gen.append_none {α : Type} (g : Gen α) : g.append ([], none) = g := by
  obtain ⟨x, _ | y⟩ := g <;> simp [Gen.append]

theorem eachReversed_cons (p : Int × Int) (r : IntervalSet) :
    eachReversed (p :: r) = (eachReversed r).append ((loopDown p.2 p.1).append ([], none)) := by
  unfold eachReversed
  rw [List.reverse_cons, List.foldr_append]
  simp only [List.foldr_cons, List.foldr_nil]
  generalize (loopDown p.2 p.1).append ([], none) = tail
  induction r.reverse with
  | nil => simp [Gen.append]
  | cons q t ih =>
    simp only [List.foldr_cons, ih]
    unfold Gen.append
    cases (loopDown q.2 q.1).2 <;> simp
    split <;> simp_all

/-- C06 / C07: `each_reversed` yields every value once, descending. It then throws exactly when the set contains the smallest representable integer. -/
theorem eachReversed_spec (s : IntervalSet) (h : WF s) (hr : InRange s) :
    ListsDescending (fun x => Mem x s) (eachReversed s).1 ∧
    ((Mem i64Min s → (eachReversed s).2 = some .overflow) ∧ (¬ Mem i64Min s → (eachReversed s).2 = none)) := by
  induction s with
  | nil => simp [eachReversed, ListsDescending]
  | cons p r ih =>
    obtain ⟨l, u⟩ := p
    obtain ⟨hlu, hA, hwr⟩ := wf_cons.1 h
    simp only [inRange_cons] at hr
    obtain ⟨⟨a1, a2⟩, a3⟩ := loopDown_spec u l hr.1.2 hr.1.1
    obtain ⟨⟨b1, b2⟩, b3, b4⟩ := ih hwr hr.2
    have hnm : ¬ Mem i64Min r := fun hm => by have := hA.mem hm; unfold InI64 at hr; omega
    rw [eachReversed_cons, Gen.append_none]
    unfold Gen.append
    rw [b4 hnm]
    simp only
    refine ⟨⟨List.pairwise_append.2 ⟨b1, a1, fun x hx y hy => ?_⟩, fun x => ?_⟩, fun hm => ?_, fun hn => ?_⟩
    · have := (a2 y).1 hy; have := hA.mem ((b2 x).1 hx); omega
    · simp only [List.mem_append, a2, b2, mem_cons]; exact or_comm
    · rw [mem_cons] at hm
      rcases hm with hm | hm
      · rw [a3, if_pos ⟨hlu, by unfold InI64 at hr; omega⟩]
      · exact absurd hm hnm
    · rw [a3, if_neg]
      intro hc; apply hn; rw [mem_cons]; left; omega

/-- C06: `for_each` with a `bool` callback calls it on a prefix of the ascending enumeration, and stops early only just after a call that
returned false. -/
theorem forEach_spec (f : List Int → Int → Bool) (seen l : List Int) :
    ∃ n, forEachCalls f seen l = l.take n ∧
      (∀ i (hi : i < l.length), i + 1 < n → f ((l.take i).reverse ++ seen) l[i] = true) ∧
      (n < l.length → ∃ i, ∃ hi : i < l.length, n = i + 1 ∧ f ((l.take i).reverse ++ seen) l[i] = false) := by
  induction l generalizing seen with
  | nil => exact ⟨0, by simp [forEachCalls], by simp, by simp⟩
  | cons x xs ih =>
    unfold forEachCalls
    by_cases hf : f seen x = true
    · obtain ⟨n, h1, h2, h3⟩ := ih (x :: seen)
      refine ⟨n + 1, by rw [if_pos hf, h1]; simp, ?_, ?_⟩
      · intro i hi hin
        cases i with
        | zero => simpa using hf
        | succ j => simpa using h2 j (by simpa using hi) (by omega)
      · intro hn
        obtain ⟨i, hi, h4, h5⟩ := h3 (by simpa using hn)
        exact ⟨i + 1, by simpa using hi, by omega, by simpa using h5⟩
    · refine ⟨1, by simp [hf], by omega, fun _ => ⟨0, by simp, rfl, ?_⟩⟩
      simpa using hf

/-- C05: `size` is the length of the ascending enumeration (as long as it is representable). -/
theorem each_length (s : IntervalSet) (h : WF s) (hr : InRange s) : ((each s).1.length : Int) = count s := by
  have up : ∀ i u, InI64 i → InI64 u → i ≤ u + 1 → ((loopUp i u).1.length : Int) = u - i + 1 := by
    intro i u hi hu
    fun_induction loopUp i u with
    | case1 i h e he =>
      intro _
      have hinc := iInc_exact i hi
      rw [he] at hinc
      unfold exactOrThrow at hinc
      split at hinc
      · cases hinc
      · rename_i h2; simp only [List.length_singleton]; unfold InI64 i64Min i64Max at *; omega
    | case2 i h i' he r ih =>
      intro _
      have e := iInc_eq he; subst e
      have hinc := iInc_exact i hi
      rw [he] at hinc
      unfold exactOrThrow at hinc
      split at hinc
      · rename_i h2
        have := ih h2 (by omega)
        simp only [List.length_cons, r]; omega
      · cases hinc
    | case3 i h => intro _; simp only [List.length_nil]; omega
  induction s with
  | nil => simp [each, count]
  | cons p r ih =>
    obtain ⟨l, u⟩ := p
    obtain ⟨hlu, hA, hwr⟩ := wf_cons.1 h
    have hr' := hr
    simp only [inRange_cons] at hr
    have h1 := up l u hr.1.1 hr.1.2 (by omega)
    have h2 := ih hwr hr.2
    have h3 := (loopUp_spec l u hr.1.1 hr.1.2).2
    unfold each Gen.append count
    by_cases hc : u = i64Max
    · rw [h3, if_pos ⟨hlu, hc⟩]
      have hrn : r = [] := by
        cases r with
        | nil => rfl
        | cons q r' =>
          have := (above_cons _ _ _ _).1 hA
          have := hr.2 _ (List.mem_cons_self ..)
          unfold InI64 at this; omega
      subst hrn
      simp only [count]; omega
    · rw [h3, if_neg (fun h => hc h.2)]
      simp only [List.length_append]; omega

/-- C05: if any strictly ascending list enumerates the members, `size` returns its length when representable and throws otherwise. -/
theorem size_counts_members (s : IntervalSet) (h : WF s) (hr : InRange s) (l : List Int) (hl : ListsAscending (fun x => Mem x s) l) :
    size s = exactOrThrow (l.length : Int) := by
  have h1 := (each_spec s h hr).1
  have uniq : ∀ (a b : List Int), a.Pairwise (· < ·) → b.Pairwise (· < ·) → (∀ x, x ∈ a ↔ x ∈ b) → a = b := by
    intro a
    induction a with
    | nil => intro b _ _ hm; cases b with
      | nil => rfl
      | cons y ys => have := (hm y).2 (by simp); simp at this
    | cons x xs ih =>
      intro b ha hb hm
      cases b with
      | nil => have := (hm x).1 (by simp); simp at this
      | cons y ys =>
        rw [List.pairwise_cons] at ha hb
        have hxy : x = y := by
          have h1 := (hm x).1 (by simp)
          have h2 := (hm y).2 (by simp)
          rw [List.mem_cons] at h1 h2
          rcases h1 with h1 | h1
          · exact h1
          · rcases h2 with h2 | h2
            · exact h2.symm
            · have := hb.1 x h1; have := ha.1 y h2; omega
        subst hxy
        rw [ih ys ha.2 hb.2]
        intro z
        have hz := hm z
        simp only [List.mem_cons] at hz
        constructor
        · intro hzx
          rcases hz.1 (.inr hzx) with h | h
          · subst h; exact absurd (ha.1 z hzx) (by omega)
          · exact h
        · intro hzy
          rcases hz.2 (.inr hzy) with h | h
          · subst h; exact absurd (hb.1 z hzy) (by omega)
          · exact h
  have : (each s).1 = l := uniq _ _ h1.1 hl.1 (fun x => by rw [h1.2, hl.2])
  rw [size_spec s h hr, ← each_length s h hr, this]

theorem loopNe_spec (i b : Int) (hi : InI64 i) (hb : InI64 b) (hib : i ≤ b) :
    ListsAscending (fun x => i ≤ x ∧ x < b) (loopNe i b).1 ∧ (loopNe i b).2 = none := by
  fun_induction loopNe i b with
  | case1 i h e he =>
    exfalso
    have hinc := iInc_exact i hi
    rw [he] at hinc
    unfold exactOrThrow at hinc
    split at hinc
    · cases hinc
    · rename_i h2; unfold InI64 i64Min i64Max at *; omega
  | case2 i h i' he r ih =>
    have e := iInc_eq he; subst e
    obtain ⟨⟨a1, a2⟩, a3⟩ := ih (by unfold InI64 i64Min i64Max at *; omega) (by omega)
    refine ⟨⟨List.pairwise_cons.2 ⟨fun y hy => ?_, a1⟩, fun x => ?_⟩, a3⟩
    · have := (a2 y).1 hy; omega
    · rw [List.mem_cons, a2]; constructor
      · rintro (hx | hx) <;> omega
      · intro hx; by_cases hxi : x = i
        · exact .inl hxi
        · exact .inr (by omega)
  | case3 i h =>
    refine ⟨⟨by simp, fun x => by simp; omega⟩, rfl⟩

/-- A value in a gap: missing, but strictly between two members. -/
def InGap (s : IntervalSet) (x : Int) : Prop := ¬ Mem x s ∧ (∃ a, Mem a s ∧ a < x) ∧ (∃ b, Mem b s ∧ x < b)

theorem inGap_cons_cons (l u l' u' x : Int) (r : IntervalSet) (h : WF ((l, u) :: (l', u') :: r)) :
    InGap ((l, u) :: (l', u') :: r) x ↔ (u + 1 ≤ x ∧ x < l') ∨ InGap ((l', u') :: r) x := by
  obtain ⟨hlu, hA, hwr⟩ := wf_cons.1 h
  obtain ⟨hlu', hA', hwr'⟩ := wf_cons.1 hwr
  have hul := ((above_cons _ _ _ _).1 hA).1
  unfold InGap
  constructor
  · rintro ⟨h1, ⟨a, ha, hax⟩, b, hb, hxb⟩
    rw [mem_cons] at h1 ha hb
    by_cases hx : x < l'
    · left
      refine ⟨?_, hx⟩
      rcases ha with ha | ha
      · omega
      · have := hA.mem ha
        rw [mem_cons] at ha
        rcases ha with ha | ha
        · omega
        · have := hA'.mem ha; omega
    · right
      refine ⟨fun hm => h1 (.inr hm), ⟨l', by simp; omega, ?_⟩, b, ?_, hxb⟩
      · have : x ≠ l' := by rintro rfl; exact h1 (.inr (by simp; omega))
        omega
      · rcases hb with hb | hb
        · omega
        · exact hb
  · rintro (hx | ⟨h1, ⟨a, ha, hax⟩, b, hb, hxb⟩)
    · refine ⟨?_, ⟨u, by simp; omega, by omega⟩, l', by simp; omega, by omega⟩
      simp only [mem_cons]
      rintro (h | h | h)
      · omega
      · omega
      · have := hA'.mem h; omega
    · refine ⟨?_, ⟨a, by rw [mem_cons]; exact .inr ha, hax⟩, b, by rw [mem_cons]; exact .inr hb, hxb⟩
      rw [mem_cons]
      rintro (h | h)
      · have := hA.mem ha; omega
      · exact h1 h

/-- C06: `each_gap` yields exactly the holes, ascending, and never throws. -/
theorem eachGap_spec (s : IntervalSet) (h : WF s) (hr : InRange s) :
    ListsAscending (InGap s) (eachGap s).1 ∧ (eachGap s).2 = none := by
  fun_induction eachGap s with
  | case1 => simp [ListsAscending, InGap]
  | case2 p =>
    obtain ⟨l, u⟩ := p
    refine ⟨⟨by simp, fun x => ?_⟩, rfl⟩
    simp only [List.not_mem_nil, false_iff]
    rintro ⟨h1, ⟨a, ha, hax⟩, b, hb, hxb⟩
    simp at h1 ha hb; omega
  | case3 l u l' u' r e he =>
    exfalso
    have hul := ((above_cons _ _ _ _).1 (wf_cons.1 h).2.1).1
    simp only [inRange_cons] at hr
    rw [iAdd_exact u 1 hr.1.2 (by decide)] at he
    unfold exactOrThrow at he
    rw [if_pos (by unfold InI64 at *; omega)] at he
    cases he
  | case4 l u l' u' r a ha ih =>
    have hwr := (wf_cons.1 h).2.2
    have hul := ((above_cons _ _ _ _).1 (wf_cons.1 h).2.1).1
    have hr' := hr
    simp only [inRange_cons] at hr
    have hu1 : InI64 (u + 1) := by unfold InI64 at *; omega
    rw [iAdd_exact u 1 hr.1.2 (by decide)] at ha
    unfold exactOrThrow at ha
    rw [if_pos hu1] at ha
    cases ha
    obtain ⟨⟨a1, a2⟩, a3⟩ := loopNe_spec (u + 1) l' hu1 hr.2.1.1 (by omega)
    obtain ⟨⟨b1, b2⟩, b3⟩ := ih hwr (by simp only [inRange_cons]; exact hr.2)
    unfold Gen.append
    rw [a3]
    refine ⟨⟨List.pairwise_append.2 ⟨a1, b1, fun x hx y hy => ?_⟩, fun x => ?_⟩, b3⟩
    · have := (a2 x).1 hx
      obtain ⟨h1, ⟨c, hc, hcy⟩, -⟩ := (b2 y).1 hy
      have : l' ≤ c := by
        rw [mem_cons] at hc
        rcases hc with hc | hc
        · omega
        · have := (wf_cons.1 hwr).2.1.mem hc; have := (wf_cons.1 hwr).1; omega
      omega
    · rw [inGap_cons_cons _ _ _ _ _ _ h]
      simp only [List.mem_append, a2, b2]

/-- C06: `each_gap_interval` yields exactly the maximal runs of holes, each as first missing value / next present value, ascending. The yields
are half-open `[a, b)`: the code yields `(upper + 1, next lower)` (gcs/interval_set.hh:531). -/
theorem eachGapInterval_spec (s : IntervalSet) (h : WF s) (hr : InRange s) :
    (eachGapInterval s).2 = none ∧
    (∀ x, (∃ p ∈ (eachGapInterval s).1, p.1 ≤ x ∧ x < p.2) ↔ InGap s x) ∧
    (∀ p ∈ (eachGapInterval s).1, Mem (p.1 - 1) s ∧ p.1 < p.2 ∧ Mem p.2 s) ∧
    (eachGapInterval s).1.Pairwise (fun p q => p.2 < q.1) := by
  fun_induction eachGapInterval s with
  | case1 => simp [InGap]
  | case2 p =>
    obtain ⟨l, u⟩ := p
    refine ⟨rfl, fun x => ?_, by simp, by simp⟩
    simp only [List.not_mem_nil, false_and, exists_false, false_iff]
    rintro ⟨h1, ⟨a, ha, hax⟩, b, hb, hxb⟩
    simp at h1 ha hb; omega
  | case3 l u l' u' r e he =>
    exfalso
    have hul := ((above_cons _ _ _ _).1 (wf_cons.1 h).2.1).1
    simp only [inRange_cons] at hr
    rw [iAdd_exact u 1 hr.1.2 (by decide)] at he
    unfold exactOrThrow at he
    rw [if_pos (by unfold InI64 at *; omega)] at he
    cases he
  | case4 l u l' u' r a ha g ih =>
    obtain ⟨hlu, hA, hwr⟩ := wf_cons.1 h
    obtain ⟨hlu', hA', hwr'⟩ := wf_cons.1 hwr
    have hul := ((above_cons _ _ _ _).1 hA).1
    have hr' := hr
    simp only [inRange_cons] at hr
    have hu1 : InI64 (u + 1) := by unfold InI64 at *; omega
    rw [iAdd_exact u 1 hr.1.2 (by decide)] at ha
    unfold exactOrThrow at ha
    rw [if_pos hu1] at ha
    cases ha
    obtain ⟨b1, b2, b3, b4⟩ := ih hwr (by simp only [inRange_cons]; exact hr.2)
    refine ⟨b1, fun x => ?_, fun p hp => ?_, List.pairwise_cons.2 ⟨fun q hq => ?_, b4⟩⟩
    · rw [inGap_cons_cons _ _ _ _ _ _ h, ← b2]
      simp only [List.mem_cons, exists_eq_or_imp]
      rfl
    · rcases List.mem_cons.1 hp with rfl | hp
      · simp only [Int.add_sub_cancel]
        exact ⟨by simp; omega, by omega, by simp; omega⟩
      · obtain ⟨c1, c2, c3⟩ := b3 p hp
        refine ⟨?_, c2, ?_⟩
        · rw [mem_cons]; exact .inr c1
        · rw [mem_cons]; exact .inr c3
    · have := (b3 q hq).1
      rw [mem_cons] at this
      rcases this with h | h
      · simp only; omega
      · have := hA'.mem h; simp only; omega

theorem minusInner_spec (iu cur : Int) (js : IntervalSet) (hw : WF js) (hr : InRange js) (hcur : InI64 cur)
    (hcu : cur ≤ iu) (hb : ∀ q ∈ js, cur ≤ q.2) (hmax : ∀ q ∈ js, q.1 ≤ iu → q.2 < i64Max) :
    let m := minusInner iu cur js
    m.err = none ∧ InI64 m.cur ∧ cur ≤ m.cur ∧ WF m.js ∧ InRange m.js ∧ (∀ q ∈ m.js, q ∈ js) ∧
    (∀ x, iu < x → (Mem x m.js ↔ Mem x js)) ∧
    (∀ x, cur ≤ x → x ≤ iu → ((Mem x m.out ∨ m.cur ≤ x) ↔ ¬ Mem x js)) ∧
    (∀ p ∈ m.out, cur ≤ p.1 ∧ p.1 ≤ p.2 ∧ p.2 + 1 < m.cur ∧ p.2 < iu) ∧ WF m.out := by
  induction js generalizing cur with
  | nil => simp only [minusInner]; simp; exact ⟨hcur, fun x h _ => h⟩
  | cons p r ih =>
    obtain ⟨a, b⟩ := p
    obtain ⟨hab, hA, hwr⟩ := wf_cons.1 hw
    have hr' := hr
    simp only [inRange_cons] at hr
    have hcb : cur ≤ b := hb (a, b) (by simp)
    simp only
    unfold minusInner
    by_cases hau : a ≤ iu
    · rw [if_pos hau]
      have hbmax : b < i64Max := hmax (a, b) (by simp) hau
      have hb1 : InI64 (b + 1) := by unfold InI64 at *; omega
      have hbadd : iAdd b 1 = .ok (b + 1) := by
        rw [iAdd_exact b 1 hr.1.2 (by decide)]; unfold exactOrThrow; rw [if_pos hb1]
      have hy : (if a > cur then (do return [(cur, ← iSub a 1)]) else .ok [] : Chk (List (Int × Int))) =
          .ok (if a > cur then [(cur, a - 1)] else []) := by
        by_cases hac : a > cur
        · rw [if_pos hac, if_pos hac, iSub_exact a 1 hr.1.1 (by decide)]
          unfold exactOrThrow
          rw [if_pos (by unfold InI64 at *; omega)]
          rfl
        · rw [if_neg hac, if_neg hac]
      simp only [hy, hbadd]
      have houtm : ∀ x, Mem x (if a > cur then [(cur, a - 1)] else []) ↔ cur ≤ x ∧ x < a := by
        intro x; split
        · simp; omega
        · simp; omega
      have houtp : ∀ p ∈ (if a > cur then [(cur, a - 1)] else [] : IntervalSet), p = (cur, a - 1) ∧ cur < a := by
        intro p; split
        · intro hp; exact ⟨by simpa using hp, by omega⟩
        · simp
      have houtw : WF (if a > cur then [(cur, a - 1)] else []) := by
        split
        · refine wf_cons.2 ⟨by omega, by simp, by simp⟩
        · simp
      by_cases hbu : b + 1 > iu
      · rw [if_pos hbu]
        refine ⟨rfl, hb1, by simp only; omega, hw, hr', fun q hq => hq, fun x _ => Iff.rfl, fun x h1 h2 => ?_, fun p hp => ?_, houtw⟩
        · simp only [houtm, mem_cons]
          constructor
          · rintro (hx | hx)
            · rintro (h | h)
              · omega
              · have := hA.mem h; omega
            · rintro (h | h)
              · omega
              · omega
          · intro hn
            left
            refine ⟨h1, ?_⟩
            by_cases hxa : x < a
            · exact hxa
            · exact absurd (.inl (by omega)) hn
        · obtain ⟨rfl, hc⟩ := houtp p hp
          simp only; omega
      · rw [if_neg hbu]
        obtain ⟨i1, i2, i3, i4, i5, i6, i7, i8, i9, i10⟩ := ih (b + 1) hwr hr.2 hb1 (by omega)
          (fun q hq => by have := hA q hq; have := hwr.1 q hq; omega) (fun q hq => hmax q (List.mem_cons_of_mem _ hq))
        refine ⟨i1, i2, by simp only; omega, i4, i5, fun q hq => List.mem_cons_of_mem _ (i6 q hq), fun x hx => ?_, fun x h1 h2 => ?_,
          fun p hp => ?_, ?_⟩
        · simp only [i7 x hx, mem_cons]; exact ⟨.inr, fun h => h.elim (fun h => by omega) id⟩
        · simp only [mem_append, houtm, mem_cons]
          by_cases hxb : b + 1 ≤ x
          · have := i8 x hxb h2
            constructor
            · rintro ((h | h) | h)
              · omega
              · rintro (g | g)
                · omega
                · exact (this.1 (.inl h)) g
              · rintro (g | g)
                · omega
                · exact (this.1 (.inr h)) g
            · intro hn
              rcases this.2 (fun g => hn (.inr g)) with h | h
              · exact .inl (.inr h)
              · exact .inr h
          · constructor
            · rintro ((h | h) | h)
              · rintro (g | g)
                · omega
                · have := hA.mem g; omega
              · obtain ⟨p, hp, g1, g2⟩ := h
                have := i9 p hp; omega
              · omega
            · intro hn
              by_cases hxa : x < a
              · exact .inl (.inl ⟨h1, hxa⟩)
              · exact absurd (.inl (by omega)) hn
        · rcases List.mem_append.1 hp with hp | hp
          · obtain ⟨rfl, hc⟩ := houtp p hp
            simp only; omega
          · have := i9 p hp
            simp only; omega
        · refine wf_append.2 ⟨houtw, i10, fun p hp q hq => ?_⟩
          obtain ⟨rfl, hc⟩ := houtp p hp
          have := i9 q hq
          simp only; omega
    · rw [if_neg hau]
      refine ⟨rfl, hcur, Int.le_refl _, hw, hr', fun q hq => hq, fun x _ => Iff.rfl, fun x h1 h2 => ?_, by simp, by simp⟩
      simp only [mem_nil, false_or, mem_cons]
      refine ⟨fun _ => ?_, fun _ => h1⟩
      rintro (h | h)
      · omega
      · have := hA.mem h; omega

/-- C06 / C07: provided the other set does not contain the largest representable integer, `each_interval_minus` does not throw and yields the
canonical (maximal, ascending) intervals of the set difference. -/
theorem eachIntervalMinus_spec_partial (s t : IntervalSet) (hs : WF s) (ht : WF t) (rs : InRange s) (rt : InRange t) (hmax : ¬ Mem i64Max t) :
    (eachIntervalMinus s t).2 = none ∧ (∀ x, Mem x (eachIntervalMinus s t).1 ↔ Mem x s ∧ ¬ Mem x t) ∧ WF (eachIntervalMinus s t).1 := by
  induction s generalizing t with
  | nil => simp [eachIntervalMinus]
  | cons p r ih =>
    obtain ⟨l, u⟩ := p
    obtain ⟨hlu, hA, hwr⟩ := wf_cons.1 hs
    simp only [inRange_cons] at rs
    obtain ⟨d1, d2, d3, d4⟩ := dropWhile_spec l t ht
    have dr : InRange (t.dropWhile (fun q => q.2 < l)) := inRange_of_mem d1 fun x hx => mem_of_inRange rt (d3 x hx)
    have dm : ∀ q ∈ (t.dropWhile (fun q => q.2 < l)), q.1 ≤ u → q.2 < i64Max := by
      intro q hq _
      have h1 := d1.1 q hq
      have hm : Mem q.2 t := d3 _ ⟨q, hq, h1, by omega⟩
      have h2 := mem_of_inRange rt hm
      have : q.2 ≠ i64Max := fun h => hmax (h ▸ hm)
      unfold InI64 at h2; omega
    obtain ⟨i1, i2, i3, i4, i5, i6, i7, i8, i9, i10⟩ := minusInner_spec u l _ d1 dr rs.1.1 hlu d4 dm
    have hsub : ∀ x, Mem x (minusInner u l (t.dropWhile (fun q => q.2 < l))).js → Mem x t := by
      rintro x ⟨q, hq, hx⟩; exact d3 x ⟨q, i6 q hq, hx⟩
    obtain ⟨j1, j2, j3⟩ := ih _ hwr i4 rs.2 i5 (fun h => hmax (hsub _ h))
    unfold eachIntervalMinus
    simp only [i1, j1, true_and]
    generalize hm : minusInner u l (t.dropWhile (fun q => q.2 < l)) = m at *
    have hlast : ∀ x, Mem x (if m.cur ≤ u then [(m.cur, u)] else []) ↔ m.cur ≤ x ∧ x ≤ u := by
      intro x; split
      · simp
      · simp; omega
    have hfirst : ∀ x, Mem x (m.out ++ if m.cur ≤ u then [(m.cur, u)] else []) ↔ (l ≤ x ∧ x ≤ u) ∧ ¬ Mem x t := by
      intro x
      rw [mem_append, hlast]
      constructor
      · rintro (hx | hx)
        · obtain ⟨q, hq, g1, g2⟩ := hx
          have := i9 q hq
          have h8 := (i8 x (by omega) (by omega)).1 (.inl ⟨q, hq, g1, g2⟩)
          exact ⟨by omega, fun hm => h8 ((d2 x (by omega)).2 hm)⟩
        · have h8 := (i8 x (by omega) (by omega)).1 (.inr hx.1)
          exact ⟨by omega, fun hm => h8 ((d2 x (by omega)).2 hm)⟩
      · rintro ⟨hx, hn⟩
        rcases (i8 x hx.1 hx.2).2 (fun hm => hn ((d2 x hx.1).1 hm)) with h | h
        · exact .inl h
        · exact .inr ⟨h, hx.2⟩
    constructor
    · intro x
      rw [mem_append, hfirst, j2, mem_cons]
      constructor
      · rintro (hx | hx)
        · exact ⟨.inl hx.1, hx.2⟩
        · have := hA.mem hx.1
          exact ⟨.inr hx.1, fun hm => hx.2 ((i7 x (by omega)).2 ((d2 x (by omega)).2 hm))⟩
      · rintro ⟨hx | hx, hn⟩
        · exact .inl ⟨hx, hn⟩
        · exact .inr ⟨hx, fun hm => hn (hsub x hm)⟩
    · refine wf_append.2 ⟨wf_append.2 ⟨i10, ?_, fun p hp q hq => ?_⟩, j3, fun p hp q hq => ?_⟩
      · split
        · refine wf_cons.2 ⟨by omega, by simp, by simp⟩
        · simp
      · have := i9 p hp
        split at hq
        · simp only [List.mem_singleton] at hq; subst hq; simp only; omega
        · simp at hq
      · have h2 := j3.1 q hq
        have h4 := (j2 q.1).1 ⟨q, hq, by omega, h2⟩
        have := hA.mem h4.1
        rcases List.mem_append.1 hp with hp | hp
        · have := i9 p hp; omega
        · split at hp
          · simp only [List.mem_singleton] at hp; subst hp; simp only; omega
          · simp at hp

/-- C07 (finding): the enumeration functions throw although every value they have to yield is representable: `each` at the top of the range,
`each_reversed` at the bottom, and `each_interval_minus` when the *other* set reaches the top. `size` throws for the full range. -/
theorem iteration_throws_at_range_ends :
    (each [(i64Max, i64Max)]) = ([i64Max], some .overflow) ∧
    (eachReversed [(i64Min, i64Min)]) = ([i64Min], some .overflow) ∧
    (eachIntervalMinus [(0, 1)] [(1, i64Max)]) = ([(0, 0)], some .overflow) ∧
    size [(i64Min, i64Max)] = .error .overflow := by
  refine ⟨?_, ?_, by decide, by decide⟩
  · have : iInc i64Max = .error .overflow := by decide
    simp only [each, Gen.append]
    unfold loopUp
    rw [if_pos (by decide)]
    split
    · rename_i e he; rw [this] at he; cases he; rfl
    · rename_i e he; rw [this] at he; cases he
  · have : iDec i64Min = .error .overflow := by decide
    simp only [eachReversed, List.reverse_cons, List.reverse_nil, List.nil_append, List.foldr_cons, List.foldr_nil, Gen.append]
    unfold loopDown
    rw [if_pos (by decide)]
    split
    · rename_i e he; rw [this] at he; cases he; rfl
    · rename_i e he; rw [this] at he; cases he

/-- C07: with no value at either end of the range, none of the iterators throws. -/
theorem iteration_total (s t : IntervalSet) (hs : WF s) (ht : WF t) (rs : InRange s) (rt : InRange t)
    (h1 : ¬ Mem i64Max s) (h2 : ¬ Mem i64Min s) (h3 : ¬ Mem i64Max t) :
    (each s).2 = none ∧ (eachReversed s).2 = none ∧ (eachGap s).2 = none ∧ (eachGapInterval s).2 = none ∧ (eachIntervalMinus s t).2 = none :=
  ⟨(each_spec s hs rs).2.2 h1, (eachReversed_spec s hs rs).2.2 h2, (eachGap_spec s hs rs).2, (eachGapInterval_spec s hs rs).1,
    (eachIntervalMinus_spec_partial s t hs ht rs rt h3).1⟩

example : WF [(1, 4), (8, 10)] ∧ InRange [(1, 4), (8, 10)] ∧ ¬ Mem i64Max [(1, 4), (8, 10)] ∧ ¬ Mem i64Min [(1, 4), (8, 10)] ∧
    eachIntervalMinus [(1, 4), (8, 10)] [(2, 2), (4, 8)] = ([(1, 1), (3, 3), (9, 10)], none) ∧
    eachGapInterval [(1, 4), (8, 10)] = ([(5, 8)], none) := by
  refine ⟨by decide, by decide, ?_, ?_, by decide, by decide⟩ <;> simp [i64Max, i64Min]

example : (each [(1, 2), (8, 8)]).1 = [1, 2, 8] := by
  decide +kernel

end IntervalSet
end Gcs

#print axioms Gcs.IntervalSet.each_spec
#print axioms Gcs.IntervalSet.eachReversed_spec
#print axioms Gcs.IntervalSet.forEach_spec
#print axioms Gcs.IntervalSet.size_counts_members
#print axioms Gcs.IntervalSet.eachGap_spec
#print axioms Gcs.IntervalSet.eachGapInterval_spec
#print axioms Gcs.IntervalSet.eachIntervalMinus_spec_partial
#print axioms Gcs.IntervalSet.iteration_throws_at_range_ends
#print axioms Gcs.IntervalSet.iteration_total
