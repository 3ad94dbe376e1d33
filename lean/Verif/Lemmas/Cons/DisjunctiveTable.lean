import Verif.Model.Cons.Disjunctive
import Verif.Lemmas.Cons.CumulativePost

/-! The profile and the time table: as for Cumulative, where heights and the capacity are 1. -/

namespace Gcs.Disjunctive
open IntervalSet
open Cumulative

section
variable {σ μ : Type} {m n : Nat} {R : Err → Prop} {d d0 d1 root : Doms} {s t j : Task} {ts : List Task} {a : Asg} {u lo x e : Int} {strict : Bool} {w cur : Int × Int} {v : List Int}

/-- They do not overlap, if both are there. -/
def Sep (strict : Bool) (a : Asg) (s t : Task) : Prop := s.Here a → t.Here a →
  (strict = false ∧ (s.length.eval a = 0 ∨ t.length.eval a = 0)) ∨ s.start.eval a + s.length.eval a ≤ t.start.eval a ∨ t.start.eval a + t.length.eval a ≤ s.start.eval a

theorem Sep.symm (h : Sep strict a s t) : Sep strict a t s := fun h1 h2 => by
  rcases h h2 h1 with ⟨k1, k2 | k2⟩ | k | k
  · exact .inl ⟨k1, .inr k2⟩
  · exact .inl ⟨k1, .inl k2⟩
  · exact .inr (.inr k)
  · exact .inr (.inl k)

/-- No two do. -/
def Alone (strict : Bool) (ts : List Task) (a : Asg) : Prop := ts.Pairwise (Sep strict a)

theorem Alone.sep {s t : Task × Nat} (h : Alone strict ts a) (hs : s ∈ ts.zipIdx) (ht : t ∈ ts.zipIdx) (hne : s.2 ≠ t.2) : Sep strict a s.1 t.1 := by
  rw [List.mem_zipIdx_iff_getElem?] at hs ht
  obtain ⟨h1, e1⟩ := List.getElem?_eq_some_iff.1 hs
  obtain ⟨h2, e2⟩ := List.getElem?_eq_some_iff.1 ht
  have k := List.pairwise_iff_getElem.1 h
  rw [← e1, ← e2]
  rcases Nat.lt_or_ge s.2 t.2 with c | c
  · exact k _ _ h1 h2 c
  · exact (k _ _ h2 h1 (by omega)).symm

/-- They use 1. -/
def Plain (ts : List Task) : Prop := ∀ t ∈ ts, t.height = .const 1

theorem use_one (h : t.height = .const 1) : use a u t = if t.Here a ∧ t.start.eval a ≤ u ∧ u < t.start.eval a + t.length.eval a then 1 else 0 := by
  unfold use
  rw [h]
  rfl

theorem exists_use : ∀ {ts : List Task}, Plain ts → 0 < tot (use a u) ts → ∃ t ∈ ts, t.Here a ∧ t.start.eval a ≤ u ∧ u < t.start.eval a + t.length.eval a
  | [], _, h => by simp at h
  | t :: ts, hp, h => by
    rw [tot_cons, use_one (hp t List.mem_cons_self)] at h
    by_cases k : t.Here a ∧ t.start.eval a ≤ u ∧ u < t.start.eval a + t.length.eval a
    · exact ⟨t, List.mem_cons_self, k⟩
    · rw [if_neg k] at h
      obtain ⟨s, hs, k⟩ := exists_use (fun s hs => hp s (List.mem_cons_of_mem _ hs)) (by omega)
      exact ⟨s, List.mem_cons_of_mem _ hs, k⟩

/-- Two that run at the same time overlap. -/
theorem over_alone : ∀ {ts : List Task}, Plain ts → 1 < tot (use a u) ts → ¬ Alone strict ts a
  | [], _, h => by simp at h
  | t :: ts, hp, h => fun hA => by
    have hp' : Plain ts := fun s hs => hp s (List.mem_cons_of_mem _ hs)
    obtain ⟨h1, h2⟩ := List.pairwise_cons.1 hA
    rw [tot_cons, use_one (hp t List.mem_cons_self)] at h
    by_cases k : t.Here a ∧ t.start.eval a ≤ u ∧ u < t.start.eval a + t.length.eval a
    · rw [if_pos k] at h
      obtain ⟨s, hs, k'⟩ := exists_use (a := a) (u := u) hp' (by omega)
      rcases h1 s hs k.1 k'.1 with ⟨_, c | c⟩ | c | c <;> omega
    · rw [if_neg k] at h
      exact over_alone hp' (by omega) h2

theorem tot_two {f : α → Int} : ∀ {l : List α} (i k : Nat) (hi : i < l.length) (hk : k < l.length), (∀ x ∈ l, 0 ≤ f x) → i < k → f l[i] + f l[k] ≤ tot f l
  | [], _, _, h, _, _, _ => by simp at h
  | y :: l, 0, k + 1, _, hk, hn, _ => by
    have hk' : k < l.length := by simpa using hk
    have := tot_pos (f := f) (fun z hz => hn z (List.mem_cons_of_mem _ hz)) l[k] (List.getElem_mem (by simpa using hk))
    simp only [List.getElem_cons_zero, List.getElem_cons_succ, tot_cons]
    omega
  | y :: l, i + 1, k + 1, hi, hk, hn, hlt => by
    have := tot_two (f := f) (l := l) i k (by simpa using hi) (by simpa using hk) (fun z hz => hn z (List.mem_cons_of_mem _ hz)) (by omega)
    have h0 := hn y List.mem_cons_self
    simp only [List.getElem_cons_succ, tot_cons]
    omega

/-- The middle of something else is where what takes no time must not be. -/
def Within1 (a : Asg) (z k : Task) : Prop := z.Here a ∧ k.Here a ∧ z.length.eval a = 0 ∧ k.start.eval a < z.start.eval a ∧ z.start.eval a < k.start.eval a + k.length.eval a

/-- What is left to check. -/
theorem alone_of (hp : Plain ts) (hs : ∀ t ∈ ts, t.Sane a) (h1 : ∀ u, tot (use a u) ts ≤ 1) (h2 : strict = true → ∀ z ∈ ts.zipIdx, ∀ k ∈ ts.zipIdx, k.2 ≠ z.2 → ¬ Within1 a z.1 k.1) : Alone strict ts a := by
  refine List.pairwise_iff_getElem.2 fun i k hi hk hlt hi' hk' => Classical.byContradiction fun hn => ?_
  have m1 : ts[i] ∈ ts := List.getElem_mem hi
  have m2 : ts[k] ∈ ts := List.getElem_mem hk
  have z1 : (ts[i], i) ∈ ts.zipIdx := List.mem_zipIdx_iff_getElem?.2 (List.getElem?_eq_getElem hi)
  have z2 : (ts[k], k) ∈ ts.zipIdx := List.mem_zipIdx_iff_getElem?.2 (List.getElem?_eq_getElem hk)
  have n1 : ¬ (ts[i].start.eval a + ts[i].length.eval a ≤ ts[k].start.eval a) := fun h => hn (.inr (.inl h))
  have n2 : ¬ (ts[k].start.eval a + ts[k].length.eval a ≤ ts[i].start.eval a) := fun h => hn (.inr (.inr h))
  have p1 := (hs _ m1).length; have p2 := (hs _ m2).length
  have key := tot_two (f := use a (max (ts[i].start.eval a) (ts[k].start.eval a))) i k hi hk (fun x hx => use_nonneg (hs x hx)) hlt
  have := h1 (max (ts[i].start.eval a) (ts[k].start.eval a))
  by_cases c1 : ts[i].length.eval a = 0
  · cases hst : strict with
    | false => exact hn (.inl ⟨hst, .inl c1⟩)
    | true => exact h2 hst _ z1 _ z2 (by show k ≠ i; omega) ⟨hi', hk', c1, by show ts[k].start.eval a < ts[i].start.eval a; omega, by show ts[i].start.eval a < ts[k].start.eval a + ts[k].length.eval a; omega⟩
  · by_cases c2 : ts[k].length.eval a = 0
    · cases hst : strict with
      | false => exact hn (.inl ⟨hst, .inr c2⟩)
      | true => exact h2 hst _ z2 _ z1 (by show i ≠ k; omega) ⟨hk', hi', c2, by show ts[i].start.eval a < ts[k].start.eval a; omega, by show ts[k].start.eval a < ts[i].start.eval a + ts[i].length.eval a; omega⟩
    · rw [use_one (hp _ m1), use_one (hp _ m2), if_pos ⟨hi', by omega, by omega⟩, if_pos ⟨hk', by omega, by omega⟩] at key
      omega

theorem least_const {c : Int} (hd : DomsOK d) (hc : (VarId.const c).Valid d.length) : least d (.const c) = c := by
  obtain ⟨b, hb, e⟩ := (least_spec hd hc).1
  exact e.symm

/-- It takes some time, and everything that may run does so then. -/
def Horizon (d : Doms) (ts : List Task) : Option (Int × Int) → Prop
  | none => ∀ t ∈ ts, t.Maybe d → ¬ 0 < greatest d t.length
  | some w => InI64 w.1 ∧ InI64 w.2 ∧ ∀ t ∈ ts, t.Maybe d → 0 < greatest d t.length → Spans d w t

theorem horizon_roo (hd : DomsOK d) : ∀ (ts seen : List Task) (w : Option (Int × Int)), (∀ t ∈ ts, t.Valid d.length ∧ ∀ a, Within d a → t.Sane a) → Horizon d seen w →
    RightOrOverflow (horizon d ts w) (Horizon d (seen ++ ts))
  | [], seen, w, _, h => .pure (by simpa using h)
  | t :: ts, seen, w, hv, h => by
    have ht := (hv t List.mem_cons_self).1
    have ih := fun w h => horizon_roo hd ts (seen ++ [t]) w (fun s hs => hv s (List.mem_cons_of_mem _ hs)) h
    rw [List.append_assoc, List.singleton_append] at ih
    have skip : (t.Maybe d → ¬ 0 < greatest d t.length) → Horizon d (seen ++ [t]) w := fun hn => by
      cases w with
      | none =>
          intro s hs
          rcases List.mem_append.1 hs with hs | hs
          · exact h s hs
          · rw [List.mem_singleton.1 hs]; exact hn
      | some w =>
          refine ⟨h.1, h.2.1, fun s hs hm hl => ?_⟩
          rcases List.mem_append.1 hs with hs | hs
          · exact h.2.2 s hs hm hl
          · rw [List.mem_singleton.1 hs] at hm hl; exact absurd hl (hn hm)
    refine (high_roo hd ht.length).bind fun l hl => ?_
    split
    · rename_i hz
      refine ih w (skip fun _ h => ?_)
      have := hl.1
      omega
    · refine (isAbsent_roo hd ht (hv t List.mem_cons_self).2).bind fun b hb => ?_
      cases b with
      | true => exact ih w (skip fun k => nomatch hb.2 k)
      | false =>
        refine (ends_roo hd ht.start).bind fun b hb' => (add_roo hb'.2.2.2 hl.2).bind fun e he => (sub_roo he.2 (by decide)).bind fun hi hhi => ?_
        refine ih _ ?_
        have f1 := hb'.1; have f2 := hb'.2.1; have f3 := hl.1; have f4 := he.1; have f5 := hhi.1
        cases w with
        | none =>
          refine ⟨hb'.2.2.1, hhi.2, fun s hs hm hp => ?_⟩
          rcases List.mem_append.1 hs with hs | hs
          · exact absurd hp (h s hs hm)
          · rw [List.mem_singleton.1 hs]
            exact ⟨by show b.1 ≤ _; omega, by show _ ≤ hi; omega⟩
        | some w =>
          obtain ⟨w1, w2⟩ := w
          refine ⟨?_, ?_, fun s hs hm hp => ?_⟩
          · show InI64 (if b.1 < w1 then b.1 else w1)
            split
            · exact hb'.2.2.1
            · exact h.1
          · show InI64 (if hi > w2 then hi else w2)
            split
            · exact hhi.2
            · exact h.2.1
          · rcases List.mem_append.1 hs with hs | hs
            · have := h.2.2 s hs hm hp
              have k1 := this.lo; have k2 := this.hi
              refine ⟨?_, ?_⟩
              · show (if b.1 < w1 then b.1 else w1) ≤ _
                have : w1 ≤ least d s.start := k1
                split <;> omega
              · show _ ≤ (if hi > w2 then hi else w2)
                have : _ ≤ w2 := k2
                split <;> omega
            · rw [List.mem_singleton.1 hs]
              refine ⟨?_, ?_⟩
              · show (if b.1 < w1 then b.1 else w1) ≤ _
                split <;> omega
              · show _ ≤ (if hi > w2 then hi else w2)
                split <;> omega

theorem loadOne_roo {g : Int → Int} (hd : DomsOK d) (ht : t.Valid d.length) (hp : t.height = .const 1) (hs : ∀ a, Within d a → t.Sane a) (hw : InI64 w.1) (hsp : t.Maybe d → 0 < greatest d t.length → Spans d w t)
    (hn : w.2 < w.1 + n) (hv : Vec v w.1 n g) (hf : Fine w.1 n g) :
    RightOrOverflow (loadOne d w.1 v t) (fun v' => Vec v' w.1 n (fun u => g u + must d u t) ∧ Fine w.1 n (fun u => g u + must d u t)) := by
  have idle : (∀ u, must d u t = 0) → Vec v w.1 n (fun u => g u + must d u t) ∧ Fine w.1 n (fun u => g u + must d u t) := fun h => by
    have : (fun u => g u + must d u t) = g := by funext u; rw [h u]; omega
    rw [this]; exact ⟨hv, hf⟩
  have k5 := least_le hd ht.start; have k6 := least_le hd ht.length
  unfold loadOne
  refine (low_roo hd ht.length).bind fun p hp' => ?_
  have k3 := hp'.1
  split
  · exact .pure (idle fun u => by rw [must, if_neg fun h => by omega])
  · rename_i hz
    have pos : 0 < least d t.length := by
      obtain ⟨b, hb, e⟩ := (least_spec hd ht.length).1
      have := (hs b hb).length
      omega
    refine (isPresent_roo hd ht hs).bind fun b hb => ?_
    cases b with
    | false => exact .pure (idle fun u => by rw [must, if_neg fun h => nomatch hb.2 h.1])
    | true =>
      have sure := hb.1 rfl
      have sp := hsp (sure.maybe hd) (by omega)
      refine (high_roo hd ht.start).bind fun lst hlst => (low_roo hd ht.start).bind fun l hl => (add_roo hl.2 hp'.2).bind fun eet heet => ?_
      have k1 := hlst.1; have k2 := hl.1; have k4 := heet.1
      split
      · have k7 := sp.lo; have k8 := sp.hi
        refine (fill_roo hv hf hw hlst.2 heet.2 (by decide) (by omega) (by omega)).mono fun v' hv' => ?_
        have : (fun u => g u + must d u t) = fun u => g u + if lst ≤ u ∧ u < eet then 1 else 0 := by
          funext u
          rw [must]
          by_cases c : lst ≤ u ∧ u < eet
          · rw [if_pos c, if_pos ⟨sure, by omega, by omega⟩, hp, least_const hd (hp ▸ ht.height)]
          · rw [if_neg c, if_neg fun k => c ⟨by omega, by omega⟩]
        rw [this]; exact hv'
      · exact .pure (idle fun u => by rw [must, if_neg fun h => by omega])

/-- The profile. -/
theorem load_roo (hd : DomsOK d) (hp : Plain ts) (hv : ∀ t ∈ ts, t.Valid d.length ∧ ∀ a, Within d a → t.Sane a) (hw : Horizon d ts (some w)) :
    RightOrOverflow (load d w ts) (fun v => ∃ n : Nat, w.2 < w.1 + n ∧ Vec v w.1 n (fun u => tot (must d u) ts) ∧ Fine w.1 n (fun u => tot (must d u) ts)) := by
  unfold load
  refine (sub_roo hw.2.1 hw.1).bind fun r hr => (add_roo hr.2 (by decide)).bind fun range hrange => ?_
  have e1 := hr.1; have e2 := hrange.1
  have hn : w.2 < w.1 + range.toNat := by omega
  refine (foldlM_roo (I := fun rest v => ∃ seen, seen ++ rest = ts ∧ Vec v w.1 range.toNat (fun u => tot (must d u) seen) ∧ Fine w.1 range.toNat (fun u => tot (must d u) seen)) ?_ ts _ ⟨[], rfl, ⟨by simp, fun k hk => by simp [hk]⟩, fun u _ _ => by simp [InI64, i64Min, i64Max]⟩).mono ?_
  · rintro t rest v ⟨seen, e, h1, h2⟩
    have hm : t ∈ ts := by rw [← e]; simp
    refine (loadOne_roo hd (hv t hm).1 (hp t hm) (hv t hm).2 hw.1 (hw.2.2 t hm) hn h1 h2).mono fun v' h => ⟨seen ++ [t], by rw [← e]; simp, ?_⟩
    have : (fun u => tot (must d u) (seen ++ [t])) = fun u => tot (must d u) seen + must d u t := by funext u; simp
    rw [this]; exact h
  · rintro v ⟨seen, e, h1, h2⟩
    rw [List.append_nil] at e; subst e
    exact ⟨range.toNat, hn, h1, h2⟩

/-- What is known while the tasks are gone through: `d0` is where it began. -/
structure Scene (d0 : Doms) (ts : List Task) (w : Int × Int) (v : List Int) (n : Nat) : Prop where
  ok : DomsOK d0
  plain : Plain ts
  valid : ∀ t ∈ ts, t.Valid d0.length
  sane : ∀ a, Within d0 a → ∀ t ∈ ts, t.Sane a
  horizon : Horizon d0 ts (some w)
  size : w.2 < w.1 + n
  vec : Vec v w.1 n (fun u => tot (must d0 u) ts)
  fine : Fine w.1 n (fun u => tot (must d0 u) ts)

theorem blocked_roo (sc : Scene d0 ts w v n) (tn : Turn d0 d1 j cur e) (hj : j ∈ ts) (hd : DomsOK d) (hl : d.length = d0.length) (hs : ∀ a, Within d a → Within d1 a) (hu : InI64 u) (h1 : w.1 ≤ u) (h2 : u ≤ w.2) :
    RightOrOverflow (blocked w.1 v j cur e d u) (fun b => b = true → ∀ a, Within d a → j.Here a → j.start.eval a ≤ u → u < j.start.eval a + j.length.eval a → 1 < tot (use a u) ts) := by
  have vj : j.Valid d.length := hl ▸ sc.valid j hj
  have vj0 := sc.valid j hj
  have vj1 : j.Valid d1.length := tn.len ▸ sc.valid j hj
  have hs0 : ∀ a, Within d a → Within d0 a := fun a ha => tn.sub a (hs a ha)
  have sz := sc.size
  refine (get_roo sc.vec sc.fine sc.horizon.1 hu h1 (by omega)).bind fun mm hm => (isPresent_roo hd vj fun a ha => sc.sane a (hs0 a ha) j hj).bind fun here hh => .pure fun hb a ha ha1 ha2 ha3 => ?_
  have hb := of_decide_eq_true hb
  have own : must d0 u j ≤ if here = true ∧ cur.2 < e ∧ u ≥ cur.2 ∧ u < e then 1 else 0 := by
    unfold must
    split
    · rename_i k
      have m1 := greatest_mono sc.ok tn.ok vj0.start vj1.start tn.sub
      have m2 := least_mono sc.ok tn.ok vj0.start vj1.start tn.sub
      have m3 := least_mono sc.ok tn.ok vj0.length vj1.length tn.sub
      have c1 := tn.cur1; have c2 := tn.cur2; have c3 := tn.eet
      rw [if_pos ⟨hh.2 fun b hb => k.1 b (hs0 b hb), by omega, by omega, by omega⟩, sc.plain j hj, least_const sc.ok (sc.plain j hj ▸ vj0.height)]
      exact Int.le_refl 1
    · split <;> decide
  have hu : 1 ≤ use a u j := by
    rw [use_one (sc.plain j hj), if_pos ⟨ha1, ha2, ha3⟩]
    exact Int.le_refl 1
  have := tot_one (f := must d0 u) (g := use a u) (l := ts) (fun t ht => must_le sc.ok (sc.valid t ht) (hs0 a ha) (sc.sane a (hs0 a ha) t ht)) hj hu
  have e1 := hm.1
  by_cases c : here = true ∧ cur.2 < e ∧ u ≥ cur.2 ∧ u < e
  · rw [if_pos c] at hb own; omega
  · rw [if_neg c] at hb own; omega

theorem fits_roo (sc : Scene d0 ts w v n) (tn : Turn d0 d1 j cur e) (hp : 0 < least d1 j.length) (hj : j ∈ ts) (hd : DomsOK d) (hl : d.length = d0.length) (hs : ∀ a, Within d a → Within d1 a) (hsi : InI64 x) (h1 : cur.1 ≤ x) (h2 : x ≤ cur.2) :
    RightOrOverflow (fits w.1 v j cur e d x) (fun b => b = false → ∀ a, Within d a → j.Here a → j.start.eval a = x → Over ts 1 a) := by
  have vj : j.Valid d.length := hl ▸ sc.valid j hj
  have vj0 := sc.valid j hj
  have vj1 : j.Valid d1.length := tn.len ▸ sc.valid j hj
  have hs0 : ∀ a, Within d a → Within d0 a := fun a ha => tn.sub a (hs a ha)
  have g1 := least_le tn.ok vj1.length
  have g2 := greatest_mono sc.ok tn.ok vj0.length vj1.length tn.sub
  have sp := sc.horizon.2.2 j hj (by obtain ⟨b, hb, hh⟩ := tn.maybe; exact ⟨b, tn.sub b hb, hh⟩) (by omega)
  have m1 := greatest_mono sc.ok tn.ok vj0.start vj1.start tn.sub
  have m2 := least_mono sc.ok tn.ok vj0.start vj1.start tn.sub
  have m3 := greatest_mono sc.ok hd vj0.length vj.length hs0
  have m4 := least_le hd vj.length
  have c1 := tn.cur1; have c2 := tn.cur2; have c3 := sp.lo; have c4 := sp.hi
  refine (low_roo hd vj.length).bind fun l hl' => (add_roo hsi hl'.2).bind fun e' he' => ?_
  have e1 := hl'.1; have e2 := he'.1
  refine (Knapsack.anyOf_hit (P := fun u => x ≤ u ∧ u < e' ∧ ∀ a, Within d a → j.Here a → j.start.eval a ≤ u → u < j.start.eval a + j.length.eval a → 1 < tot (use a u) ts) (times x e') fun u hu => ?_).bind fun b hb => .pure fun hb' a ha hh hst => ?_
  · rw [mem_times] at hu
    have r1 := hsi; have r2 := he'.2
    refine (blocked_roo sc tn hj hd hl hs (by unfold InI64 at *; omega) (by omega) (by omega)).mono fun b hb e => ⟨hu.1, hu.2, hb e⟩
  · obtain ⟨u, hu, k1, k2, k3⟩ := hb (by simpa using hb')
    have := (least_spec hd vj.length).le ha
    exact ⟨u, k3 a ha hh (by omega) (by omega)⟩

theorem current_roo (hd : DomsOK d) (hl : d.length = d0.length) (hs : ∀ a, Within d a → Within d0 a) (vj : j.Valid d.length) (sane : ∀ a, Within d a → j.Sane a) :
    RightOrOverflow (current d j) (fun o => ∀ r, o = some r → Turn d0 d j r.1 r.2 ∧ 0 < least d j.length) := by
  refine (low_roo hd vj.length).bind fun l hl' => ?_
  split
  · exact .pure fun _ h => nomatch h
  · rename_i hz
    have pos : 0 < least d j.length := by
      obtain ⟨b, hb, e⟩ := (least_spec hd vj.length).1
      have := (sane b hb).length
      have := hl'.1
      omega
    refine (isAbsent_roo hd vj sane).bind fun b hb => ?_
    cases b with
    | true => exact .pure fun _ h => nomatch h
    | false =>
      refine (ends_roo hd vj.start).bind fun c hc => ?_
      have hset : RightOrOverflow (settled d j c) (fun _ => True) := by
        unfold settled
        split
        · exact (isPresent_roo hd vj sane).mono fun _ _ => trivial
        · exact .pure trivial
      refine hset.bind fun b' _ => ?_
      cases b' with
      | true => exact .pure fun _ h => nomatch h
      | false =>
        refine (add_roo hc.2.2.1 hl'.2).bind fun e he => .pure fun r h => ?_
        cases h
        exact ⟨⟨hd, hl, hs, hb.1 rfl, hc.1, hc.2.1, hc.2.2.1, hc.2.2.2, by rw [← hl'.1]; exact he.1⟩, pos⟩

theorem ver_pushUpper {C : Asg → Prop} (ho : R .overflow) (sc : Scene d0 ts w v n) (tn : Turn d0 d1 j cur e) (hp : 0 < least d1 j.length) (hj : j ∈ ts) (hd : DomsOK d) (hl : d.length = d0.length) (hs : ∀ a, Within d a → Within d1 a)
    (hC : ∀ a, Within d0 a → C a → ¬ Over ts 1 a) (here : ∀ a, Within d a → C a → j.Here a) :
    (pushUpper (σ := σ) (μ := μ) w.1 v j cur e).Ver (job d0.length m R root C) (fun _ => False) (fun _ d' => ∀ a, Within d' a → Within d a) d := by
  have hs0 : ∀ a, Within d a → Within d0 a := fun a ha => tn.sub a (hs a ha)
  have vj1 : j.Valid d1.length := tn.len ▸ sc.valid j hj
  have le := least_le tn.ok vj1.start
  have c1 := tn.cur1; have c2 := tn.cur2
  refine ver_ask (f := fun d => lastFit (fits w.1 v j cur e d) (cur.2 - cur.1 + 1).toNat cur.2) ho
    (lastFit_roo (lo := cur.1) (P := fun s => ∀ a, Within d a → j.Here a → j.start.eval a = s → Over ts 1 a) _ cur.2 tn.in2 (by omega) fun x hx h1 h2 => fits_roo sc tn hp hj hd hl hs hx h1 h2) fun ub hub => ?_
  refine ver_onlyIf (fun _ => ?_) fun _ _ h => h
  refine ver_lift ho (P := fun c => c = Cond.lt j.start (ub + 1) ∧ InI64 (ub + 1)) ?_ fun c hcond => ?_
  · unfold Cond.le
    refine (add_roo hub.1 (by decide)).bind fun x hx => .pure ⟨?_, hx.1 ▸ hx.2⟩
    rw [hx.1]; rfl
  · rw [hcond.1]
    refine ver_tell_last (.lt (sc.valid j hj).start hcond.2) (fun a ha hCa => Lit.holds_lt.2 (Classical.byContradiction fun hn => ?_)) fun d' _ _ h a ha => ((h a).1 ha).1
    have g := (greatest_spec tn.ok vj1.start).ge (hs a ha)
    exact hC a (hs0 a ha) hCa.2 (hub.2.2 _ (by omega) (by omega) a ha (here a ha hCa.2) rfl)

theorem ver_push {C : Asg → Prop} (ho : R .overflow) (sc : Scene d0 ts w v n) (hj : j ∈ ts) (hd : DomsOK d) (hl : d.length = d0.length) (hs : ∀ a, Within d a → Within d0 a)
    (hC : ∀ a, Within d0 a → C a → ¬ Over ts 1 a) :
    (push (σ := σ) (μ := μ) w.1 v j).Ver (job d0.length m R root C) (fun _ => False) (fun _ d' => ∀ a, Within d' a → Within d a) d := by
  have vj : j.Valid d.length := hl ▸ sc.valid j hj
  refine ver_ask (f := (current · j)) ho (current_roo (d0 := d0) hd hl hs vj fun a ha => sc.sane a (hs a ha) j hj) fun o h => ?_
  cases o with
  | none => exact fun _ h => h
  | some r =>
    obtain ⟨cur, e⟩ := r
    obtain ⟨tn, hp⟩ : Turn d0 d j cur e ∧ _ := h _ rfl
    have le := least_le hd vj.start
    have c1 := tn.cur1; have c2 := tn.cur2
    refine ver_ask (f := fun d => do
      let lb ← firstFit (fits w.1 v j cur e d) (cur.2 - cur.1 + 1).toNat cur.1
      let here ← isPresent d j
      return (lb, here)) (P := fun r => InI64 r.1 ∧ (∀ x, cur.1 ≤ x → x < r.1 → ∀ a, Within d a → j.Here a → j.start.eval a = x → Over ts 1 a) ∧ (r.2 = true ↔ j.Sure d)) ho
      ((firstFit_roo (hi := cur.2) (P := fun s => ∀ a, Within d a → j.Here a → j.start.eval a = s → Over ts 1 a) _ cur.1 tn.in1 (by omega) fun x hx h1 h2 => fits_roo sc tn hp hj hd hl (fun _ h => h) hx h1 h2).bind
        fun lb hlb => (isPresent_roo hd vj fun a ha => sc.sane a (hs a ha) j hj).bind fun b hb => .pure ⟨hlb.1, hlb.2.2.2, hb⟩) fun r hr => ?_
    obtain ⟨lb, b⟩ := r
    have nohere : ∀ a, Within d a → C a → j.Here a → lb ≤ j.start.eval a := fun a ha hCa hh => Classical.byContradiction fun hn => by
      have := (least_spec hd vj.start).le ha
      exact hC a (hs a ha) hCa (hr.2.1 _ (by omega) (by omega) a ha hh rfl)
    have rest : (∀ a, Within d a → C a → j.Here a) → (Prog.bind (Prog.onlyIf (lb > cur.1) (Prog.tell (.cond (Cond.ge j.start lb)))) fun _ => pushUpper (σ := σ) (μ := μ) w.1 v j cur e).Ver (job d0.length m R root C)
        (fun _ => False) (fun _ d' => ∀ a, Within d' a → Within d a) d := fun here =>
      ver_seq (S := fun _ => False) (Q' := fun _ _ => True) hd hl (fun _ h => h)
        (ver_onlyIf (fun _ => ver_tell_last (.ge (sc.valid j hj).start hr.1) (fun a ha hCa => Lit.holds_ge.2 (nohere a ha hCa.2 (here a ha hCa.2))) fun _ _ _ _ => trivial) fun _ => trivial)
        fun _ d' hd' hl' h' _ => ver_mono (fun _ d2 h2 a ha => h' a (h2 a ha)) _ _ (ver_pushUpper ho sc tn hp hj hd' hl' h' hC fun a ha => here a (h' a ha))
    show (pushWith w.1 v j cur e (lb, b)).Ver _ _ _ _
    unfold pushWith
    cases hp : j.presence with
    | none =>
      have here : ∀ a, Within d a → C a → j.Here a := fun a _ _ p hp' => nomatch hp.symm.trans hp'
      cases b <;> exact rest here
    | some p =>
      cases b with
      | true => exact rest fun a ha _ => hr.2.2.1 rfl a ha
      | false =>
        refine ver_onlyIf (fun hlt => ?_) fun _ _ h => h
        refine ver_tell_last (.eq ((sc.valid j hj).presence p hp) (by decide)) (fun a ha hCa => Lit.holds_eq.2 ?_) fun d' _ _ h a ha => ((h a).1 ha).1
        have k := (sc.sane a (hs a ha) j hj).presence p hp
        refine Classical.byContradiction fun hn => ?_
        have := nohere a ha hCa.2 fun q hq => by rw [hp] at hq; cases hq; omega
        have := (greatest_spec hd vj.start).ge ha
        have hlt : lb > cur.2 := hlt
        omega

end
end Gcs.Disjunctive
