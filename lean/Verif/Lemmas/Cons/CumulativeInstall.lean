import Verif.Lemmas.Cons.CumulativeOverload
import Verif.Lemmas.Rooted

/-! Posting it. -/

namespace Gcs.Cumulative
open IntervalSet

section
variable {σ μ : Type} {m n : Nat} {R : Err → Prop} {d root : Doms} {t j : Task} {ts : List Task} {a : Asg} {u lo hi : Int} {v : List Int} {o : Overload} {rules : Rules} {capacity : VarId} {ws : List (Int × Int)}

/-- What is used is never more than the capacity. -/
def Low (ts : List Task) (capacity : VarId) (a : Asg) : Prop := ∀ u, tot (use a u) ts ≤ capacity.eval a

/-- What tasks that do not run use. -/
theorem use_out {w : Int × Int} (hd : DomsOK d) (ht : t.Valid d.length) (hsp : t.Maybe d → Spans d w t) (ha : Within d a) (hu : u < w.1 ∨ w.2 < u) : use a u t = 0 := by
  rw [use, if_neg]
  rintro ⟨h1, h2, h3⟩
  have sp := hsp ⟨a, ha, h1⟩
  have k1 := (least_spec hd ht.start).le ha; have k2 := (greatest_spec hd ht.start).ge ha; have k3 := (greatest_spec hd ht.length).ge ha
  have s1 := sp.lo; have s2 := sp.hi
  omega

theorem check_roo {w : Int × Int} {cap : Int} (hd : DomsOK d) (hr : ∀ a, Within d a → Within root a) (hroot : DomsOK root) (hl : root.length = d.length) (hv : ∀ t ∈ ts, t.Valid d.length) (hsane : ∀ a, Within root a → ∀ t ∈ ts, t.Sane a)
    (hs : o.tasks ≠ [] → Slots root ts o) (hcap : InI64 cap) (hw : Horizon d ts (some w)) :
    RightOrOverflow (check rules o capacity ts cap w d) (fun r => (∃ n, Scene d ts w r.2 n) ∧ (r.1 = true → ∀ a, Within d a → Over ts cap a) ∧
      (r.1 = false → rules.timeTable = true → ∀ u, w.1 ≤ u → u ≤ w.2 → tot (must d u) ts ≤ cap)) := by
  unfold check
  refine (load_roo hd (fun t ht => ⟨hv t ht, fun a ha => hsane a (hr a ha) t ht⟩) hw).bind fun v hvv => ?_
  obtain ⟨n, k1, k2, k3⟩ := hvv
  have sc : Scene d ts w v n := ⟨hd, hv, fun a ha => hsane a (hr a ha), hw, k1, k2, k3⟩
  have low : ¬ (rules.timeTable = true ∧ (v.any fun x => decide (x > cap)) = true) → rules.timeTable = true → ∀ u, w.1 ≤ u → u ≤ w.2 → tot (must d u) ts ≤ cap := fun hn hT u h1 h2 => by
    refine Classical.byContradiction fun hgt => hn ⟨hT, List.any_eq_true.2 ⟨tot (must d u) ts, ?_, decide_eq_true (by omega)⟩⟩
    have := k2.at_ (u - w.1).toNat (by omega)
    rw [show w.1 + ((u - w.1).toNat : Int) = u by omega] at this
    exact List.mem_of_getElem? this
  split
  · rename_i h
    refine .pure ⟨⟨n, sc⟩, fun _ a ha => ?_, fun h => nomatch h⟩
    obtain ⟨x, hx, hgt⟩ := List.any_eq_true.1 h.2
    obtain ⟨i, hi, e⟩ := List.mem_iff_getElem.1 hx
    have := k2.at_ i (k2.size ▸ hi)
    rw [List.getElem?_eq_getElem hi, e] at this
    have hgt := of_decide_eq_true hgt
    have ex : x = tot (must d (w.1 + (i : Int))) ts := by injection this
    have : tot (must d (w.1 + (i : Int))) ts ≤ tot (use a (w.1 + (i : Int))) ts := tot_le fun t ht => must_le hd (hv t ht) ha (hsane a (hr a ha) t ht)
    exact ⟨w.1 + (i : Int), by omega⟩
  · rename_i h
    split
    · rename_i h'
      refine (overloaded_roo sc (hs h'.2.1) hr hroot hl hcap).bind fun b hb => .pure ⟨⟨n, sc⟩, hb, fun _ => low h⟩
    · exact .pure ⟨⟨n, sc⟩, (fun h => nomatch h), fun _ => low h⟩

theorem ver_prop (ho : R .overflow) (hd : DomsOK d) (hl : d.length = root.length) (hr : ∀ a, Within d a → Within root a) (hroot : DomsOK root) (hv : ∀ t ∈ ts, t.Valid root.length) (hc : capacity.Valid root.length)
    (hsane : ∀ a, Within root a → ∀ t ∈ ts, t.Sane a) (hpos : ∀ a, Within root a → 0 ≤ capacity.eval a) (hs : o.tasks ≠ [] → Slots root ts o) (hT : rules.timeTable = true) :
    (prop (σ := σ) (μ := μ) rules o capacity ts).Ver { n := root.length, m, R, C := fun a => Within root a ∧ Low ts capacity a } (fun _ => True)
      (Enforced (fun a => Within root a → Low ts capacity a) ((ts.flatMap Task.vars ++ [capacity]).filterMap VarId.underlyingIndex) d) d := by
  have hv' : ∀ t ∈ ts, t.Valid d.length := hl ▸ hv
  refine ver_ask (f := fun d => do
    let cap ← upperBound d capacity
    let w ← horizon d ts none
    return (cap, w)) (P := fun s => s.1 = greatest d capacity ∧ InI64 s.1 ∧ Horizon d ts s.2) ho
    ((high_roo hd (hl ▸ hc)).bind fun cap hcap => (horizon_roo hd ts [] none (fun t ht => ⟨hv' t ht, fun a ha => hsane a (hr a ha) t ht⟩) fun t ht => nomatch ht).bind fun w hw => .pure ⟨hcap.1, hcap.2, hw⟩) fun s h => ?_
  obtain ⟨cap, w⟩ := s
  have hcap : ∀ a, Within d a → capacity.eval a ≤ cap := fun a ha => by
    have := (greatest_spec hd (hl ▸ hc)).ge ha
    have := h.1
    omega
  cases w with
  | none =>
    have key : ∀ a, Within d a → Low ts capacity a := fun a ha u => by
      have h0 : tot (use a u) ts = tot (fun _ => 0) ts := tot_congr fun t ht => by
        rw [use, if_neg]
        exact fun k => h.2.2 t ht ⟨a, ha, k.1⟩
      rw [h0, tot_zero]
      exact hpos a (hr a ha)
    exact .intro (fun _ a ha _ => key a ha) (fun _ _ a ha _ => key a ha) (fun _ a ha _ => key a ha)
  | some w =>
    refine ver_ask (f := check rules o capacity ts cap w) ho (check_roo hd hr hroot hl.symm hv' hsane hs h.2.1 h.2.2) fun r hr' => ?_
    obtain ⟨b, vv⟩ := r
    obtain ⟨⟨n, sc⟩, h1, h2⟩ := hr'
    cases b with
    | true =>
      intro a ha hC
      obtain ⟨u, hu⟩ := h1 rfl a ha
      have := hC.2 u
      have := hcap a ha
      omega
    | false =>
      show (if rules.timeTable = true then _ else _ : Prog σ μ PState).Ver _ _ _ _
      rw [if_pos hT]
      refine ver_seq (S := fun _ => False) hd hl (fun _ h => h) (ver_forEach (J := job root.length m R root (Low ts capacity)) (fun xs d' => (∀ x ∈ xs, x ∈ ts) ∧ ∀ a, Within d' a → Within d a) ?_ ts d hd hl ⟨fun _ h => h, fun _ h => h⟩) fun _ d1 hd1 hl1 h1 _ => ?_
      · rintro x xs d' hd' hl' ⟨hx, hs'⟩
        have step : (push (σ := σ) (μ := μ) cap w.1 vv x).Ver (job d.length m R root (Low ts capacity)) (fun _ => False) (fun _ d'' => ∀ a, Within d'' a → Within d' a) d' := ver_push ho sc (hx x List.mem_cons_self) hd' (hl'.trans hl.symm) hs' h.2.1 fun a ha hC ⟨u, hu⟩ => by
          have := hC u
          have := hcap a ha
          omega
        rw [hl] at step
        exact ver_mono (fun _ d'' k => ⟨fun y hy => hx y (List.mem_cons_of_mem _ hy), fun a ha => hs' a (k a ha)⟩) _ _ step
      · refine .intro (fun hk a ha _ u => ?_) (fun h => nomatch h) (fun h => nomatch h)
        have ha' := h1 a ha
        have hcap' : cap = capacity.eval a := h.1.trans ((greatest_spec hd (hl ▸ hc)).eq (hk _ (by simp)) ha')
        by_cases hu : w.1 ≤ u ∧ u ≤ w.2
        · rw [← tot_congr fun t ht => must_eq (u := u) hd (hv' t ht) (fun x hx => hk x (List.mem_append_left _ (List.mem_flatMap.2 ⟨t, ht, hx⟩))) ha', ← hcap']
          exact h2 rfl hT u hu.1 hu.2
        · rw [tot_congr fun t ht => use_out hd (hv' t ht) (h.2.2.2.2 t ht) ha' (by omega), tot_zero]
          exact hpos a (hr a ha')

theorem triggers_wake : ∀ x ∈ ts.flatMap Task.vars ++ [capacity], ∀ v, x.underlyingIndex = some v →
    ∃ y, (y ∈ (triggers capacity ts).onChange ∨ y ∈ (triggers capacity ts).onBounds ∨ y ∈ (triggers capacity ts).onInstantiated) ∧ y.underlyingIndex = some v := by
  intro x hx v hv
  have hc : x.isConst = false := by cases x <;> first | rfl | cases hv
  refine ⟨x, ?_, hv⟩
  rcases List.mem_append.1 hx with hx | hx
  · obtain ⟨t, ht, hx⟩ := List.mem_flatMap.1 hx
    simp only [Task.vars, List.mem_append, List.mem_cons, List.not_mem_nil, or_false, Option.mem_toList] at hx
    rcases hx with (rfl | rfl | rfl) | hx
    · refine .inr (.inl ?_)
      simp only [triggers, List.mem_append, List.mem_map]
      exact .inl (.inl (.inl ⟨t, ht, rfl⟩))
    · refine .inr (.inl ?_)
      simp only [triggers, List.mem_append, List.mem_filter, List.mem_map]
      exact .inr ⟨⟨t, ht, rfl⟩, by simp [hc]⟩
    · refine .inr (.inl ?_)
      simp only [triggers, List.mem_append, List.mem_filter, List.mem_map]
      exact .inl (.inr ⟨⟨t, ht, rfl⟩, by simp [hc]⟩)
    · refine .inr (.inr ?_)
      simp only [triggers, List.mem_filter, List.mem_filterMap]
      exact ⟨⟨t, ht, hx⟩, by simp [hc]⟩
  · rw [List.mem_singleton] at hx
    subst hx
    refine .inr (.inl ?_)
    simp [triggers, hc]

/-! ## Setting up the overload check -/

/-- How many begin minus how many have ended just then. -/
def diff (ws : List (Int × Int)) (u : Int) : Int := tot (fun w => (if w.1 = u then 1 else 0) - (if w.2 + 1 = u then 1 else 0)) ws

theorem mark_roo {w : Int × Int} {g : Int → Int} (hl : InI64 lo) (h1 : InI64 w.1) (h2 : InI64 w.2) (k1 : lo ≤ w.1) (k2 : w.1 ≤ w.2) (k3 : w.2 + 1 < lo + n) (hv : Vec v lo n g) :
    RightOrOverflow (mark lo v w) (fun v' => Vec v' lo n (fun u => g u + ((if w.1 = u then 1 else 0) - (if w.2 + 1 = u then 1 else 0)))) := by
  refine (sub_roo h1 hl).bind fun k hk => (add_roo h2 (by decide)).bind fun e he => (sub_roo he.2 hl).bind fun l hl' => ?_
  have e1 := hk.1; have e2 := hl'.1; have e3 := he.1
  have ek : k.toNat = (w.1 - lo).toNat := by omega
  have el : l.toNat = (w.2 + 1 - lo).toNat := by omega
  rw [if_neg (by omega), ek, el, hv.get k1 (by omega)]
  have hv1 := hv.set (y := g w.1 + 1) (t := w.1) k1 (by omega)
  show RightOrOverflow (vecAt (v.set (w.1 - lo).toNat (g w.1 + 1)) (w.2 + 1 - lo).toNat >>= _) _
  rw [hv1.get (t := w.2 + 1) (by omega) (by omega), if_neg (by omega)]
  refine .pure ((hv1.set (y := g (w.2 + 1) - 1) (t := w.2 + 1) (by omega) (by omega)).congr fun u _ _ => ?_)
  by_cases c1 : u = w.2 + 1
  · subst c1
    rw [if_pos rfl, if_pos rfl, if_neg (by omega)]
    omega
  · rw [if_neg c1, if_neg (show ¬ w.2 + 1 = u from fun h => c1 h.symm)]
    by_cases c2 : u = w.1
    · subst c2
      rw [if_pos rfl, if_pos rfl]
      omega
    · rw [if_neg c2, if_neg (show ¬ w.1 = u from fun h => c2 h.symm)]
      omega

theorem covered_vec : ∀ {v : List Int} {lo c : Int} {g : Int → Int}, Vec v lo v.length g → Vec (covered c v) lo v.length (fun u => if c + tot g (times lo (u + 1)) > 0 then 1 else 0)
  | [], _, _, _, _ => ⟨rfl, fun k hk => absurd hk (by simp)⟩
  | y :: ys, lo, c, g, hv => by
    have h0 := hv.at_ 0 (by simp)
    simp only [List.getElem?_cons_zero, Option.some.injEq, Int.natCast_zero, Int.add_zero] at h0
    subst h0
    have hv' : Vec ys (lo + 1) ys.length g := ⟨rfl, fun k hk => by
      have := hv.at_ (k + 1) (by simpa using hk)
      simp only [List.getElem?_cons_succ] at this
      rw [this]
      congr 2
      omega⟩
    have ih := covered_vec (c := c + g lo) hv'
    have one : tot g (times lo (lo + 1)) = g lo := by
      rw [tot_times_succ (Int.le_refl lo), times_nil (Int.le_refl lo)]; simp
    refine ⟨by simp [covered, ih.size], fun k hk => ?_⟩
    cases k with
    | zero =>
      simp only [covered, List.getElem?_cons_zero, Int.natCast_zero, Int.add_zero]
      rw [one]
    | succ k =>
      have := ih.at_ k (by simpa using hk)
      simp only [covered, List.getElem?_cons_succ]
      rw [this, show lo + 1 + (k : Int) = lo + ((k + 1 : Nat) : Int) by omega]
      have sp := tot_times_split (f := g) (lo := lo) (mid := lo + 1) (hi := lo + ((k + 1 : Nat) : Int) + 1) (by omega) (by omega)
      rw [one] at sp
      rw [sp, Int.add_assoc]

/-- How many are running. -/
theorem tot_diff : ∀ {ws : List (Int × Int)}, (∀ w ∈ ws, lo ≤ w.1 ∧ w.1 ≤ w.2) → lo ≤ u + 1 → tot (diff ws) (times lo (u + 1)) = tot (fun w => if w.1 ≤ u ∧ u ≤ w.2 then 1 else 0) ws := by
  intro ws h _
  show tot (fun u => tot (fun w => (if w.1 = u then 1 else 0) - (if w.2 + 1 = u then 1 else 0)) ws) _ = _
  rw [tot_swap]
  refine tot_congr fun w hw => ?_
  have := h w hw
  rw [tot_sub, tot_hit, tot_hit]
  by_cases c1 : w.1 ≤ u
  · by_cases c2 : u ≤ w.2
    · rw [if_pos (by omega), if_neg (by omega), if_pos ⟨c1, c2⟩]; rfl
    · rw [if_pos (by omega), if_pos (by omega), if_neg (by omega)]; rfl
  · rw [if_neg (by omega), if_neg (by omega), if_neg (by omega)]; rfl

theorem tot_pos {f : α → Int} : ∀ {l : List α}, (∀ x ∈ l, 0 ≤ f x) → ∀ x ∈ l, f x ≤ tot f l
  | [], _, _, h => nomatch h
  | y :: l, h, x, hx => by
    have h0 := tot_nonneg fun z hz => h z (List.mem_cons_of_mem (a := z) y hz)
    have h1 := h y List.mem_cons_self
    rw [tot_cons]
    rcases List.mem_cons.1 hx with rfl | hx
    · omega
    · have := tot_pos (fun z hz => h z (List.mem_cons_of_mem _ hz)) x hx
      omega

theorem foldl_min : ∀ (l : List (Int × Int)) (x : Int), InI64 x → (∀ w ∈ l, InI64 w.1) → InI64 (l.foldl (fun l w => min l w.1) x) ∧ l.foldl (fun l w => min l w.1) x ≤ x ∧ ∀ w ∈ l, l.foldl (fun l w => min l w.1) x ≤ w.1
  | [], x, h, _ => ⟨h, Int.le_refl x, fun _ h => nomatch h⟩
  | w :: l, x, h, hl => by
    have ih := foldl_min l (min x w.1) (Disjunctive2D.InI64.min h (hl w List.mem_cons_self)) fun y hy => hl y (List.mem_cons_of_mem _ hy)
    refine ⟨ih.1, Int.le_trans ih.2.1 (Int.min_le_left ..), fun y hy => ?_⟩
    rcases List.mem_cons.1 hy with rfl | hy
    · exact Int.le_trans ih.2.1 (Int.min_le_right ..)
    · exact ih.2.2 y hy

theorem foldl_max : ∀ (l : List (Int × Int)) (x : Int), InI64 x → (∀ w ∈ l, InI64 w.2) → InI64 (l.foldl (fun l w => max l w.2) x) ∧ x ≤ l.foldl (fun l w => max l w.2) x ∧ ∀ w ∈ l, w.2 ≤ l.foldl (fun l w => max l w.2) x
  | [], x, h, _ => ⟨h, Int.le_refl x, fun _ h => nomatch h⟩
  | w :: l, x, h, hl => by
    have ih := foldl_max l (max x w.2) (Disjunctive2D.InI64.max h (hl w List.mem_cons_self)) fun y hy => hl y (List.mem_cons_of_mem _ hy)
    refine ⟨ih.1, Int.le_trans (Int.le_max_left ..) ih.2.1, fun y hy => ?_⟩
    rcases List.mem_cons.1 hy with rfl | hy
    · exact Int.le_trans (Int.le_max_right ..) ih.2.1
    · exact ih.2.2 y hy

theorem direct_roo {x : VarId} (hd : DomsOK d) (hx : x.Valid d.length) : RightOrOverflow (direct d x) (fun _ => True) := (bounds_roo hd hx).bind fun _ _ => .pure trivial

theorem eligible_roo (hd : DomsOK d) (ht : t.Valid d.length) : RightOrOverflow (eligible d t) (fun _ => True) := by
  have h1 : RightOrOverflow (goodLength d t.length) (fun _ => True) := by
    have hl := ht.length
    generalize t.length = x at hl
    have rest : RightOrOverflow (do if ! simple x then return false else if (← upperBound d x) ≤ 0 then return false else return ! (← direct d x)) (fun _ => True) := by
      split
      · exact .pure trivial
      · refine (upper_roo hd hl).bind fun y _ => ?_
        split
        · exact .pure trivial
        · exact (direct_roo hd hl).bind fun _ _ => .pure trivial
    cases x with
    | const c => exact .pure trivial
    | simple i => exact rest
    | view i b k => exact rest
  have h2 : RightOrOverflow (goodHeight d t.height) (fun _ => True) := by
    have hl := ht.height
    generalize t.height = x at hl
    have rest : RightOrOverflow (do if ! simple x then return false else return decide (0 < (← upperBound d x))) (fun _ => True) := by
      split
      · exact .pure trivial
      · exact (upper_roo hd hl).bind fun y _ => .pure trivial
    cases x with
    | const c => exact .pure trivial
    | simple i => exact rest
    | view i b k => exact rest
  unfold eligible
  split
  · exact .pure trivial
  · refine (direct_roo hd ht.start).bind fun b _ => ?_
    cases b with
    | true => exact .pure trivial
    | false =>
      refine h1.bind fun b _ => ?_
      cases b with
      | true => exact h2
      | false => exact .pure trivial

/-- When a task may run at first. -/
noncomputable def spanOf (d : Doms) (t : Task) : Int × Int := (least d t.start, greatest d t.start + greatest d t.length - 1)

theorem span_roo (hd : DomsOK d) (ht : t.Valid d.length) : RightOrOverflow (span d t) (fun w => w = spanOf d t ∧ InI64 w.1 ∧ InI64 w.2) := by
  refine (ends_roo hd ht.start).bind fun b hb => (high_roo hd ht.length).bind fun l hl => (add_roo hb.2.2.2 hl.2).bind fun e he => (sub_roo he.2 (by decide)).bind fun hi hhi => .pure ⟨?_, hb.2.2.1, hhi.2⟩
  rw [spanOf, ← hb.1, ← hb.2.1, ← hl.1, hhi.1, he.1]

theorem mapAll_eq {α β : Type} {f : α → Chk β} {g : α → β} {Q : β → Prop} : ∀ xs : List α, (∀ x ∈ xs, RightOrOverflow (f x) (fun y => y = g x ∧ Q y)) → RightOrOverflow (AllDifferent.mapAll f xs) (fun ys => ys = xs.map g ∧ ∀ y ∈ ys, Q y)
  | [], _ => .pure ⟨rfl, fun _ h => nomatch h⟩
  | x :: xs, h => by
    refine (h x List.mem_cons_self).bind fun y hy => (mapAll_eq xs fun z hz => h z (List.mem_cons_of_mem _ hz)).bind fun ys hys => .pure ⟨by rw [hy.1, hys.1]; rfl, fun z hz => ?_⟩
    rcases List.mem_cons.1 hz with rfl | hz
    · exact hy.2
    · exact hys.2 z hz

theorem prepare_roo (hd : DomsOK root) (hv : ∀ t ∈ ts, t.Valid root.length) (hne : ts ≠ []) (hpos : ∀ t ∈ ts, 0 < greatest root t.length) (hws : ws = ts.map (spanOf root)) (hin : ∀ w ∈ ws, InI64 w.1 ∧ InI64 w.2) :
    RightOrOverflow (prepare root ts ws) (fun o => o.tasks ≠ [] → Slots root ts o) := by
  classical
  have proper : ∀ w ∈ ws, w.1 ≤ w.2 := fun w hw => by
    rw [hws] at hw
    obtain ⟨t, ht, rfl⟩ := List.mem_map.1 hw
    have := hpos t ht
    have := least_le hd (hv t ht).start
    show least root t.start ≤ greatest root t.start + greatest root t.length - 1
    omega
  refine (Disjunctive2D.keep_roo (P := fun t => eligible root t = .ok true) ts fun t ht => ?_).bind fun es hes => ?_
  · rcases eligible_roo hd (hv t ht) with h | ⟨b, h, _⟩
    · exact .inl h
    · exact .inr ⟨b, h, by rw [h]; exact ⟨fun e => by rw [e], fun e => by injection e⟩⟩
  split
  · exact .pure fun h => absurd rfl h
  · cases ws with
    | nil => exact absurd (List.map_eq_nil_iff.1 hws.symm) hne
    | cons w rest =>
      dsimp only
      obtain ⟨l1, l2, l3⟩ := foldl_min rest w.1 (hin w List.mem_cons_self).1 fun y hy => (hin y (List.mem_cons_of_mem _ hy)).1
      obtain ⟨h1, h2, h3⟩ := foldl_max rest w.2 (hin w List.mem_cons_self).2 fun y hy => (hin y (List.mem_cons_of_mem _ hy)).2
      generalize rest.foldl (fun l w => min l w.1) w.1 = lo at l1 l2 l3 ⊢
      generalize rest.foldl (fun h w => max h w.2) w.2 = hi at h1 h2 h3 ⊢
      have lims : ∀ y ∈ w :: rest, lo ≤ y.1 ∧ y.2 ≤ hi := fun y hy => by
        rcases List.mem_cons.1 hy with rfl | hy
        · exact ⟨l2, h2⟩
        · exact ⟨l3 y hy, h3 y hy⟩
      refine (sub_roo h1 l1).bind fun q hq => (add_roo hq.2 (by decide)).bind fun range hrange => ?_
      have e1 := hq.1; have e2 := hrange.1
      have q0 := lims w List.mem_cons_self
      have q1 := proper w List.mem_cons_self
      refine (foldlM_roo (I := fun left v => ∃ seen, seen ++ left = w :: rest ∧ Vec v lo (range.toNat + 1) (diff seen)) ?_ (w :: rest) _
        ⟨[], rfl, ⟨by simp, fun k hk => by simp [hk, diff]⟩⟩).bind fun v hvv => ?_
      · rintro x left v ⟨seen, e, hvv⟩
        have mx : x ∈ w :: rest := by rw [← e]; simp
        have lx := lims x mx
        refine (mark_roo l1 (hin x mx).1 (hin x mx).2 lx.1 (proper x mx) (by omega) hvv).mono fun v' hv' => ⟨seen ++ [x], by rw [← e]; simp, hv'.congr fun u _ _ => ?_⟩
        simp [diff]
      · obtain ⟨seen, e, hvv⟩ := hvv
        rw [List.append_nil] at e
        subst e
        have len : (v.take range.toNat).length = range.toNat := by rw [List.length_take, hvv.size]; omega
        have take : Vec (v.take range.toNat) lo (v.take range.toNat).length (diff (w :: rest)) := ⟨rfl, fun k hk => by
          rw [len] at hk
          rw [List.getElem?_take_of_lt hk]
          exact hvv.at_ k (by omega)⟩
        have cv := covered_vec (c := 0) take
        have clen := cv.size
        rw [len] at clen
        have cv' : Vec (covered 0 (v.take range.toNat)) lo (covered 0 (v.take range.toNat)).length (fun u => if 0 + tot (diff (w :: rest)) (times lo (u + 1)) > 0 then 1 else 0) := by
          rw [clen]; rw [len] at cv; exact cv
        refine (sums_roo cv' (fun u _ _ => ?_) (by decide)).bind fun slots hslots => .pure fun _ => ?_
        · show InI64 (if _ then 1 else 0)
          split <;> decide
        · rw [clen] at hslots
          simp only [Int.zero_add] at hslots
          refine ⟨⟨_, hes⟩, l1, range.toNat, _, hslots.1, hslots.2, fun t ht => ?_, fun u k1 k2 => ?_⟩
          · have := lims (spanOf root t) (by rw [hws]; exact List.mem_map_of_mem ht)
            have r1 : lo ≤ least root t.start := this.1
            have r2 : greatest root t.start + greatest root t.length - 1 ≤ hi := this.2
            exact ⟨r1, by show _ ≤ lo + (range.toNat : Int); omega⟩
          · have k1 : lo ≤ u := k1
            rw [tot_diff (fun y hy => ⟨(lims y hy).1, proper y hy⟩) (by omega)]
            split
            · exact .inl rfl
            · rename_i hn
              refine .inr ⟨rfl, fun a ha t ht => use_out hd (hv t ht) (w := spanOf root t) (fun _ => ⟨Int.le_refl _, Int.le_refl _⟩) ha ?_⟩
              have mt : spanOf root t ∈ w :: rest := by rw [hws]; exact List.mem_map_of_mem ht
              refine Classical.byContradiction fun hin' => hn ?_
              have := tot_pos (f := fun w : Int × Int => if w.1 ≤ u ∧ u ≤ w.2 then (1 : Int) else 0) (l := w :: rest) (fun y _ => by split <;> decide) _ mt
              rw [if_pos ⟨by omega, by omega⟩] at this
              omega

end
end Gcs.Cumulative
