import Verif.Lemmas.Cons.DisjunctiveTable

/-! Detectable precedences, tasks that take no time, and posting it. -/

namespace Gcs.Disjunctive
open IntervalSet
open Cumulative

section
variable {σ μ : Type} {m n : Nat} {R : Err → Prop} {d d0 d1 root : Doms} {s t : Task} {j : Task × Nat} {ts ps : List Task} {a : Asg} {u lo x e eet lst : Int} {strict : Bool} {w cur : Int × Int} {v : List Int} {rules : Rules}

/-- What is known about neighbours: where `j` cannot be. -/
structure Next (strict : Bool) (ts : List Task) (d : Doms) (j : Task) (r : Option Int × Option Int) : Prop where
  pred : ∀ x, r.1 = some x → InI64 x ∧ ∀ a, Within d a → Alone strict ts a → x ≤ j.start.eval a
  succ : ∀ x, r.2 = some x → InI64 x ∧ ∀ a, Within d a → Alone strict ts a → j.start.eval a + j.length.eval a ≤ x

theorem later_cases {o : Option Int} {y : Int} : later o y = y ∨ o = some (later o y) := by
  cases o with
  | none => exact .inl rfl
  | some x => unfold later; dsimp only; split <;> simp

theorem sooner_cases {o : Option Int} {y : Int} : sooner o y = y ∨ o = some (sooner o y) := by
  cases o with
  | none => exact .inl rfl
  | some x => unfold sooner; dsimp only; split <;> simp

theorem neighbours_roo (hd : DomsOK d) (hv : ∀ t ∈ ts, t.Valid d.length) (hs : ∀ a, Within d a → ∀ t ∈ ts, t.Sane a) (hj : j ∈ ts.zipIdx) (sure : j.1.Sure d) (hp : 0 < least d j.1.length)
    (he : eet = least d j.1.start + least d j.1.length) (hl : lst = greatest d j.1.start) : ∀ (ks : List (Task × Nat)) (r : Option Int × Option Int), (∀ k ∈ ks, k ∈ ts.zipIdx) → Next strict ts d j.1 r →
    RightOrOverflow (neighbours d j.2 eet lst ks r) (Next strict ts d j.1)
  | [], r, _, h => .pure h
  | (k, i) :: ks, r, hks, h => by
    have ih := fun r h => neighbours_roo hd hv hs hj sure hp he hl ks r (fun k hk => hks k (List.mem_cons_of_mem _ hk)) h
    have mk := hks _ List.mem_cons_self
    have mk' : k ∈ ts := by
      have := List.mem_zipIdx_iff_getElem?.1 mk
      exact List.mem_of_getElem? this
    have mj' : j.1 ∈ ts := List.mem_of_getElem? (List.mem_zipIdx_iff_getElem?.1 hj)
    have vk := hv k mk'
    have vj := hv _ mj'
    unfold neighbours
    split
    · exact ih r h
    · rename_i hne
      refine (low_roo hd vk.length).bind fun l hl' => ?_
      split
      · exact ih r h
      · rename_i hz
        refine (isPresent_roo hd vk fun a ha => hs a ha k mk').bind fun b hb => ?_
        cases b with
        | false => exact ih r h
        | true =>
          refine (ends_roo hd vk.start).bind fun b hb' => (add_roo hb'.2.2.1 hl'.2).bind fun e' he' => ?_
          have pos : 0 < least d k.length := by
            obtain ⟨b, hb, e⟩ := (least_spec hd vk.length).1
            have := (hs b hb k mk').length
            have := hl'.1
            omega
          have f1 := hl'.1; have f2 := hb'.1; have f3 := hb'.2.1; have f4 := he'.1
          have key : ∀ a, Within d a → Alone strict ts a → (eet > b.2 → e' ≤ j.1.start.eval a) ∧ (e' > lst → j.1.start.eval a + j.1.length.eval a ≤ b.2) := fun a ha hA => by
            have sep := hA.sep hj mk (fun h => hne h.symm) (sure a ha) (hb.1 rfl a ha)
            have g1 := (least_spec hd vj.start).le ha; have g2 := (greatest_spec hd vj.start).ge ha; have g3 := (least_spec hd vj.length).le ha
            have g4 := (least_spec hd vk.start).le ha; have g5 := (greatest_spec hd vk.start).ge ha; have g6 := (least_spec hd vk.length).le ha
            dsimp only at sep
            rcases sep with ⟨_, c | c⟩ | c | c <;> constructor <;> intro <;> omega
          refine ih _ ⟨fun x hx => ?_, fun x hx => ?_⟩
          · dsimp only at hx
            split at hx
            · rename_i c
              rcases later_cases (o := r.1) (y := e') with k' | k'
              · rw [k'] at hx; cases hx
                exact ⟨he'.2, fun a ha hA => (key a ha hA).1 c⟩
              · rw [hx] at k'; exact h.pred x k'
            · exact h.pred x hx
          · dsimp only at hx
            split at hx
            · rename_i c
              rcases sooner_cases (o := r.2) (y := b.2) with k' | k'
              · rw [k'] at hx; cases hx
                exact ⟨hb'.2.2.2, fun a ha hA => (key a ha hA).2 c⟩
              · rw [hx] at k'; exact h.succ x k'
            · exact h.succ x hx

/-- What `detect` says. -/
structure Found (strict : Bool) (ts : List Task) (d : Doms) (j : Task) (r : (Int × Int) × Option Int × Option Int) : Prop where
  cur1 : r.1.1 = least d j.start
  cur2 : r.1.2 = greatest d j.start
  in1 : InI64 r.1.1
  in2 : InI64 r.1.2
  next : Next strict ts d j r.2

theorem detect_roo (hd : DomsOK d) (hv : ∀ t ∈ ts, t.Valid d.length) (hs : ∀ a, Within d a → ∀ t ∈ ts, t.Sane a) (hj : j ∈ ts.zipIdx) :
    RightOrOverflow (detect ts j d) (fun o => ∀ r, o = some r → Found strict ts d j.1 r) := by
  have mj' : j.1 ∈ ts := List.mem_of_getElem? (List.mem_zipIdx_iff_getElem?.1 hj)
  have vj := hv _ mj'
  refine (low_roo hd vj.length).bind fun l hl => ?_
  split
  · exact .pure fun _ h => nomatch h
  · rename_i hz
    have pos : 0 < least d j.1.length := by
      obtain ⟨b, hb, e⟩ := (least_spec hd vj.length).1
      have := (hs b hb _ mj').length
      have := hl.1
      omega
    refine (isPresent_roo hd vj fun a ha => hs a ha _ mj').bind fun b hb => ?_
    cases b with
    | false => exact .pure fun _ h => nomatch h
    | true =>
      refine (ends_roo hd vj.start).bind fun c hc => ?_
      split
      · exact .pure fun _ h => nomatch h
      · refine (add_roo hc.2.2.1 hl.2).bind fun e he => ?_
        refine (neighbours_roo (strict := strict) hd hv hs hj (hb.1 rfl) pos (by rw [he.1, hc.1, hl.1]) hc.2.1 ts.zipIdx (none, none) (fun _ h => h) ⟨(fun _ h => nomatch h), (fun _ h => nomatch h)⟩).bind fun r hr => .pure fun q h => ?_
        cases h
        exact ⟨hc.1, hc.2.1, hc.2.2.1, hc.2.2.2, hr⟩

theorem ver_after {o : Option Int} (ho : R .overflow) (vj : t.Valid n) (h2 : InI64 cur.2) (h : ∀ x, o = some x → InI64 x ∧ ∀ a, Within d a → Alone strict ts a → x ≤ t.start.eval a) :
    (after (σ := σ) (μ := μ) t cur o).Ver (job n m R root (Alone strict ts)) (fun _ => False) (fun _ d' => ∀ a, Within d' a → Within d a) d := by
  cases o with
  | none => exact fun _ h => h
  | some x =>
    refine ver_lift ho (P := fun c => InI64 c) ((add_roo h2 (by decide)).mono fun _ h => h.2) fun c hc => ?_
    refine ver_onlyIf (fun _ => ?_) fun _ _ h => h
    refine ver_tell_last (.ge vj.start (Disjunctive2D.InI64.min (h x rfl).1 hc)) (fun a ha hCa => Lit.holds_ge.2 ?_) fun d' _ _ h a ha => ((h a).1 ha).1
    have := (h x rfl).2 a ha hCa.2
    exact Int.le_trans (Int.min_le_left ..) this

theorem ver_before {o : Option Int} (ho : R .overflow) (hd : DomsOK d) (hl : d.length = n) (vj : t.Valid n) (h1 : InI64 cur.1) (h : ∀ x, o = some x → InI64 x ∧ ∀ a, Within d a → Alone strict ts a → t.start.eval a + t.length.eval a ≤ x) :
    (before (σ := σ) (μ := μ) t cur o).Ver (job n m R root (Alone strict ts)) (fun _ => False) (fun _ d' => ∀ a, Within d' a → Within d a) d := by
  cases o with
  | none => exact fun _ h => h
  | some x =>
    have vj' : t.Valid d.length := hl ▸ vj
    refine ver_ask (f := fun d => do
      let y ← iSub x (← lowerBound d t.length)
      let z ← iSub cur.1 1
      return max y z) (P := fun target => InI64 target ∧ x - least d t.length ≤ target) ho
      ((low_roo hd vj'.length).bind fun l hl => (sub_roo (h x rfl).1 hl.2).bind fun y hy => (sub_roo h1 (by decide)).bind fun z hz => .pure ⟨Disjunctive2D.InI64.max hy.2 hz.2, by
        have := hy.1; have := hl.1; omega⟩) fun target ht => ?_
    refine ver_onlyIf (fun _ => ?_) fun _ _ h => h
    refine ver_lift ho (P := fun c => c = Cond.lt t.start (target + 1) ∧ InI64 (target + 1)) ?_ fun c hcond => ?_
    · unfold Cond.le
      refine (add_roo ht.1 (by decide)).bind fun x hx => .pure ⟨?_, hx.1 ▸ hx.2⟩
      rw [hx.1]; rfl
    · rw [hcond.1]
      refine ver_tell_last (.lt vj.start hcond.2) (fun a ha hCa => Lit.holds_lt.2 ?_) fun d' _ _ h a ha => ((h a).1 ha).1
      have := (h x rfl).2 a ha hCa.2
      have := (least_spec hd vj'.length).le ha
      have := ht.2
      omega

theorem ver_precede (ho : R .overflow) (hd : DomsOK d) (hl : d.length = n) (hv : ∀ t ∈ ts, t.Valid n) (hs : ∀ a, Within d a → ∀ t ∈ ts, t.Sane a) (hj : j ∈ ts.zipIdx) :
    (precede (σ := σ) (μ := μ) ts j).Ver (job n m R root (Alone strict ts)) (fun _ => False) (fun _ d' => ∀ a, Within d' a → Within d a) d := by
  have mj' : j.1 ∈ ts := List.mem_of_getElem? (List.mem_zipIdx_iff_getElem?.1 hj)
  refine ver_ask (f := detect ts j) ho (detect_roo (strict := strict) hd (hl ▸ hv) hs hj) fun o h => ?_
  cases o with
  | none => exact fun _ h => h
  | some r =>
    obtain ⟨cur, pred, succ⟩ := r
    have f := h _ rfl
    exact ver_seq (S := fun _ => False) (Q' := fun _ _ => True) hd hl (fun _ h => h) (ver_mono (fun _ _ _ => trivial) _ _ (ver_after ho (hv _ mj') f.in2 f.next.pred))
      fun _ d' hd' hl' h' _ => ver_mono (fun _ d2 h2 a ha => h' a (h2 a ha)) _ _ (ver_before ho hd' hl' (hv _ mj') f.in1 fun x hx => ⟨(f.next.succ x hx).1, fun a ha => (f.next.succ x hx).2 a (h' a ha)⟩)

/-! ## Tasks that take no time -/

theorem single_roo {x : VarId} (hd : DomsOK d) (hx : x.Valid d.length) : RightOrOverflow (hasSingleValue d x) (fun b => b = true ↔ Known d x) := by
  obtain ⟨c, hc⟩ := exists_within hd
  have known : (∃ y, Pinned d x y) ↔ Known d x := ⟨fun ⟨y, hy⟩ a b ha hb => (hy a ha).trans (hy b hb).symm, fun h => ⟨_, h.pinned hc⟩⟩
  exact (GlobalCardinality.single_roo' hd hx).mono fun b hb => hb.trans known

theorem during_roo (hd : DomsOK d) (ht : t.Valid d.length) (hs : ∀ a, Within d a → t.Sane a) (hx : InI64 x) :
    RightOrOverflow (during d x t) (fun b => (b = true → ∀ a, Within d a → t.Here a ∧ t.start.eval a < x ∧ x < t.start.eval a + t.length.eval a) ∧
      (b = false → t.Set d → ∀ a, Within d a → t.Here a → ¬ (t.start.eval a < x ∧ x < t.start.eval a + t.length.eval a))) := by
  have fls : ∀ {P : Prop}, (t.Set d → ∀ a, Within d a → t.Here a → ¬ (t.start.eval a < x ∧ x < t.start.eval a + t.length.eval a)) → ((false = true → P) ∧ (false = false → t.Set d → ∀ a, Within d a → t.Here a → ¬ (t.start.eval a < x ∧ x < t.start.eval a + t.length.eval a))) :=
    fun h => ⟨(fun h => nomatch h), fun _ => h⟩
  have ks : t.Set d → Known d t.start := fun k => k _ (by simp [Task.vars])
  have kl : t.Set d → Known d t.length := fun k => k _ (by simp [Task.vars])
  refine (low_roo hd ht.length).bind fun l hl => (high_roo hd ht.length).bind fun h hh => ?_
  split
  · rename_i c
    refine .pure (fls fun k a ha _ hn => ?_)
    have e1 := (least_spec hd ht.length).eq (kl k) ha; have e2 := (greatest_spec hd ht.length).eq (kl k) ha
    have := hl.1; have := hh.1
    omega
  · rename_i c
    refine (single_roo hd ht.start).bind fun b hb => ?_
    cases b with
    | false => exact .pure (fls fun k => by have := hb.2 (ks k); cases this)
    | true =>
      have kst := hb.1 rfl
      refine (isPresent_roo hd ht hs).bind fun b' hb' => ?_
      cases b' with
      | false =>
        refine .pure (fls fun k a ha hh' => ?_)
        have : t.Sure d := fun b hb p hp => by rw [k p (by simp [Task.vars, hp]) b a hb ha]; exact hh' p hp
        have := hb'.2 this
        cases this
      | true =>
        refine (low_roo hd ht.start).bind fun vk hvk => ?_
        have est : ∀ a, Within d a → vk = t.start.eval a := fun a ha => hvk.1.trans ((least_spec hd ht.start).eq kst ha)
        split
        · refine (add_roo hvk.2 hl.2).bind fun e he => .pure ⟨fun hb a ha => ?_, fun hb k a ha _ hn => ?_⟩
          · have hb := of_decide_eq_true hb
            have := est a ha; have := he.1; have := hl.1
            have := (least_spec hd ht.length).le ha
            exact ⟨hb'.1 rfl a ha, by omega, by omega⟩
          · have hb := of_decide_eq_false hb
            have := est a ha; have := he.1; have := hl.1
            have e1 := (least_spec hd ht.length).eq (kl k) ha
            omega
        · refine .pure (fls fun k a ha _ hn => ?_)
          have := est a ha
          omega

theorem inside_roo (hd : DomsOK d) (hv : ∀ t ∈ ts, t.Valid d.length) (hs : ∀ a, Within d a → ∀ t ∈ ts, t.Sane a) {z : Task × Nat} (hz : z ∈ ts.zipIdx) :
    RightOrOverflow (inside ts d z) (fun b => (b = true → ∃ k ∈ ts.zipIdx, k.2 ≠ z.2 ∧ ∀ a, Within d a → Within1 a z.1 k.1) ∧
      (b = false → (∀ t ∈ ts, t.Set d) → ∀ k ∈ ts.zipIdx, k.2 ≠ z.2 → ∀ a, Within d a → ¬ Within1 a z.1 k.1)) := by
  have mem : ∀ {k : Task × Nat}, k ∈ ts.zipIdx → k.1 ∈ ts := fun hk => List.mem_of_getElem? (List.mem_zipIdx_iff_getElem?.1 hk)
  have vz := hv _ (mem hz)
  have fls : ∀ {P : Prop}, ((∀ t ∈ ts, t.Set d) → ∀ k ∈ ts.zipIdx, k.2 ≠ z.2 → ∀ a, Within d a → ¬ Within1 a z.1 k.1) →
      ((false = true → P) ∧ (false = false → (∀ t ∈ ts, t.Set d) → ∀ k ∈ ts.zipIdx, k.2 ≠ z.2 → ∀ a, Within d a → ¬ Within1 a z.1 k.1)) := fun h => ⟨(fun h => nomatch h), fun _ => h⟩
  refine (high_roo hd vz.length).bind fun l hl => ?_
  have f1 := hl.1
  split
  · refine .pure (fls fun k _ _ _ a ha h => ?_)
    have := (greatest_spec hd vz.length).eq (k _ (mem hz) _ (by simp [Task.vars])) ha
    have := h.2.2.1
    omega
  · refine (single_roo hd vz.start).bind fun b hb => ?_
    cases b with
    | false =>
      refine .pure (fls fun k => ?_)
      have := hb.2 (k _ (mem hz) _ (by simp [Task.vars]))
      cases this
    | true =>
      refine (isPresent_roo hd vz fun a ha => hs a ha _ (mem hz)).bind fun b' hb' => ?_
      cases b' with
      | false =>
        refine .pure (fls fun k _ _ _ a ha h => ?_)
        have : z.1.Sure d := fun b hb p hp => by rw [k _ (mem hz) p (by simp [Task.vars, hp]) b a hb ha]; exact h.1 p hp
        have := hb'.2 this
        cases this
      | true =>
        refine (low_roo hd vz.start).bind fun x hx => ?_
        have est : ∀ a, Within d a → x = z.1.start.eval a := fun a ha => hx.1.trans ((least_spec hd vz.start).eq (hb.1 rfl) ha)
        refine Ends2.anyOf ts.zipIdx fun k hk => ?_
        by_cases c : k.2 = z.2
        · rw [if_pos c]
          exact .pure ⟨(fun h => nomatch h), fun _ _ hne => absurd c hne⟩
        · rw [if_neg c]
          refine (during_roo hd (hv _ (mem hk)) (fun a ha => hs a ha _ (mem hk)) hx.2).mono fun b hb2 => ⟨fun e => ⟨c, fun a ha => ?_⟩, fun e ks _ a ha h => ?_⟩
          · have k1 := hb2.1 e a ha
            have k2 := est a ha
            have k3 := (greatest_spec hd vz.length).ge ha
            have k4 := (hs a ha _ (mem hz)).length
            exact ⟨hb'.1 rfl a ha, k1.1, by omega, by omega, by omega⟩
          · have k2 := est a ha
            exact hb2.2 e (ks _ (mem hk)) a ha h.2.1 ⟨by rw [k2]; exact h.2.2.2.1, by rw [k2]; exact h.2.2.2.2⟩
where
  Ends2.anyOf {α : Type} {p : α → Chk Bool} {P : α → Prop} {S : Prop} {N : α → Prop} : ∀ xs : List α, (∀ x ∈ xs, RightOrOverflow (p x) (fun b => (b = true → P x) ∧ (b = false → S → N x))) →
      RightOrOverflow (anyOf p xs) (fun b => (b = true → ∃ x ∈ xs, P x) ∧ (b = false → S → ∀ x ∈ xs, N x))
    | [], _ => .pure ⟨(fun h => nomatch h), fun _ _ _ h => nomatch h⟩
    | x :: xs, h => by
      refine (h x List.mem_cons_self).bind fun b hb => ?_
      cases b with
      | true => exact .pure ⟨fun _ => ⟨x, List.mem_cons_self, hb.1 rfl⟩, fun h => nomatch h⟩
      | false =>
        refine (Ends2.anyOf xs fun y hy => h y (List.mem_cons_of_mem _ hy)).mono fun b' hb' => ⟨fun e => ?_, fun e s y hy => ?_⟩
        · obtain ⟨y, hy, k⟩ := hb'.1 e
          exact ⟨y, List.mem_cons_of_mem _ hy, k⟩
        · rcases List.mem_cons.1 hy with rfl | hy
          · exact hb.2 rfl s
          · exact hb'.2 e s y hy

/-- At the end, everything but the profile has been checked. -/
theorem ver_finish {T : PState → Prop} (ho : R .overflow) (hd : DomsOK d) (hl : d.length = n) (hv : ∀ t ∈ ts, t.Valid n) (hs : ∀ a, Within d a → ∀ t ∈ ts, t.Sane a) :
    (finish (σ := σ) (μ := μ) strict ts).Ver (job n m R root (Alone strict ts)) T
      (fun st d' => st = .enable ∧ d' = d ∧ (strict = true → (∀ t ∈ ts, t.Set d) → ∀ z ∈ ts.zipIdx, ∀ k ∈ ts.zipIdx, k.2 ≠ z.2 → ∀ a, Within d a → ¬ Within1 a z.1 k.1)) d := by
  refine ver_ask (f := fun d => if strict then anyOf (inside ts d) ts.zipIdx else .ok false)
    (P := fun b => (b = true → ∃ z ∈ ts.zipIdx, ∃ k ∈ ts.zipIdx, k.2 ≠ z.2 ∧ strict = true ∧ ∀ a, Within d a → Within1 a z.1 k.1) ∧
      (b = false → strict = true → (∀ t ∈ ts, t.Set d) → ∀ z ∈ ts.zipIdx, ∀ k ∈ ts.zipIdx, k.2 ≠ z.2 → ∀ a, Within d a → ¬ Within1 a z.1 k.1)) ho ?_ fun b hb => ?_
  · cases strict with
    | false => exact .pure ⟨(fun h => nomatch h), fun _ h => nomatch h⟩
    | true =>
      refine (inside_roo.Ends2.anyOf (S := ∀ t ∈ ts, t.Set d) ts.zipIdx fun z hz => inside_roo hd (hl ▸ hv) hs hz).mono fun b hb => ⟨fun e => ?_, fun e _ => hb.2 e⟩
      obtain ⟨z, hz, k, hk, hne, h⟩ := hb.1 e
      exact ⟨z, hz, k, hk, hne, rfl, h⟩
  · cases b with
    | true =>
      obtain ⟨z, hz, k, hk, hne, hst, h⟩ := hb.1 rfl
      intro a ha hC
      have w := h a ha
      have sep := hC.2.sep hz hk (fun h => hne h.symm) w.1 w.2.1
      rw [hst] at sep
      have w1 := w.2.2.1; have w2 := w.2.2.2.1; have w3 := w.2.2.2.2
      rcases sep with ⟨c, _⟩ | c | c
      · cases c
      · omega
      · omega
    | false => exact ⟨rfl, rfl, hb.2 rfl⟩

theorem Set.sub (h : t.Set d) (hs : ∀ a, Within d1 a → Within d a) : t.Set d1 := fun x hx a b ha hb => h x hx a b (hs a ha) (hs b hb)

theorem use_none (hp : t.height = .const 1) (hn : t.Maybe d → ¬ 0 < greatest d t.length) (hd : DomsOK d) (ht : t.Valid d.length) (ha : Within d a) : use a u t = 0 := by
  rw [use_one hp, if_neg]
  rintro ⟨h1, h2, h3⟩
  have := hn ⟨a, ha, h1⟩
  have := (greatest_spec hd ht.length).ge ha
  omega

/-- The variables. The height is not one of them. -/
def vars (t : Task) : List VarId := [t.start, t.length] ++ t.presence.toList

/-- If those have values, so has the height. -/
theorem set_of (hp : t.height = .const 1) (h : ∀ x ∈ vars t, Known d x) : t.Set d := fun x hx => by
  simp only [Task.vars, List.mem_append, List.mem_cons, List.not_mem_nil, or_false] at hx
  rcases hx with (rfl | rfl | rfl) | hx
  · exact h _ (by simp [vars])
  · exact h _ (by simp [vars])
  · rw [hp]; exact fun _ _ _ _ => rfl
  · exact h _ (by simp only [vars, List.mem_append]; exact .inr hx)

theorem ver_work (ho : R .overflow) (hd : DomsOK d) (hl : d.length = root.length) (hr : ∀ a, Within d a → Within root a) (hp : Plain ts) (hv : ∀ t ∈ ts, t.Valid root.length)
    (hsane : ∀ a, Within root a → ∀ t ∈ ts, t.Sane a) (hw : Horizon d ts (some w)) :
    (work (σ := σ) (μ := μ) strict rules ts w).Ver (job root.length m R root (Alone strict ts)) (fun _ => True)
      (Enforced (fun a => Within root a → Alone strict ts a) ((ts.flatMap vars).filterMap VarId.underlyingIndex) d) d := by
  have hv' : ∀ t ∈ ts, t.Valid d.length := hl ▸ hv
  refine ver_ask (f := (load · w ts)) ho (load_roo hd hp (fun t ht => ⟨hv' t ht, fun a ha => hsane a (hr a ha) t ht⟩) hw) fun v hvv => ?_
  obtain ⟨n, k1, k2, k3⟩ := hvv
  have sc : Scene d ts w v n := ⟨hd, hp, hv', fun a ha => hsane a (hr a ha), hw, k1, k2, k3⟩
  by_cases c : v.any (fun x => decide (x > 1)) = true
  · rw [if_pos c]
    intro a ha hC
    obtain ⟨x, hx, hgt⟩ := List.any_eq_true.1 c
    obtain ⟨i, hi, e⟩ := List.mem_iff_getElem.1 hx
    have := k2.at_ i (k2.size ▸ hi)
    rw [List.getElem?_eq_getElem hi, e] at this
    have hgt := of_decide_eq_true hgt
    have ex : x = tot (must d (w.1 + (i : Int))) ts := by injection this
    have : tot (must d (w.1 + (i : Int))) ts ≤ tot (use a (w.1 + (i : Int))) ts := tot_le fun t ht => must_le hd (hv' t ht) ha (hsane a (hr a ha) t ht)
    exact over_alone hp (show 1 < tot (use a (w.1 + (i : Int))) ts by omega) hC.2
  · rw [if_neg c]
    have low : ∀ u, w.1 ≤ u → u ≤ w.2 → tot (must d u) ts ≤ 1 := fun u h1 h2 => by
      refine Classical.byContradiction fun hgt => c (List.any_eq_true.2 ⟨tot (must d u) ts, ?_, decide_eq_true (by omega)⟩)
      have := k2.at_ (u - w.1).toNat (by omega)
      rw [show w.1 + ((u - w.1).toNat : Int) = u by omega] at this
      exact List.mem_of_getElem? this
    refine ver_seq (S := fun _ => False) (Q' := fun _ _ => True) hd hl (fun _ h => h) (ver_onlyIf (fun _ => ?_) fun _ => trivial) fun _ d1 hd1 hl1 h1 _ => ?_
    · refine ver_mono (fun _ _ _ => trivial) _ _ (ver_forEach (J := job root.length m R root (Alone strict ts)) (fun xs d' => (∀ x ∈ xs, x ∈ ts) ∧ ∀ a, Within d' a → Within d a) ?_ ts d hd hl ⟨fun _ h => h, fun _ h => h⟩)
      rintro x xs d' hd' hl' ⟨hx, hs'⟩
      have step : (push (σ := σ) (μ := μ) w.1 v x).Ver (job d.length m R root (Alone strict ts)) (fun _ => False) (fun _ d'' => ∀ a, Within d'' a → Within d' a) d' :=
        ver_push ho sc (hx x List.mem_cons_self) hd' (hl'.trans hl.symm) hs' fun a ha hC ⟨u, hu⟩ => over_alone hp hu hC
      rw [hl] at step
      exact ver_mono (fun _ d'' k => ⟨fun y hy => hx y (List.mem_cons_of_mem _ hy), fun a ha => hs' a (k a ha)⟩) _ _ step
    · refine ver_seq (S := fun _ => False) (Q' := fun _ _ => True) hd1 hl1 (fun _ h => h) (ver_onlyIf (fun _ => ?_) fun _ => trivial) fun _ d2 hd2 hl2 h2 _ => ?_
      · refine ver_mono (fun _ _ _ => trivial) _ _ (ver_forEach (J := job root.length m R root (Alone strict ts)) (fun xs d' => (∀ x ∈ xs, x ∈ ts.zipIdx) ∧ ∀ a, Within d' a → Within d1 a) ?_ ts.zipIdx d1 hd1 hl1 ⟨fun _ h => h, fun _ h => h⟩)
        rintro x xs d' hd' hl' ⟨hx, hs'⟩
        have step : (precede (σ := σ) (μ := μ) ts x).Ver (job root.length m R root (Alone strict ts)) (fun _ => False) (fun _ d'' => ∀ a, Within d'' a → Within d' a) d' :=
          ver_precede ho hd' hl' hv (fun a ha => hsane a (hr a (h1 a (hs' a ha)))) (hx x List.mem_cons_self)
        exact ver_mono (fun _ d'' k => ⟨fun y hy => hx y (List.mem_cons_of_mem _ hy), fun a ha => hs' a (k a ha)⟩) _ _ step
      · refine ver_mono (fun st d' h => ?_) _ _ (ver_finish ho hd2 hl2 hv fun a ha => hsane a (hr a (h1 a (h2 a ha))))
        obtain ⟨rfl, rfl, h⟩ := h
        refine .intro (fun hk a ha _ => ?_) (fun h => nomatch h) (fun h => nomatch h)
        have ha' := h1 a (h2 a ha)
        have set : ∀ t ∈ ts, t.Set d := fun t ht => set_of (hp t ht) fun x hx => hk x (List.mem_flatMap.2 ⟨t, ht, hx⟩)
        have sane := hsane a (hr a ha')
        refine alone_of hp sane (fun u => ?_) fun hst z hz k hk hne => h hst (fun t ht => Set.sub (set t ht) fun a ha => h1 a (h2 a ha)) z hz k hk hne a ha
        by_cases hu : w.1 ≤ u ∧ u ≤ w.2
        · rw [← tot_congr fun t ht => must_eq (u := u) hd (hv' t ht) (set t ht) ha']
          exact low u hu.1 hu.2
        · have : tot (use a u) ts = tot (fun _ => 0) ts := tot_congr fun t ht => by
            by_cases pos : 0 < greatest d t.length
            · exact use_out hd (hv' t ht) (fun hm => hw.2.2 t ht hm pos) ha' (by omega)
            · exact use_none (hp t ht) (fun _ => pos) hd (hv' t ht) ha'
          rw [this, tot_zero]
          decide

theorem ver_prop (ho : R .overflow) (hd : DomsOK d) (hl : d.length = root.length) (hr : ∀ a, Within d a → Within root a) (hp : Plain ts) (hv : ∀ t ∈ ts, t.Valid root.length)
    (hsane : ∀ a, Within root a → ∀ t ∈ ts, t.Sane a) :
    (prop (σ := σ) (μ := μ) strict rules ts).Ver (job root.length m R root (Alone strict ts)) (fun _ => True)
      (Enforced (fun a => Within root a → Alone strict ts a) ((ts.flatMap vars).filterMap VarId.underlyingIndex) d) d := by
  have hv' : ∀ t ∈ ts, t.Valid d.length := hl ▸ hv
  refine ver_ask (f := (horizon · ts none)) ho (horizon_roo hd ts [] none (fun t ht => ⟨hv' t ht, fun a ha => hsane a (hr a ha) t ht⟩) fun t ht => nomatch ht) fun w hw => ?_
  cases w with
  | none =>
    refine ver_mono (fun st d' h => ?_) _ _ (ver_finish ho hd hl hv fun a ha => hsane a (hr a ha))
    obtain ⟨rfl, rfl, h⟩ := h
    refine .intro (fun hk a ha _ => ?_) (fun h => nomatch h) (fun h => nomatch h)
    have set : ∀ t ∈ ts, t.Set d' := fun t ht => set_of (hp t ht) fun x hx => hk x (List.mem_flatMap.2 ⟨t, ht, hx⟩)
    refine alone_of hp (hsane a (hr a ha)) (fun u => ?_) fun hst z hz k hk hne => h hst set z hz k hk hne a ha
    have : tot (use a u) ts = tot (fun _ => 0) ts := tot_congr fun t ht => use_none (hp t ht) (hw t ht) hd (hv' t ht) ha
    rw [this, tot_zero]
    decide
  | some w => exact ver_work ho hd hl hr hp hv hsane hw

/-! ## Posting it -/

theorem triggers_wake : ∀ x ∈ ts.flatMap vars, ∀ v, x.underlyingIndex = some v →
    ∃ y, (y ∈ (triggers ts).onChange ∨ y ∈ (triggers ts).onBounds ∨ y ∈ (triggers ts).onInstantiated) ∧ y.underlyingIndex = some v := by
  intro x hx v hv
  have hc : x.isConst = false := by cases x <;> first | rfl | cases hv
  refine ⟨x, ?_, hv⟩
  obtain ⟨t, ht, hx⟩ := List.mem_flatMap.1 hx
  simp only [vars, List.mem_append, List.mem_cons, List.not_mem_nil, or_false, Option.mem_toList] at hx
  rcases hx with (rfl | rfl) | hx
  · refine .inr (.inl ?_)
    simp only [triggers, List.mem_append, List.mem_map]
    exact .inl ⟨t, ht, rfl⟩
  · refine .inr (.inl ?_)
    simp only [triggers, List.mem_append, List.mem_filter, List.mem_map]
    exact .inr ⟨⟨t, ht, rfl⟩, by simp [hc]⟩
  · refine .inr (.inr ?_)
    simp only [triggers, List.mem_filter, List.mem_filterMap]
    exact ⟨⟨t, ht, hx⟩, by simp [hc]⟩

/-- A length may be negative. -/
def Negative (root : Doms) (t : Task) : Prop := ∃ a, Within root a ∧ t.length.eval a < 0

theorem negative_roo (hd : DomsOK root) (ht : t.Valid root.length) : RightOrOverflow (negative root t) (fun b => b = true ↔ Negative root t) := by
  refine (lower_roo hd ht.length).bind fun y hy => .pure ?_
  rw [decide_eq_true_iff]
  refine ⟨fun h => ?_, fun ⟨a, ha, h⟩ => ?_⟩
  · obtain ⟨a, ha, e⟩ := hy.2.1
    exact ⟨a, ha, by omega⟩
  · have h2 := hy.2.le ha
    omega

theorem here_resolve : (resolve t).Here a ↔ t.Here a := by
  unfold resolve
  split
  · rename_i h
    exact ⟨fun _ p hp => by rw [h] at hp; cases hp; rfl, fun _ p hp => nomatch hp⟩
  · exact .rfl

theorem resolve_same : (resolve t).start = t.start ∧ (resolve t).length = t.length ∧ (resolve t).height = t.height := by
  unfold resolve
  split <;> exact ⟨rfl, rfl, rfl⟩

theorem vars_resolve : ∀ y ∈ vars (resolve t), y ∈ vars t := by
  unfold resolve
  split
  · intro y hy
    simp only [vars, List.mem_append, Option.toList_none, List.not_mem_nil, or_false] at hy ⊢
    exact .inl hy
  · exact fun _ h => h

theorem sep_resolve : Sep strict a (resolve s) (resolve t) ↔ Sep strict a s t := by
  unfold Sep
  rw [here_resolve, here_resolve, (resolve_same (t := s)).1, (resolve_same (t := s)).2.1, (resolve_same (t := t)).1, (resolve_same (t := t)).2.1]

/-- One that is left out is in nobody's way. -/
theorem sep_inactive (h : active strict s = false ∨ active strict t = false) : Sep strict a s t := fun h1 h2 => by
  have key : ∀ {t : Task}, active strict t = false → t.Here a → strict = false ∧ t.length.eval a = 0 := fun {t} h h' => by
    simp only [active, Bool.and_eq_false_iff, decide_eq_false_iff_not, Classical.not_not, Bool.or_eq_false_iff] at h
    rcases h with h | ⟨h, k⟩
    · exact absurd (show (0 : Int) = 1 from h' _ h) (by decide)
    · exact ⟨h, by rw [k]; rfl⟩
  rcases h with h | h
  · have := key h h1
    exact .inl ⟨this.1, .inl this.2⟩
  · have := key h h2
    exact .inl ⟨this.1, .inr this.2⟩

theorem alone_active : Alone strict ps a ↔ Alone strict ((ps.filter (active strict)).map resolve) a := by
  unfold Alone
  rw [List.pairwise_map]
  have e : (fun s t => Sep strict a (resolve s) (resolve t)) = Sep strict a := by
    funext s t
    exact propext sep_resolve
  rw [e, List.pairwise_filter]
  refine ⟨fun h => h.imp fun h _ _ => h, fun h => h.imp fun {s t} h => ?_⟩
  cases k1 : active strict s with
  | false => exact sep_inactive (.inl k1)
  | true =>
    cases k2 : active strict t with
    | false => exact sep_inactive (.inr k2)
    | true => exact h k1 k2

theorem alone_few (h : ts.length < 2) : Alone strict ts a := by
  unfold Alone
  cases ts with
  | nil => exact .nil
  | cons t ts =>
    cases ts with
    | nil => exact .cons (fun _ h => nomatch h) .nil
    | cons s ts => simp only [List.length_cons] at h; omega

/-- The propagator, for the tasks that are left. -/
theorem posted_ok {z0 : List σ} {C : Asg → Prop} (ho : R .overflow) (hp : Plain ps) (hv : ∀ t ∈ ps, t.Valid root.length) (sane : ∀ a, Within root a → ∀ t ∈ ps, t.Sane a)
    (from' : ∀ t ∈ ts, ∃ s ∈ ps, t = resolve s) (same : ∀ a, Within root a → (C a ↔ Alone strict ts a)) :
    ∃ I es, es.map (·.1) = [Item.prop (prop (σ := σ) (μ := μ) strict rules ts) (triggers ts)] ∧ Served root.length m R root z0 I (fun _ => False) C (ps.flatMap vars) es := by
  have val : ∀ t ∈ ts, t.Valid root.length := fun t ht => by
    obtain ⟨s, hs, rfl⟩ := from' t ht
    exact resolve_valid (hv s hs)
  have sane' : ∀ a, Within root a → ∀ t ∈ ts, t.Sane a := fun a ha t ht => by
    obtain ⟨s, hs, rfl⟩ := from' t ht
    exact resolve_sane (sane a ha s hs)
  have plain : Plain ts := fun t ht => by
    obtain ⟨s, hs, rfl⟩ := from' t ht
    rw [resolve_same.2.2]
    exact hp s hs
  have served := served_rooted (n := root.length) (m := m) (R := R) (root := root) (z0 := z0) (C := Alone strict ts) (ys := ts.flatMap vars) (xs := ps.flatMap vars)
    (f := prop (σ := σ) (μ := μ) strict rules ts) (t := triggers ts)
    (fun d hd' hl hs => ver_prop ho hd' hl hs plain val sane')
    (fun y hy => by
      obtain ⟨t, ht, hy⟩ := List.mem_flatMap.1 hy
      obtain ⟨s, hs, rfl⟩ := from' t ht
      exact List.mem_flatMap.2 ⟨s, hs, vars_resolve y hy⟩) triggers_wake rfl
  exact ⟨_, [(_, Alone strict ts)], rfl, served.congr same⟩

/-- What is posted for tasks. -/
theorem installTasks_ok {z0 : List σ} (ho : R .overflow) (hd : DomsOK root) (hp : Plain ps) (hv : ∀ t ∈ ps, t.Valid root.length) :
    Ends (installTasks (σ := σ) (μ := μ) strict rules ps root)
      (fun items => (∃ I es, es.map (·.1) = items ∧ Served root.length m R root z0 I (fun _ => False) (Alone strict ps) (ps.flatMap vars) es) ∧
        (∀ t ∈ ps, ¬ Negative root t ∧ ¬ Strange root t))
      ((∃ t ∈ ps, Negative root t) ∨ ∃ t ∈ ps, Strange root t) := by
  unfold installTasks
  refine .bind (anyOf_roo (P := Negative root) ps fun t ht => negative_roo hd (hv t ht)) fun b hb => ?_
  cases b with
  | true => exact .inr (.inl ⟨rfl, .inl (hb.1 rfl)⟩)
  | false =>
    refine .bind (anyOf_roo (P := Strange root) ps fun t ht => strange_roo hd (hv t ht)) fun b' hb' => ?_
    cases b' with
    | true => exact .inr (.inl ⟨rfl, .inr (hb'.1 rfl)⟩)
    | false =>
      have n1 : ∀ t ∈ ps, ¬ Negative root t := fun t ht h => nomatch hb.2 ⟨t, ht, h⟩
      have n2 : ∀ t ∈ ps, ¬ Strange root t := fun t ht h => nomatch hb'.2 ⟨t, ht, h⟩
      have sane : ∀ a, Within root a → ∀ t ∈ ps, t.Sane a := fun a ha t ht => by
        have k : ¬ t.length.eval a < 0 := fun k => n1 t ht ⟨a, ha, k⟩
        exact ⟨by omega, by rw [hp t ht]; exact (by decide : (0 : Int) ≤ 1), fun p hp => Classical.byContradiction fun k => n2 t ht ⟨p, a, hp, ha, k⟩⟩
      have same : ∀ a, Within root a → (Alone strict ps a ↔ Alone strict ((ps.filter (active strict)).map resolve) a) := fun a _ => alone_active
      have from' : ∀ t ∈ (ps.filter (active strict)).map resolve, ∃ s ∈ ps, t = resolve s := fun t ht => by
        obtain ⟨s, hs, rfl⟩ := List.mem_map.1 ht
        exact ⟨s, (List.mem_filter.1 hs).1, rfl⟩
      show Ends (if ((ps.filter (active strict)).map resolve).length < 2 then .ok [] else _) _ _
      generalize (ps.filter (active strict)).map resolve = ts at same from'
      split
      · rename_i hlt
        exact .inr (.inr ⟨_, rfl, ⟨fun _ _ => True, [], rfl, .nil fun a ha => (same a ha).2 (alone_few hlt)⟩, fun t ht => ⟨n1 t ht, n2 t ht⟩⟩)
      · exact .inr (.inr ⟨_, rfl, posted_ok ho hp hv sane from' same, fun t ht => ⟨n1 t ht, n2 t ht⟩⟩)

end
end Gcs.Disjunctive
