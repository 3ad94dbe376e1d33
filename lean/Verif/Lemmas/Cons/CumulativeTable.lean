import Verif.Lemmas.Cons.CumulativeLoad
import Verif.Lemmas.Cons.Knapsack

/-! The time table. -/

namespace Gcs.Cumulative
open IntervalSet

section
variable {σ μ : Type} {m : Nat} {R : Err → Prop} {d d0 d1 root : Doms} {t j : Task} {ts : List Task} {a : Asg} {u lo s e cap : Int} {n : Nat} {w cur : Int × Int} {v : List Int}

/-- Bounds only get closer. -/
theorem least_mono {x : VarId} (hd0 : DomsOK d0) (hd : DomsOK d) (h0 : x.Valid d0.length) (h : x.Valid d.length) (hs : ∀ a, Within d a → Within d0 a) : least d0 x ≤ least d x := by
  obtain ⟨b, hb, e⟩ := (least_spec hd h).1
  rw [← e]
  exact (least_spec hd0 h0).le (hs b hb)

theorem greatest_mono {x : VarId} (hd0 : DomsOK d0) (hd : DomsOK d) (h0 : x.Valid d0.length) (h : x.Valid d.length) (hs : ∀ a, Within d a → Within d0 a) : greatest d x ≤ greatest d0 x := by
  obtain ⟨b, hb, e⟩ := (greatest_spec hd h).1
  rw [← e]
  exact (greatest_spec hd0 h0).ge (hs b hb)

/-- What is known while the tasks are gone through: `d0` is where it began. -/
structure Scene (d0 : Doms) (ts : List Task) (w : Int × Int) (v : List Int) (n : Nat) : Prop where
  ok : DomsOK d0
  valid : ∀ t ∈ ts, t.Valid d0.length
  sane : ∀ a, Within d0 a → ∀ t ∈ ts, t.Sane a
  horizon : Horizon d0 ts (some w)
  size : w.2 < w.1 + n
  vec : Vec v w.1 n (fun u => tot (must d0 u) ts)
  fine : Fine w.1 n (fun u => tot (must d0 u) ts)

/-- What is known about `j`: `d1` is where its turn began. -/
structure Turn (d0 d1 : Doms) (j : Task) (cur : Int × Int) (eet : Int) : Prop where
  ok : DomsOK d1
  len : d1.length = d0.length
  sub : ∀ a, Within d1 a → Within d0 a
  maybe : j.Maybe d1
  cur1 : cur.1 = least d1 j.start
  cur2 : cur.2 = greatest d1 j.start
  in1 : InI64 cur.1
  in2 : InI64 cur.2
  eet : eet = cur.1 + least d1 j.length

/-- Too much is used at some time. -/
def Over (ts : List Task) (cap : Int) (a : Asg) : Prop := ∃ u, cap < tot (use a u) ts

theorem blocked_roo (sc : Scene d0 ts w v n) (tn : Turn d0 d1 j cur e) (hj : j ∈ ts) (hd : DomsOK d) (hl : d.length = d0.length) (hs : ∀ a, Within d a → Within d1 a) (hu : InI64 u) (h1 : w.1 ≤ u) (h2 : u ≤ w.2) (_hc : InI64 cap) :
    RightOrOverflow (blocked cap w.1 v j cur e d u) (fun b => b = true → ∀ a, Within d a → j.Here a → j.start.eval a ≤ u → u < j.start.eval a + j.length.eval a → cap < tot (use a u) ts) := by
  have vj : j.Valid d.length := hl ▸ sc.valid j hj
  have vj0 := sc.valid j hj
  have vj1 : j.Valid d1.length := tn.len ▸ sc.valid j hj
  have hs0 : ∀ a, Within d a → Within d0 a := fun a ha => tn.sub a (hs a ha)
  have sz := sc.size
  refine (get_roo sc.vec sc.fine sc.horizon.1 hu h1 (by omega)).bind fun mm hm => (isPresent_roo hd vj fun a ha => sc.sane a (hs0 a ha) j hj).bind fun here hh => (low_roo hd vj.height).bind fun h hh' => ?_
  have hin : InI64 (if here = true ∧ cur.2 < e ∧ u ≥ cur.2 ∧ u < e then h else 0) := by
    split
    · exact hh'.2
    · decide
  refine (sub_roo hm.2 hin).bind fun x hx => (add_roo hx.2 hh'.2).bind fun y hy => .pure fun hb a ha ha1 ha2 ha3 => ?_
  have hb : y > cap := of_decide_eq_true hb
  have nn : 0 ≤ h := by
    obtain ⟨b, hb, eb⟩ := (least_spec hd vj.height).1
    have := (sc.sane b (hs0 b hb) j hj).height
    have := hh'.1
    omega
  have own : must d0 u j ≤ if here = true ∧ cur.2 < e ∧ u ≥ cur.2 ∧ u < e then h else 0 := by
    unfold must
    split
    · rename_i k
      have m1 := greatest_mono sc.ok tn.ok vj0.start vj1.start tn.sub
      have m2 := least_mono sc.ok tn.ok vj0.start vj1.start tn.sub
      have m3 := least_mono sc.ok tn.ok vj0.length vj1.length tn.sub
      have m4 := least_mono sc.ok hd vj0.height vj.height hs0
      have c1 := tn.cur1; have c2 := tn.cur2; have c3 := tn.eet
      rw [if_pos ⟨hh.2 fun b hb => k.1 b (hs0 b hb), by omega, by omega, by omega⟩]
      have := hh'.1
      omega
    · split
      · exact nn
      · exact Int.le_refl 0
  have hu : h ≤ use a u j := by
    rw [use, if_pos ⟨ha1, ha2, ha3⟩]
    have := (least_spec hd vj.height).le ha
    have := hh'.1
    omega
  have := tot_one (f := must d0 u) (g := use a u) (l := ts) (fun t ht => must_le sc.ok (sc.valid t ht) (hs0 a ha) (sc.sane a (hs0 a ha) t ht)) hj hu
  have e1 := hm.1; have e2 := hx.1; have e3 := hy.1
  omega

theorem fits_roo (sc : Scene d0 ts w v n) (tn : Turn d0 d1 j cur e) (hj : j ∈ ts) (hd : DomsOK d) (hl : d.length = d0.length) (hs : ∀ a, Within d a → Within d1 a) (hc : InI64 cap) (hsi : InI64 s) (h1 : cur.1 ≤ s) (h2 : s ≤ cur.2) :
    RightOrOverflow (fits cap w.1 v j cur e d s) (fun b => b = false → ∀ a, Within d a → j.Here a → j.start.eval a = s → Over ts cap a) := by
  have vj : j.Valid d.length := hl ▸ sc.valid j hj
  have vj0 := sc.valid j hj
  have vj1 : j.Valid d1.length := tn.len ▸ sc.valid j hj
  have hs0 : ∀ a, Within d a → Within d0 a := fun a ha => tn.sub a (hs a ha)
  have sp := sc.horizon.2.2 j hj (by obtain ⟨b, hb, hh⟩ := tn.maybe; exact ⟨b, tn.sub b hb, hh⟩)
  have m1 := greatest_mono sc.ok tn.ok vj0.start vj1.start tn.sub
  have m2 := least_mono sc.ok tn.ok vj0.start vj1.start tn.sub
  have m3 := greatest_mono sc.ok hd vj0.length vj.length hs0
  have m4 := least_le hd vj.length
  have c1 := tn.cur1; have c2 := tn.cur2; have c3 := sp.lo; have c4 := sp.hi
  refine (low_roo hd vj.length).bind fun l hl' => (add_roo hsi hl'.2).bind fun e' he' => ?_
  have e1 := hl'.1; have e2 := he'.1
  refine (Knapsack.anyOf_hit (P := fun u => s ≤ u ∧ u < e' ∧ ∀ a, Within d a → j.Here a → j.start.eval a ≤ u → u < j.start.eval a + j.length.eval a → cap < tot (use a u) ts) (times s e') fun u hu => ?_).bind fun b hb => .pure fun hb' a ha hh hst => ?_
  · rw [mem_times] at hu
    have r1 := hsi; have r2 := he'.2
    refine (blocked_roo sc tn hj hd hl hs (by unfold InI64 at *; omega) (by omega) (by omega) hc).mono fun b hb e => ⟨hu.1, hu.2, hb e⟩
  · obtain ⟨u, hu, k1, k2, k3⟩ := hb (by simpa using hb')
    have := (least_spec hd vj.length).le ha
    exact ⟨u, k3 a ha hh (by omega) (by omega)⟩

theorem firstFit_roo {f : Int → Chk Bool} {P : Int → Prop} {hi : Int} : ∀ (k : Nat) (s : Int), InI64 s → s + k = hi + 1 → (∀ x, InI64 x → s ≤ x → x ≤ hi → RightOrOverflow (f x) (fun b => b = false → P x)) →
    RightOrOverflow (firstFit f k s) (fun r => InI64 r ∧ s ≤ r ∧ r ≤ hi + 1 ∧ ∀ x, s ≤ x → x < r → P x)
  | 0, s, hs, hk, _ => .pure ⟨hs, by omega, by omega, fun x _ _ => by omega⟩
  | k + 1, s, hs, hk, hf => by
    refine (hf s hs (by omega) (by omega)).bind fun b hb => ?_
    cases b with
    | true => exact .pure ⟨hs, by omega, by omega, fun x _ _ => by omega⟩
    | false =>
      refine (add_roo hs (by decide)).bind fun s' hs' => ?_
      have e := hs'.1
      refine (firstFit_roo k s' hs'.2 (by omega) fun x hx h1 h2 => hf x hx (by omega) h2).mono fun r hr => ⟨hr.1, by omega, hr.2.2.1, fun x h1 h2 => ?_⟩
      by_cases hx : x = s
      · rw [hx]; exact hb rfl
      · exact hr.2.2.2 x (by omega) h2

theorem lastFit_roo {f : Int → Chk Bool} {P : Int → Prop} {lo : Int} : ∀ (k : Nat) (s : Int), InI64 s → s - k = lo - 1 → (∀ x, InI64 x → lo ≤ x → x ≤ s → RightOrOverflow (f x) (fun b => b = false → P x)) →
    RightOrOverflow (lastFit f k s) (fun r => InI64 r ∧ r ≤ s ∧ ∀ x, r < x → x ≤ s → P x)
  | 0, s, hs, hk, _ => .pure ⟨hs, by omega, fun x _ _ => by omega⟩
  | k + 1, s, hs, hk, hf => by
    refine (hf s hs (by omega) (by omega)).bind fun b hb => ?_
    cases b with
    | true => exact .pure ⟨hs, by omega, fun x _ _ => by omega⟩
    | false =>
      refine (sub_roo hs (by decide)).bind fun s' hs' => ?_
      have e := hs'.1
      refine (lastFit_roo k s' hs'.2 (by omega) fun x hx h1 h2 => hf x hx h1 (by omega)).mono fun r hr => ⟨hr.1, by omega, fun x h1 h2 => ?_⟩
      by_cases hx : x = s
      · rw [hx]; exact hb rfl
      · exact hr.2.2 x h1 (by omega)

theorem current_roo (hd : DomsOK d) (hl : d.length = d0.length) (hs : ∀ a, Within d a → Within d0 a) (vj : j.Valid d.length) (sane : ∀ a, Within d a → j.Sane a) :
    RightOrOverflow (current d j) (fun o => ∀ r, o = some r → Turn d0 d j r.1 r.2) := by
  refine (isAbsent_roo hd vj sane).bind fun b hb => ?_
  cases b with
  | true => exact .pure fun _ h => nomatch h
  | false =>
    refine (ends_roo hd vj.start).bind fun c hc => ?_
    have hset : RightOrOverflow (settled d j c) (fun _ => True) := by
      unfold settled
      split
      · exact (isPresent_roo hd vj sane).mono fun _ _ => trivial
      · exact .pure trivial
    refine hset.bind fun b' _ => ?_
    cases b' with
    | true => exact .pure fun _ h => nomatch h
    | false =>
      refine (low_roo hd vj.length).bind fun l hl' => (add_roo hc.2.2.1 hl'.2).bind fun e he => .pure fun r h => ?_
      cases h
      exact ⟨hd, hl, hs, hb.1 rfl, hc.1, hc.2.1, hc.2.2.1, hc.2.2.2, by rw [← hl'.1]; exact he.1⟩

/-- The job: to keep what fits the capacity. -/
abbrev job (n m : Nat) (R : Err → Prop) (root : Doms) (C : Asg → Prop) : Job := { n, m, R, C := fun a => Within root a ∧ C a }

theorem ver_pushUpper {C : Asg → Prop} (ho : R .overflow) (sc : Scene d0 ts w v n) (tn : Turn d0 d1 j cur e) (hj : j ∈ ts) (hd : DomsOK d) (hl : d.length = d0.length) (hs : ∀ a, Within d a → Within d1 a) (hc : InI64 cap)
    (hC : ∀ a, Within d0 a → C a → ¬ Over ts cap a) (here : ∀ a, Within d a → C a → j.Here a) :
    (pushUpper (σ := σ) (μ := μ) cap w.1 v j cur e).Ver (job d0.length m R root C) (fun _ => False) (fun _ d' => ∀ a, Within d' a → Within d a) d := by
  have hs0 : ∀ a, Within d a → Within d0 a := fun a ha => tn.sub a (hs a ha)
  have vj1 : j.Valid d1.length := tn.len ▸ sc.valid j hj
  have le := least_le tn.ok vj1.start
  have c1 := tn.cur1; have c2 := tn.cur2
  refine ver_ask (f := fun d => lastFit (fits cap w.1 v j cur e d) (cur.2 - cur.1 + 1).toNat cur.2) ho
    (lastFit_roo (lo := cur.1) (P := fun s => ∀ a, Within d a → j.Here a → j.start.eval a = s → Over ts cap a) _ cur.2 tn.in2 (by omega) fun x hx h1 h2 => fits_roo sc tn hj hd hl hs hc hx h1 h2) fun ub hub => ?_
  refine ver_onlyIf (fun _ => ?_) fun _ _ h => h
  refine ver_lift ho (P := fun c => c = Cond.lt j.start (ub + 1) ∧ InI64 (ub + 1)) ?_ fun c hcond => ?_
  · unfold Cond.le
    refine (add_roo hub.1 (by decide)).bind fun x hx => .pure ⟨?_, hx.1 ▸ hx.2⟩
    rw [hx.1]; rfl
  · rw [hcond.1]
    refine ver_tell_last (.lt (sc.valid j hj).start hcond.2) (fun a ha hCa => Lit.holds_lt.2 (Classical.byContradiction fun hn => ?_)) fun d' _ _ h a ha => ((h a).1 ha).1
    have g := (greatest_spec tn.ok vj1.start).ge (hs a ha)
    exact hC a (hs0 a ha) hCa.2 (hub.2.2 _ (by omega) (by omega) a ha (here a ha hCa.2) rfl)

theorem ver_push {C : Asg → Prop} (ho : R .overflow) (sc : Scene d0 ts w v n) (hj : j ∈ ts) (hd : DomsOK d) (hl : d.length = d0.length) (hs : ∀ a, Within d a → Within d0 a) (hc : InI64 cap)
    (hC : ∀ a, Within d0 a → C a → ¬ Over ts cap a) :
    (push (σ := σ) (μ := μ) cap w.1 v j).Ver (job d0.length m R root C) (fun _ => False) (fun _ d' => ∀ a, Within d' a → Within d a) d := by
  have vj : j.Valid d.length := hl ▸ sc.valid j hj
  refine ver_ask (f := (current · j)) ho (current_roo (d0 := d0) hd hl hs vj fun a ha => sc.sane a (hs a ha) j hj) fun o h => ?_
  cases o with
  | none => exact fun _ h => h
  | some r =>
    obtain ⟨cur, e⟩ := r
    have tn : Turn d0 d j cur e := h _ rfl
    have le := least_le hd vj.start
    have c1 := tn.cur1; have c2 := tn.cur2
    refine ver_ask (f := fun d => do
      let lb ← firstFit (fits cap w.1 v j cur e d) (cur.2 - cur.1 + 1).toNat cur.1
      let here ← isPresent d j
      return (lb, here)) (P := fun r => InI64 r.1 ∧ (∀ x, cur.1 ≤ x → x < r.1 → ∀ a, Within d a → j.Here a → j.start.eval a = x → Over ts cap a) ∧ (r.2 = true ↔ j.Sure d)) ho
      ((firstFit_roo (hi := cur.2) (P := fun s => ∀ a, Within d a → j.Here a → j.start.eval a = s → Over ts cap a) _ cur.1 tn.in1 (by omega) fun x hx h1 h2 => fits_roo sc tn hj hd hl (fun _ h => h) hc hx h1 h2).bind
        fun lb hlb => (isPresent_roo hd vj fun a ha => sc.sane a (hs a ha) j hj).bind fun b hb => .pure ⟨hlb.1, hlb.2.2.2, hb⟩) fun r hr => ?_
    obtain ⟨lb, b⟩ := r
    have nohere : ∀ a, Within d a → C a → j.Here a → lb ≤ j.start.eval a := fun a ha hCa hh => Classical.byContradiction fun hn => by
      have := (least_spec hd vj.start).le ha
      exact hC a (hs a ha) hCa (hr.2.1 _ (by omega) (by omega) a ha hh rfl)
    have rest : (∀ a, Within d a → C a → j.Here a) → (Prog.bind (Prog.onlyIf (lb > cur.1) (Prog.tell (.cond (Cond.ge j.start lb)))) fun _ => pushUpper (σ := σ) (μ := μ) cap w.1 v j cur e).Ver (job d0.length m R root C)
        (fun _ => False) (fun _ d' => ∀ a, Within d' a → Within d a) d := fun here =>
      ver_seq (S := fun _ => False) (Q' := fun _ _ => True) hd hl (fun _ h => h)
        (ver_onlyIf (fun _ => ver_tell_last (.ge (sc.valid j hj).start hr.1) (fun a ha hCa => Lit.holds_ge.2 (nohere a ha hCa.2 (here a ha hCa.2))) fun _ _ _ _ => trivial) fun _ => trivial)
        fun _ d' hd' hl' h' _ => ver_mono (fun _ d2 h2 a ha => h' a (h2 a ha)) _ _ (ver_pushUpper ho sc tn hj hd' hl' h' hc hC fun a ha => here a (h' a ha))
    show (pushWith cap w.1 v j cur e (lb, b)).Ver _ _ _ _
    unfold pushWith
    cases hp : j.presence with
    | none =>
      have here : ∀ a, Within d a → C a → j.Here a := fun a _ _ p hp' => nomatch hp.symm.trans hp'
      cases b <;> exact rest here
    | some p =>
      cases b with
      | true => exact rest fun a ha _ => hr.2.2.1 rfl a ha
      | false =>
        refine ver_onlyIf (fun hlt => ?_) fun _ _ h => h
        refine ver_tell_last (.eq ((sc.valid j hj).presence p hp) (by decide)) (fun a ha hCa => Lit.holds_eq.2 ?_) fun d' _ _ h a ha => ((h a).1 ha).1
        have k := (sc.sane a (hs a ha) j hj).presence p hp
        refine Classical.byContradiction fun hn => ?_
        have := nohere a ha hCa.2 fun q hq => by rw [hp] at hq; cases hq; omega
        have := (greatest_spec hd vj.start).ge ha
        have hlt : lb > cur.2 := hlt
        omega

end
end Gcs.Cumulative
