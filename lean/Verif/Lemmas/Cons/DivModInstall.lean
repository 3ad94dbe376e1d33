import Verif.Lemmas.Cons.DivMod
import Verif.Lemmas.Cons.Power

/-!
Division and remainder: the stages, the propagation function and installing.
-/

namespace Gcs
open IntervalSet

namespace Stages
variable {n : Nat} {d : Doms} {s : Stage} {a : Asg}

/-- Once all but one variable is known, an inequality that has done its work holds. -/
theorem Made.settled_but {sp : Spec} (w : Nat) (h : Made n sp s) (he : sp.equality = false) (hg : ∀ g, sp.gate = some g → Known d g.var) (hk : ∀ t ∈ sp.sum, t.2 = .simple w ∨ Known d t.2) (hq : s.Done d d) : ∀ a, Within d a → sp.Holds a := by
  intro a ha hgate
  refine (h.rel a).1 (hq (fun g e b hb => ?_) w (fun t ht hw => ?_) a ha)
  · rw [h.gate] at e
    exact (Cond.holds_known (hg g e a b ha hb)).1 (hgate g e)
  · rw [h.equality, he] at hw
    obtain ⟨u, hu, e⟩ := List.mem_filterMap.1 (h.vars t ht)
    rcases hk u hu with k | k
    · rw [k] at e; cases e
      simp at hw
    · exact known_under k e

theorem le_holds {sum : List WTerm} {v : Int} {g : Option Cond} : (le sum v g).Holds a ↔ ((∀ c, g = some c → c.holds a) → wsum sum a ≤ v) :=
  ⟨fun h hg => (h hg).1, fun h hg => ⟨h hg, fun e => nomatch e⟩⟩

end Stages

namespace DivMod
open Stages Linear

/-- What `Divide` and `Modulus` say, together with the variables for magnitudes. -/
def Related (divide : Bool) (x y out : VarId) (mq my : Nat) (a : Asg) : Prop :=
  y.eval a ≠ 0 ∧ a my = (y.eval a).natAbs ∧
    if divide = true then (x.eval a).tdiv (y.eval a) = out.eval a ∧ a mq = (out.eval a).natAbs
    else (x.eval a).tmod (y.eval a) = out.eval a ∧ a mq = ((x.eval a).tdiv (y.eval a)).natAbs

section
variable {σ μ : Type} {n m : Nat} {R : Err → Prop} {root d : Doms} {x y q out v : VarId} {mq my mag : Nat} {J : Job} {t : Int} {a : Asg} {divide : Bool}

/-! ## Stages -/

theorem magnitudeStages_eq (h : v.isConst = false) : magnitudeStages mag v t = [le [(1, .simple mag), (-1, v)] 0 (some (Cond.ge v t)), le [(-1, .simple mag), (1, v)] 0 (some (Cond.ge v t)),
    le [(1, .simple mag), (1, v)] 0 (some (Cond.lt v 0)), le [(-1, .simple mag), (-1, v)] 0 (some (Cond.lt v 0))] := by
  cases v with
  | const c => cases h
  | simple i => rfl
  | view i ng k => rfl

theorem magnitudeStages_const {c : Int} : magnitudeStages mag (.const c) t = (if c ≥ t then [le [(1, .simple mag), (-1, .const c)] 0 none, le [(-1, .simple mag), (1, .const c)] 0 none] else []) ++
    (if c < 0 then [le [(1, .simple mag), (1, .const c)] 0 none, le [(-1, .simple mag), (-1, .const c)] 0 none] else []) := rfl

theorem holds_pair {p q : Int} {g : Option Cond} : (le [(p, .simple mag), (q, v)] 0 g).Holds a ↔ ((∀ c, g = some c → c.holds a) → p * a mag + q * v.eval a ≤ 0) := by
  rw [le_holds]; simp [wsum, VarId.eval]

theorem holds_ge' {k : Int} : (∀ c, some (Cond.ge v k) = some c → c.holds a) ↔ k ≤ v.eval a :=
  ⟨fun h => h _ rfl, fun h c e => by cases e; exact h⟩

theorem holds_lt' {k : Int} : (∀ c, some (Cond.lt v k) = some c → c.holds a) ↔ v.eval a < k :=
  ⟨fun h => h _ rfl, fun h c e => by cases e; exact h⟩

theorem magnitude_holds (ht : 0 ≤ t) : (∀ s ∈ magnitudeStages mag v t, s.Holds a) ↔ (t ≤ v.eval a → a mag = v.eval a) ∧ (v.eval a < 0 → a mag = - v.eval a) := by
  cases hc : v.isConst with
  | false =>
    rw [magnitudeStages_eq hc]
    simp only [List.forall_mem_cons, holds_pair, holds_ge', holds_lt']
    constructor
    · rintro ⟨h1, h2, h3, h4, -⟩
      exact ⟨fun h => by have := h1 h; have := h2 h; omega, fun h => by have := h3 h; have := h4 h; omega⟩
    · rintro ⟨h1, h2⟩
      exact ⟨fun h => by have := h1 h; omega, fun h => by have := h1 h; omega, fun h => by have := h2 h; omega, fun h => by have := h2 h; omega, fun s hs => nomatch hs⟩
  | true =>
    cases v with
    | simple i => cases hc
    | view i ng k => cases hc
    | const c =>
      rw [magnitudeStages_const]
      have hn : (∀ g : Cond, none = some g → g.holds a) ↔ True := ⟨fun _ => trivial, fun _ g h => nomatch h⟩
      by_cases h1 : c ≥ t
      · rw [if_pos h1, if_neg (by omega), List.append_nil]
        simp only [List.forall_mem_cons, holds_pair, hn, true_imp_iff, VarId.eval]
        constructor
        · rintro ⟨h1, h2, -⟩; omega
        · rintro ⟨h2, h3⟩; exact ⟨by omega, by omega, fun s hs => nomatch hs⟩
      · rw [if_neg h1, List.nil_append]
        by_cases h2 : c < 0
        · rw [if_pos h2]
          simp only [List.forall_mem_cons, holds_pair, hn, true_imp_iff, VarId.eval]
          constructor
          · rintro ⟨h1, h2, -⟩; omega
          · rintro ⟨h2, h3⟩; exact ⟨by omega, by omega, fun s hs => nomatch hs⟩
        · rw [if_neg h2]
          simp only [VarId.eval]
          exact ⟨fun _ => ⟨fun h => absurd h (by omega), fun h => absurd h h2⟩, fun _ s hs => nomatch hs⟩

/-- A stage over variables that are known in the end, but for one. -/
structure Piece (n : Nat) (w : Nat) (xs : List VarId) (s : Spec) : Prop where
  ok : s.OK n
  le : s.equality = false
  sums : ∀ t ∈ s.sum, t.2 = .simple w ∨ t.2 ∈ xs
  gates : ∀ g, s.gate = some g → g.var ∈ xs

theorem piece_pair {p q : Int} {g : Option Cond} {xs : List VarId} (hm : mag < n) (hv : v.Valid n) (hp : p = 1 ∨ p = -1) (hq : q = 1 ∨ q = -1) (hg : ∀ c, g = some c → GateOK n c ∧ c.var = v) (hx : v ∈ xs) :
    Piece n mag xs (le [(p, .simple mag), (q, v)] 0 g) := by
  have hp' : InI64 p := by rcases hp with rfl | rfl <;> decide
  have hq' : InI64 q := by rcases hq with rfl | rfl <;> decide
  refine ⟨⟨?_, (by decide : InI64 0), fun c e => (hg c e).1⟩, rfl, ?_, fun c e => (hg c e).2 ▸ hx⟩
  · intro t ht
    simp only [le, List.mem_cons, List.not_mem_nil, or_false] at ht
    rcases ht with rfl | rfl
    · exact ⟨hp', hm⟩
    · exact ⟨hq', hv⟩
  · intro t ht
    simp only [le, List.mem_cons, List.not_mem_nil, or_false] at ht
    rcases ht with rfl | rfl
    · exact .inl rfl
    · exact .inr hx

theorem pieces_magnitude {xs : List VarId} (hm : mag < n) (hv : v.Valid n) (ht : InI64 t) (hx : v ∈ xs) : ∀ s ∈ magnitudeStages mag v t, Piece n mag xs s := by
  have ge : ∀ c, some (Cond.ge v t) = some c → GateOK n c ∧ c.var = v := by rintro _ ⟨⟩; exact ⟨⟨.ge hv ht, .inl rfl⟩, rfl⟩
  have lt : ∀ c, some (Cond.lt v 0) = some c → GateOK n c ∧ c.var = v := by rintro _ ⟨⟩; exact ⟨⟨.lt hv (by decide), .inr (.inl rfl)⟩, rfl⟩
  have no : ∀ c, none = some c → GateOK n c ∧ c.var = v := fun _ h => nomatch h
  cases hc : v.isConst with
  | false =>
    rw [magnitudeStages_eq hc]
    simp only [List.forall_mem_cons]
    exact ⟨piece_pair hm hv (.inl rfl) (.inr rfl) ge hx, piece_pair hm hv (.inr rfl) (.inl rfl) ge hx, piece_pair hm hv (.inl rfl) (.inl rfl) lt hx, piece_pair hm hv (.inr rfl) (.inr rfl) lt hx, fun s hs => nomatch hs⟩
  | true =>
    cases v with
    | simple i => cases hc
    | view i ng k => cases hc
    | const c =>
      rw [magnitudeStages_const]
      have k1 : ∀ s ∈ [le [(1, .simple mag), (-1, .const c)] 0 none, le [(-1, .simple mag), (1, .const c)] 0 none], Piece n mag xs s := by
        simp only [List.forall_mem_cons]
        exact ⟨piece_pair hm hv (.inl rfl) (.inr rfl) no hx, piece_pair hm hv (.inr rfl) (.inl rfl) no hx, fun s hs => nomatch hs⟩
      have k2 : ∀ s ∈ [le [(1, .simple mag), (1, .const c)] 0 none, le [(-1, .simple mag), (-1, .const c)] 0 none], Piece n mag xs s := by
        simp only [List.forall_mem_cons]
        exact ⟨piece_pair hm hv (.inl rfl) (.inl rfl) no hx, piece_pair hm hv (.inr rfl) (.inr rfl) no hx, fun s hs => nomatch hs⟩
      intro s hs
      rcases List.mem_append.1 hs with hs | hs
      · split at hs
        · exact k1 s hs
        · cases hs
      · split at hs
        · exact k2 s hs
        · cases hs

theorem piece_range {p : Int} (hm : my < n) (ho : out.Valid n) (hp : p = 1 ∨ p = -1) : Piece n my [x, y, out] (le [(p, out), (-1, .simple my)] (-1) none) := by
  have hp' : InI64 p := by rcases hp with rfl | rfl <;> decide
  refine ⟨⟨?_, (by decide : InI64 (-1)), (fun _ h => nomatch h)⟩, rfl, ?_, (fun _ h => nomatch h)⟩
  · intro t ht
    simp only [le, List.mem_cons, List.not_mem_nil, or_false] at ht
    rcases ht with rfl | rfl
    · exact ⟨hp', ho⟩
    · exact ⟨(by decide : InI64 (-1)), hm⟩
  · intro t ht
    simp only [le, List.mem_cons, List.not_mem_nil, or_false] at ht
    rcases ht with rfl | rfl
    · exact .inr (by simp)
    · exact .inl rfl

theorem piece_sign {p : Int} {g : Cond} (ho : out.Valid n) (hp : p = 1 ∨ p = -1) (hg : GateOK n g) (hx : g.var = x) : Piece n my [x, y, out] (le [(p, out)] 0 (some g)) := by
  have hp' : InI64 p := by rcases hp with rfl | rfl <;> decide
  refine ⟨⟨?_, (by decide : InI64 0), (by rintro _ ⟨⟩; exact hg)⟩, rfl, ?_, (by rintro _ ⟨⟩; simp [hx])⟩
  · intro t ht
    cases List.mem_singleton.1 ht
    exact ⟨hp', ho⟩
  · intro t ht
    cases List.mem_singleton.1 ht
    exact .inr (by simp)

theorem specs_pieces (hx : x.Valid n) (hy : y.Valid n) (ho : out.Valid n) (hq : mq < n) (hm : my < n) : ∀ s ∈ specs divide x y out mq my, ∃ w, Piece n w [x, y, out] s := by
  unfold specs
  split
  · intro s hs
    rcases List.mem_append.1 hs with hs | hs
    · exact ⟨mq, pieces_magnitude hq ho (by decide) (by simp) s hs⟩
    · exact ⟨my, pieces_magnitude hm hy (by decide) (by simp) s hs⟩
  · intro s hs
    refine ⟨my, ?_⟩
    rcases List.mem_append.1 hs with hs | hs
    · simp only [List.mem_cons, List.not_mem_nil, or_false] at hs
      rcases hs with rfl | rfl | rfl | rfl
      · exact piece_range hm ho (.inl rfl)
      · exact piece_range hm ho (.inr rfl)
      · exact piece_sign ho (.inr rfl) ⟨.ge hx (by decide), .inl rfl⟩ rfl
      · exact piece_sign ho (.inl rfl) ⟨.lt hx (by decide), .inr (.inl rfl)⟩ rfl
    · exact pieces_magnitude hm hy (by decide) (by simp) s hs

/-- What a magnitude has to be. -/
abbrev Magnitude (t v m : Int) : Prop := (t ≤ v → m = v) ∧ (v < 0 → m = -v)

theorem specs_holds : (∀ s ∈ specs divide x y out mq my, s.Holds a) ↔ Magnitude 1 (y.eval a) (a my) ∧
    if divide = true then Magnitude 0 (out.eval a) (a mq) else out.eval a < a my ∧ - out.eval a < a my ∧ (0 ≤ x.eval a → 0 ≤ out.eval a) ∧ (x.eval a < 1 → out.eval a ≤ 0) := by
  unfold specs
  split
  · simp only [List.mem_append, or_imp, forall_and, magnitude_holds (t := 0) (by decide), magnitude_holds (t := 1) (by decide)]
    exact and_comm
  · have hn : (∀ g : Cond, none = some g → g.holds a) ↔ True := ⟨fun _ => trivial, fun _ g h => nomatch h⟩
    rw [Power.forall_append, magnitude_holds (t := 1) (by decide), and_comm]
    refine and_congr_right fun _ => ?_
    simp only [List.forall_mem_cons, le_holds, holds_ge', holds_lt', hn, true_imp_iff]
    simp only [wsum, List.map_cons, List.map_nil, List.sum_cons, List.sum_nil, VarId.eval]
    constructor
    · rintro ⟨h1, h2, h3, h4, -⟩
      exact ⟨by omega, by omega, fun h => by have := h3 h; omega, fun h => by have := h4 h; omega⟩
    · rintro ⟨h1, h2, h3, h4⟩
      exact ⟨by omega, by omega, fun h => by have := h3 h; omega, fun h => by have := h4 h; omega, fun s hs => nomatch hs⟩

theorem specs_of_related (h : Related divide x y out mq my a) : ∀ s ∈ specs divide x y out mq my, s.Holds a := by
  rw [specs_holds]
  obtain ⟨h1, h2, h3⟩ := h
  refine ⟨by omega, ?_⟩
  split
  · rename_i e; rw [if_pos e] at h3
    omega
  · rename_i e; rw [if_neg e] at h3
    exact (modulus_rows h2 h1 h3.1 h3.2).2

theorem rows_of_related (h : Related divide x y out mq my a) : y.eval a ≠ 0 ∧ a my = (y.eval a).natAbs ∧ 0 ≤ a mq ∧ Rows x mq my a (if divide = true then none else some out) := by
  obtain ⟨h1, h2, h3⟩ := h
  refine ⟨h1, h2, ?_⟩
  split
  · rename_i e; rw [if_pos e] at h3
    exact ⟨by omega, ((divide_iff h3.2 h2 h1).1 h3.1).1⟩
  · rename_i e; rw [if_neg e] at h3
    exact ⟨by omega, (modulus_rows h2 h1 h3.1 h3.2).1⟩

/-! ## Signs -/

theorem isPositive_roo (hd : DomsOK d) (hv : v.Valid d.length) : RightOrOverflow (isPositive v d) (fun b => b = true ↔ ∀ a, Within d a → 1 ≤ v.eval a) :=
  (lower_roo hd hv).bind fun l hl => .pure (by
    rw [decide_eq_true_iff]
    refine ⟨fun h a ha => Int.le_trans h (hl.2.le ha), fun h => ?_⟩
    obtain ⟨a, ha, e⟩ := hl.2.1
    have := h a ha
    omega)

theorem isNegative_roo (hd : DomsOK d) (hv : v.Valid d.length) : RightOrOverflow (isNegative v d) (fun b => b = true ↔ ∀ a, Within d a → v.eval a < 0) :=
  (upper_roo hd hv).bind fun l hl => .pure (by
    rw [decide_eq_true_iff]
    refine ⟨fun h a ha => Int.lt_of_le_of_lt (hl.2.ge ha) h, fun h => ?_⟩
    obtain ⟨a, ha, e⟩ := hl.2.1
    have := h a ha
    omega)

theorem both_roo {f g : Doms → Chk Bool} {S G : Prop} (hf : RightOrOverflow (f d) (fun b => b = true ↔ S)) (hg : RightOrOverflow (g d) (fun b => b = false → G)) : RightOrOverflow (both f g d) (fun b => (b = true → S) ∧ (b = false → S → G)) :=
  hf.bind fun b hb => by
    split
    · rename_i h
      exact hg.mono fun c hc => ⟨fun _ => hb.1 h, fun e _ => hc e⟩
    · rename_i h
      exact .pure ⟨(fun h => nomatch h), fun _ hs => absurd (hb.2 hs) h⟩

theorem pin_ver {same opposite : Doms → Chk Bool} {S O : Prop} (ho : J.R .overflow) (hd : DomsOK d) (hl : d.length = J.n) (hq : q.Valid J.n) (hs : RightOrOverflow (same d) (fun b => b = true ↔ S)) (hop : RightOrOverflow (opposite d) (fun b => b = true ↔ O)) (hSO : S → ¬ O)
    (hS : S → ∀ a, Within d a → J.C a → 0 ≤ q.eval a) (hO : O → ∀ a, Within d a → J.C a → q.eval a < 1) :
    (pin same opposite q : Prog σ μ Unit).Ver J (fun _ => False) (fun _ d' => (S → ∀ a, Within d' a → 0 ≤ q.eval a) ∧ (O → ∀ a, Within d' a → q.eval a < 1)) d := by
  have hlow : RightOrOverflow (mayBeNegative q d) (fun b => b = false → ∀ a, Within d a → 0 ≤ q.eval a) := (lower_roo hd (hl ▸ hq)).bind fun l hl => .pure fun h a ha => by
    have := of_decide_eq_false h; have := hl.2.le ha; omega
  have hup : RightOrOverflow (mayBePositive q d) (fun b => b = false → ∀ a, Within d a → q.eval a < 1) := (upper_roo hd (hl ▸ hq)).bind fun l hl => .pure fun h a ha => by
    have := of_decide_eq_false h; have := hl.2.ge ha; omega
  refine ver_ask (f := both same (mayBeNegative q)) ho (both_roo hs hlow) fun b hb => ?_
  split
  · rename_i h
    have hs := hb.1 h
    refine ver_tell_last (.ge hq (by decide)) (fun a ha hc => by rw [Lit.holds_ge]; exact hS hs a ha hc) fun d' _ _ w => ⟨fun _ a ha => ?_, fun ho => absurd ho (hSO hs)⟩
    have := ((w a).1 ha).2
    rw [Lit.holds_ge] at this; exact this
  · rename_i h
    have h1 := hb.2 (by simpa using h)
    refine ver_ask (f := both opposite (mayBePositive q)) ho (both_roo hop hup) fun c hc => ver_onlyIf (fun h => ?_) fun h => ⟨h1, hc.2 (by simpa using h)⟩
    have hso := hc.1 h
    refine ver_tell_last (.lt hq (by decide)) (fun a ha hc => by rw [Lit.holds_lt]; exact hO hso a ha hc) fun d' _ _ w => ⟨fun hs => absurd hso (hSO hs), fun _ a ha => ?_⟩
    have := ((w a).1 ha).2
    rw [Lit.holds_lt] at this; exact this

theorem pinSign_ver (ho : J.R .overflow) (hd : DomsOK d) (hl : d.length = J.n) (hx : x.Valid J.n) (hy : y.Valid J.n) (hq : q.Valid J.n) (hC : ∀ a, J.C a → SignOK (x.eval a) (y.eval a) (q.eval a)) :
    (pinSign x y q : Prog σ μ Unit).Ver J (fun _ => False) (fun _ d' => Known d x → Known d y → ∀ a, Within d' a → Within d a → SignOK (x.eval a) (y.eval a) (q.eval a)) d := by
  obtain ⟨a0, ha0⟩ := exists_within hd
  refine ver_ask (f := isPositive x) ho (isPositive_roo hd (hl ▸ hx)) fun b hb => ?_
  split
  · rename_i h
    have hp := hb.1 h
    refine ver_mono (fun _ d' hh kx ky a ha ha' => ?_) _ _ (pin_ver ho hd hl hq (isPositive_roo hd (hl ▸ hy)) (isNegative_roo hd (hl ▸ hy)) (fun h1 h2 => by have := h1 a0 ha0; have := h2 a0 ha0; omega)
      (fun h a ha hc => (hC a hc).1 (hp a ha) (h a ha)) (fun h a ha hc => (hC a hc).2.1 (hp a ha) (h a ha)))
    have := hp a ha'
    refine ⟨fun _ h => hh.1 (fun b hb => by rw [ky b a hb ha']; exact h) a ha, fun _ h => hh.2 (fun b hb => by rw [ky b a hb ha']; exact h) a ha, fun h => by omega, fun h => by omega⟩
  · rename_i hnp
    refine ver_ask (f := isNegative x) ho (isNegative_roo hd (hl ▸ hx)) fun c hc => ver_onlyIf (fun h => ?_) fun h kx ky a ha ha' => ?_
    · have hp := hc.1 h
      refine ver_mono (fun _ d' hh kx ky a ha ha' => ?_) _ _ (pin_ver ho hd hl hq (isNegative_roo hd (hl ▸ hy)) (isPositive_roo hd (hl ▸ hy)) (fun h1 h2 => by have := h1 a0 ha0; have := h2 a0 ha0; omega)
        (fun h a ha hc => (hC a hc).2.2.1 (hp a ha) (h a ha)) (fun h a ha hc => (hC a hc).2.2.2 (hp a ha) (h a ha)))
      have := hp a ha'
      refine ⟨fun h => by omega, fun h => by omega, fun _ h => hh.1 (fun b hb => by rw [ky b a hb ha']; exact h) a ha, fun _ h => hh.2 (fun b hb => by rw [ky b a hb ha']; exact h) a ha⟩
    · have h1 : ¬ 1 ≤ x.eval a := fun h1 => hnp (hb.2 fun b hb => by rw [kx b a hb ha']; exact h1)
      have h2 : ¬ x.eval a < 0 := fun h2 => h (hc.2 fun b hb => by rw [kx b a hb ha']; exact h2)
      exact ⟨fun h => absurd h h1, fun h => absurd h h1, fun h => absurd h h2, fun h => absurd h h2⟩

theorem avoidZero_ver (ho : J.R .overflow) (hd : DomsOK d) (hl : d.length = J.n) (hy : y.Valid J.n) (hC : ∀ a, J.C a → y.eval a ≠ 0) :
    (avoidZero y : Prog σ μ Unit).Ver J (fun _ => False) (fun _ d' => ∀ a, Within d' a → y.eval a ≠ 0) d := by
  refine ver_ask (f := (inDomain · y 0)) ho (inDomain_spec hd (hl ▸ hy) 0 (by decide)) fun b hb => ?_
  split
  · exact ver_tell_last (.ne hy (by decide)) (fun a _ h => hC a h) fun d' _ _ h a ha => ((h a).1 ha).2
  · rename_i hn
    exact fun a ha e => hn (hb.2 ⟨a, ha, e⟩)

/-! ## Propagation -/

theorem prop_enforces (ho : R .overflow) (hx : x.Valid n) (hy : y.Valid n) (hout : out.Valid n) (hq : mq < n) (hm : my < n) (hpos : ∀ a, Within root a → 0 ≤ a mq) {stages : List Stage}
    (hst : (∀ t ∈ stages, ∃ s ∈ specs divide x y out mq my, Made n s t) ∧ ∀ s ∈ specs divide x y out mq my, ∃ t ∈ stages, Made n s t) :
    Enforces n m R root (Related divide x y out mq my) [x, y, out] (prop (σ := σ) (μ := μ) divide stages x y out mq my) := by
  have hpc := specs_pieces (divide := divide) (mq := mq) (my := my) hx hy hout hq hm
  have final : ∀ d, (∀ v ∈ [x, y, out], Known d v) → (∀ s ∈ stages, s.Done d d) → (∀ a, Within d a → y.eval a ≠ 0) → (divide = true → Known d x → Known d y → ∀ a, Within d a → SignOK (x.eval a) (y.eval a) (out.eval a)) →
      (Known d x → Known d (.simple my) → (∀ a, Within d a → 1 ≤ a my) → Ready d mq (if divide = true then none else some out) → ∀ a, Within d a → 0 ≤ a mq → Checked x mq my a (if divide = true then none else some out)) →
      ∀ a, Within d a → Within root a → Related divide x y out mq my a := by
    intro d hk h1 h2 h3 h4 a ha hr
    have kx := hk x (by simp); have ky := hk y (by simp); have kout := hk out (by simp)
    have hsp : ∀ b, Within d b → ∀ s ∈ specs divide x y out mq my, s.Holds b := by
      intro b hb s hs
      obtain ⟨t, ht, hmade⟩ := hst.2 s hs
      obtain ⟨w, hw⟩ := hpc s hs
      exact hmade.settled_but w hw.le (fun g e => hk _ (hw.gates g e)) (fun u hu => (hw.sums u hu).imp id fun h => hk _ h) (h1 t ht) b hb
    have hmy : ∀ b, Within d b → b my = (y.eval b).natAbs := fun b hb => by
      have := (specs_holds.1 (hsp b hb)).1; have := h2 b hb; omega
    have kmy : Known d (.simple my) := fun b c hb hc => by
      show b my = c my
      rw [hmy b hb, hmy c hc, ky b c hb hc]
    have p1 : ∀ b, Within d b → 1 ≤ b my := fun b hb => by have := hmy b hb; have := h2 b hb; omega
    refine ⟨h2 a ha, hmy a ha, ?_⟩
    split
    · rename_i e
      rw [if_pos e] at h4
      have hmq : ∀ b, Within d b → b mq = (out.eval b).natAbs := fun b hb => by
        have := (specs_holds.1 (hsp b hb)).2; rw [if_pos e] at this; omega
      have := h4 kx kmy p1 (fun b c hb hc => by show b mq = c mq; rw [hmq b hb, hmq c hc, kout b c hb hc]) a ha (hpos a hr)
      exact ⟨(divide_iff (hmq a ha) (hmy a ha) (h2 a ha)).2 ⟨this, h3 e kx ky a ha⟩, hmq a ha⟩
    · rename_i e
      rw [if_neg e] at h4
      have h5 := (specs_holds.1 (hsp a ha)).2
      rw [if_neg e] at h5
      obtain ⟨h6, h7⟩ := h4 kx kmy p1 kout a ha (hpos a hr)
      exact modulus_of_rows (hmy a ha) (h2 a ha) h6 h7 h5.1 h5.2.1 h5.2.2.1 h5.2.2.2
  intro d hd hl
  refine ver_mono (fun ps d' h => ?_) _ _ (ver_facts _ _ hd hl (ver_untilQuietOr (J := { n, m, R, C := fun s => Within root s ∧ Related divide x y out mq my s }) (fun _ => True)
    (fun d => (∀ s ∈ stages, s.Done d d) ∧ (∀ a, Within d a → y.eval a ≠ 0) ∧ (divide = true → Known d x → Known d y → ∀ a, Within d a → SignOK (x.eval a) (y.eval a) (out.eval a)) ∧
      (Known d x → Known d (.simple my) → (∀ a, Within d a → 1 ≤ a my) → Ready d mq (if divide = true then none else some out) → ∀ a, Within d a → 0 ≤ a mq → Checked x mq my a (if divide = true then none else some out)))
    (fun d hd hl _ => ?_) hd hl trivial))
  · obtain ⟨⟨_, _, hs⟩, hps, -, h1, h2, h3, h4⟩ := h
    exact .intro (fun hk a ha hr => final d' (fun x hx => (hk x hx).sub hs) h1 h2 h3 h4 a ha hr) (fun _ hk a ha hr => final d' hk h1 h2 h3 h4 a ha hr) (fun e => by rw [hps] at e; cases e)
  · refine ver_seq (S := fun _ => False) hd hl (fun _ h => h) (avoidZero_ver ho hd hl hy fun a h => h.2.1) fun _ d1 hd1 hl1 s1 q1 => ?_
    refine ver_seq (S := fun _ => False) (Q' := fun _ d2 => divide = true → Known d1 x → Known d1 y → ∀ a, Within d2 a → Within d1 a → SignOK (x.eval a) (y.eval a) (out.eval a)) hd1 hl1 (fun _ h => h)
      (ver_onlyIf (fun e => ver_mono (fun _ _ h _ => h) _ _ (pinSign_ver ho hd1 hl1 hx hy hout fun a h => ?_)) fun e e' => absurd e' e) fun _ d2 hd2 hl2 s2 q2 => ?_
    · obtain ⟨-, h1, h2, h3⟩ := h
      rw [if_pos e] at h3
      exact ((divide_iff h3.2 h2 h1).1 h3.1).2
    refine ver_unless hd2 hl2 (all_ver ho stages d2 (fun t ht => ?_) (fun a h t ht => ?_) hd2 hl2) rfl fun d3 hd3 hl3 s3 q3 => ?_
    · obtain ⟨s, hs, hmade⟩ := hst.1 t ht
      obtain ⟨w, hw⟩ := hpc s hs
      exact hmade.ok hw.ok.gate fun e => by rw [hw.le] at e; cases e
    · obtain ⟨s, hs, hmade⟩ := hst.1 t ht
      exact (hmade.holds a).2 (specs_of_related h.2 s hs)
    refine ver_seq (S := fun _ => False) hd3 hl3 (fun _ h => h) (product_ver (ro := if divide = true then none else some out) ho hd3 hl3 hx hy (fun r e => ?_) hq hm fun a h => rows_of_related h.2) fun _ d4 hd4 hl4 s4 q4 => ?_
    · split at e
      · cases e
      · cases e; exact hout
    refine ⟨rfl, trivial, ?_⟩
    rintro rfl
    have t1 : ∀ a, Within d4 a → Within d3 a := s4
    have u3 : ∀ a, Within d3 a → Within d4 a := fun a ha => s1 a (s2 a (s3 a ha))
    refine ⟨fun s hs => (q3 s hs).mono (fun a ha => s1 a (s2 a ha)) t1, fun a ha => q1 a (s2 a (s3 a (t1 a ha))), fun e kx ky a ha => q2 e (kx.sub s1) (ky.sub s1) a (s3 a (t1 a ha)) (s2 a (s3 a (t1 a ha))), fun kx km hp hr => ?_⟩
    refine q4 (kx.sub u3) (km.sub u3) (fun a ha => hp a (u3 a ha)) ?_
    revert hr
    cases divide with
    | true => exact fun h => Known.sub h u3
    | false => exact fun h => Known.sub h u3

/-! ## Installing -/

theorem install_roo (ho : R .overflow) (hd : DomsOK root) (hl : root.length = n) (hx : x.Valid n) (hy : y.Valid n) (hout : out.Valid n)
    (halloc : y ≠ .const 0 → mq < n ∧ my < n ∧ (∀ a, Within root a → 0 ≤ a mq) ∧ ∃ p, magnitudes divide x y out root = .ok p) :
    RightOrOverflow (install (σ := σ) (μ := μ) divide x y out mq my root) (Posts n m R root (Related divide x y out mq my) [x, y, out]) := by
  unfold install
  split
  · rename_i e
    refine (bounds_roo hd (hl ▸ hx)).bind fun _ _ => .pure (AllDifferent.refuse_ok fun a _ h => h.1 ?_)
    rw [e]; rfl
  · rename_i e
    obtain ⟨hq, hm, hpos, p, hp⟩ := halloc e
    rw [hp]
    refine (make_roo (n := n) _ fun s hs => ?_).bind fun stages hst => .pure ?_
    · obtain ⟨w, hw⟩ := specs_pieces (divide := divide) (mq := mq) (my := my) hx hy hout hq hm s hs
      exact hw.ok
    · refine Linear.posts_prop (fun _ _ => Iff.rfl) (prop_enforces ho hx hy hout hq hm hpos hst) (fun _ h => h) ?_ rfl
      intro v hv
      exact Multiply.wakes_watched [x, y, out, .simple mq, .simple my] v (by simp only [List.mem_cons, List.not_mem_nil, or_false] at hv ⊢; rcases hv with h | h | h <;> simp [h])

end
end DivMod
end Gcs
