import Verif.Lemmas.Cons.DivModTable
import Verif.Lemmas.Cons.TabulationHidden

/-!
# C40: division and remainder

`Divide(x, y, q)` says that `y` is not zero and that `q` is `x / y` rounded towards zero, `Modulus(x, y, r)` that `y` is not zero and that `r` is what remains, with the sign of `x`. These are `Int.tdiv` and `Int.tmod`
(`DivMod.truncated` says what they are in terms of addition and multiplication). Both are right at every consistency level, including with the divisor zero.
-/

namespace Gcs
open IntervalSet Tabulation

/-- Truncated division in elementary terms: quotient and remainder are the only numbers with these properties. -/
theorem DivMod.truncated {x y q r : Int} (hy : y ≠ 0) : x.tdiv y = q ∧ x.tmod y = r ↔ x = q * y + r ∧ r.natAbs < y.natAbs ∧ (0 ≤ x → 0 ≤ r) ∧ (x ≤ 0 → r ≤ 0) := by
  have key : ∀ {q r : Int}, x.tdiv y = q → x.tmod y = r → x = q * y + r ∧ r.natAbs < y.natAbs ∧ (0 ≤ x → 0 ≤ r) ∧ (x ≤ 0 → r ≤ 0) := by
    rintro q r rfl rfl
    obtain ⟨h1, h2, h3, h4, h5⟩ := modulus_rows (A := ((x.tdiv y).natAbs : Int)) rfl hy rfl rfl
    refine ⟨by rw [Int.tmod_def]; grind, by omega, h4, fun h => h5 (by omega)⟩
  constructor
  · rintro ⟨h1, h2⟩; exact key h1 h2
  · rintro ⟨h1, h2, h3, h4⟩
    obtain ⟨k1, k2, k3, k4⟩ := key (q := x.tdiv y) (r := x.tmod y) rfl rfl
    have e : (x.tdiv y - q) * y = r - x.tmod y := by grind
    have hz : x.tdiv y - q = 0 := by
      apply Classical.byContradiction
      intro hne
      have : y.natAbs ≤ (x.tdiv y - q).natAbs * y.natAbs := Nat.le_mul_of_pos_left _ (by omega)
      rw [← Int.natAbs_mul, e] at this
      omega
    rw [hz, Int.zero_mul] at e
    exact ⟨by omega, by omega⟩

section
variable {σ μ : Type} {m : Nat} {R : Err → Prop} {root : Doms} {s : Nat} {fresh : Nat → Bool} {cache : Nat → Nat → Int → Option Nat} {z0 : List σ} {limit : Int} {level : Level} {divide : Bool}
variable {x y out : VarId} {mq my : Nat}

/-- `Divide(x, y, out)` or `Modulus(x, y, out)` at a consistency level, as a constraint on the operands, the variables for magnitudes, and the selector of its table. -/
abbrev DivMod.posted (divide : Bool) (limit : Int) (level : Level) (root : Doms) (s : Nat) (x y out : VarId) (mq my : Nat) (fresh : Nat → Bool) (cache : Nat → Nat → Int → Option Nat) : Posted σ μ :=
  ⟨DivMod.installAt divide limit level (.simple s) x y out mq my fresh cache,
   fun a => DivMod.Related divide x y out mq my a ∧ ∀ p, DivMod.tableAt divide limit level x y out mq root = .ok (some p) → Selected p.2 p.1 (.simple s) a, operands x y out⟩

/-- The variables for magnitudes are as the constraints make them: two different variables with the bounds that are computed for them, and no operand is one of them, or a view of one. -/
structure DivMod.Allocated (divide : Bool) (root : Doms) (x y out : VarId) (mq my : Nat) : Prop where
  lt : mq < root.length ∧ my < root.length
  ne : mq ≠ my
  off : ∀ v ∈ [x, y, out], v.underlyingIndex ≠ some mq ∧ v.underlyingIndex ≠ some my
  values : ∃ p, DivMod.magnitudes divide x y out root = .ok p ∧ (∀ d, root[mq]? = some d → ∀ v : Int, Mem v d ↔ 0 ≤ v ∧ v ≤ p.1) ∧ ∀ d, root[my]? = some d → ∀ v : Int, Mem v d ↔ 0 ≤ v ∧ v ≤ p.2

theorem DivMod.Allocated.pos (h : DivMod.Allocated divide root x y out mq my) : ∀ a, Within root a → 0 ≤ a mq := by
  obtain ⟨p, -, h1, -⟩ := h.values
  intro a ha
  have e : root[mq]? = some (root[mq]'h.lt.1) := List.getElem?_eq_getElem h.lt.1
  exact ((h1 _ e _).1 (ha mq _ e)).1

theorem DivMod.install_serves (ho : R .overflow) (hd : DomsOK root) (hx : x.Valid root.length) (hy : y.Valid root.length) (hout : out.Valid root.length) (halloc : y ≠ .const 0 → DivMod.Allocated divide root x y out mq my) :
    RightOrOverflow (DivMod.install (σ := σ) (μ := μ) divide x y out mq my root) (Posts root.length m R root (DivMod.Related divide x y out mq my) (operands x y out)) := by
  refine (DivMod.install_roo ho hd rfl hx hy hout fun h => ?_).mono fun its h => Posts.mono h fun v hv => List.mem_append_left _ hv
  have := halloc h
  exact ⟨this.lt.1, this.lt.2, this.pos, this.values.imp fun _ h => h.1⟩

/-- The two sorts of exception: overflows, and magnitudes of more than 62 bits. -/
theorem divMod_magnitudes (hd : DomsOK root) (hx : x.Valid root.length) (hy : y.Valid root.length) (hout : out.Valid root.length) {e : Err} (h : DivMod.magnitudes divide x y out root = .error e) : e = .overflow ∨ e = .unimplemented :=
  (DivMod.magnitudes_spec hd hx hy hout).2 e h

/-! ## Division -/

theorem DivMod.divide_tableAt (hd : DomsOK root) (hx : x.Valid root.length) (hy : y.Valid root.length) (hout : out.Valid root.length) :
    RightOrOverflow (DivMod.tableAt true limit level x y out mq root) (fun o => ∀ q, o = some q → Tabulates root (operands x y out) (fun a => InI64 (out.eval a) ∧ y.eval a ≠ 0 ∧ (x.eval a).tdiv (y.eval a) = out.eval a) q) := by
  unfold DivMod.tableAt
  split
  · exact .pure fun q h => by cases h
  · exact DivMod.divide_table_roo hd hx hy hout

/-- C40 for `Divide`, at every consistency level. Once there are variables for magnitudes, the only exceptions are overflows. -/
theorem divide_right (ho : R .overflow) (hd : DomsOK root) (hx : x.Valid root.length) (hy : y.Valid root.length) (hout : out.Valid root.length) (halloc : y ≠ .const 0 → DivMod.Allocated true root x y out mq my)
    (hs : Selects root (operands x y out) (DivMod.tableAt true limit level x y out mq root) s) :
    (DivMod.posted (σ := σ) (μ := μ) true limit level root s x y out mq my fresh cache).Serves root.length m R root z0 (fun _ => False) ∧
    ∀ e, DivMod.installAt (σ := σ) (μ := μ) true limit level (.simple s) x y out mq my fresh cache root = .error e → e = .overflow := by
  have hi := DivMod.install_serves (σ := σ) (μ := μ) (m := m) ho hd hx hy hout halloc
  have ht := DivMod.divide_tableAt (limit := limit) (level := level) (mq := mq) hd hx hy hout
  refine ⟨posted_serves (base := ⟨DivMod.install true x y out mq my, DivMod.Related true x y out mq my, operands x y out⟩) (tab := DivMod.tableAt true limit level x y out mq) ho (fun its e => hi.value e) (fun p hp => ht.value hp p rfl) hs, fun e he => ?_⟩
  rcases addTable_error (base := ⟨DivMod.install true x y out mq my, DivMod.Related true x y out mq my, operands x y out⟩) (tab := DivMod.tableAt true limit level x y out mq) he with h | h
  · exact overflows ht h
  · exact overflows hi h

/-- What the constraints mean without tables. -/
theorem DivMod.base_means {all : Nat → Prop} (hd : DomsOK root) (hx : x.Valid root.length) (hy : y.Valid root.length) (hout : out.Valid root.length) (halloc : y ≠ .const 0 → DivMod.Allocated divide root x y out mq my)
    (hoff : ∀ v ∈ [x, y, out], ∀ i, v.underlyingIndex = some i → ¬ all i) :
    Means root (fun v => v = mq ∨ v = my) all (Posted.mk (DivMod.install (σ := σ) (μ := μ) divide x y out mq my) (DivMod.Related divide x y out mq my) (operands x y out))
      (fun a => y.eval a ≠ 0 ∧ if divide = true then (x.eval a).tdiv (y.eval a) = out.eval a else (x.eval a).tmod (y.eval a) = out.eval a) := by
  refine ⟨fun a b hab => ?_, fun a ha => ?_⟩
  · have e : ∀ v ∈ [x, y, out], v.eval a = v.eval b := fun v hv => VarId.eval_congr fun i hi => hab i fun h => hoff v hv i hi h.1
    dsimp only [DivMod.Related]
    rw [e x (by simp), e y (by simp), e out (by simp), hab mq fun h => h.2 (.inl rfl), hab my fun h => h.2 (.inr rfl)]
  · by_cases hz : y = .const 0
    · subst hz
      exact ⟨fun h => absurd rfl h.1, fun ⟨b, _, _, h⟩ => absurd rfl h.1⟩
    · have hal := halloc hz
      have same : ∀ b, AgreeOff (fun v => v = mq ∨ v = my) b a → ∀ v ∈ [x, y, out], v.eval b = v.eval a := fun b hb v hv => VarId.eval_congr fun i hi => hb i fun h =>
        h.elim (fun h => (hal.off v hv).1 (h ▸ hi)) fun h => (hal.off v hv).2 (h ▸ hi)
      constructor
      · rintro ⟨h0, h1⟩
        obtain ⟨p, hp, hq, hm⟩ := hal.values
        obtain ⟨p1, p2, p3⟩ := (DivMod.magnitudes_spec hd hx hy hout).1 p hp
        obtain ⟨b1, b2, b3⟩ := p3 a ha
        obtain ⟨wq, hw⟩ : ∃ w : Int, w = if divide = true then ((out.eval a).natAbs : Int) else (((x.eval a).tdiv (y.eval a)).natAbs : Int) := ⟨_, rfl⟩
        let b : Asg := alter (alter a mq wq) my (y.eval a).natAbs
        have hb1 : AgreeOff (fun v => v = mq ∨ v = my) b a := fun v hv => by
          show alter _ _ _ _ = _
          unfold alter
          rw [if_neg fun h => hv (.inr h), if_neg fun h => hv (.inl h)]
        have hbq : b mq = wq := by
          show alter _ _ _ _ = _
          unfold alter
          rw [if_neg hal.ne, if_pos rfl]
        have hbm : b my = (y.eval a).natAbs := by
          show alter _ _ _ _ = _
          unfold alter
          rw [if_pos rfl]
        have hwq : 0 ≤ wq ∧ wq ≤ p.1 := by
          cases hdiv : divide with
          | true => rw [if_pos hdiv] at hw; rw [hw]; exact ⟨by omega, b1 hdiv⟩
          | false =>
            rw [if_neg (by simp [hdiv])] at hw
            have := b2 hdiv
            have := Int.natAbs_tdiv_le_natAbs (x.eval a) (y.eval a)
            omega
        refine ⟨b, hb1, fun v d hv => ?_, ?_⟩
        · by_cases h1 : v = mq
          · subst h1; rw [hbq]; exact (hq d hv _).2 hwq
          · by_cases h2 : v = my
            · subst h2; rw [hbm]; exact (hm d hv _).2 ⟨by omega, b3⟩
            · rw [hb1 v fun h => h.elim h1 h2]; exact ha v d hv
        · dsimp only [DivMod.Related]
          rw [same b hb1 x (by simp), same b hb1 y (by simp), same b hb1 out (by simp), hbq, hbm]
          refine ⟨h0, rfl, ?_⟩
          split
          · rename_i e; rw [if_pos e] at h1 hw; exact ⟨h1, hw⟩
          · rename_i e; rw [if_neg e] at h1 hw; exact ⟨h1, hw⟩
      · rintro ⟨b, h1, h2, h3, -, h4⟩
        rw [same b h1 y (by simp)] at h3
        rw [same b h1 x (by simp), same b h1 y (by simp), same b h1 out (by simp)] at h4
        refine ⟨h3, ?_⟩
        split
        · rename_i e; rw [if_pos e] at h4; exact h4.1
        · rename_i e; rw [if_neg e] at h4; exact h4.1

/-- C40: without its own variables, `Divide(x, y, q)` means that the divisor is not zero and `q` is the quotient rounded towards zero, at every consistency level. -/
theorem divide_means {all : Nat → Prop} (hd : DomsOK root) (hx : x.Valid root.length) (hy : y.Valid root.length) (hout : out.Valid root.length) (hres : ∀ a, Within root a → InI64 (out.eval a))
    (halloc : y ≠ .const 0 → DivMod.Allocated true root x y out mq my) (hs : Selects root (operands x y out) (DivMod.tableAt true limit level x y out mq root) s) (hall : all s ∧ all mq ∧ all my) (hne : s ≠ mq ∧ s ≠ my)
    (hoff : ∀ v ∈ [x, y, out], ∀ i, v.underlyingIndex = some i → ¬ all i) :
    Means root (fun v => (v = mq ∨ v = my) ∨ v = s) all (DivMod.posted (σ := σ) (μ := μ) true limit level root s x y out mq my fresh cache) (fun a => y.eval a ≠ 0 ∧ (x.eval a).tdiv (y.eval a) = out.eval a) := by
  have ht := DivMod.divide_tableAt (limit := limit) (level := level) (mq := mq) hd hx hy hout
  refine posted_means_hidden (c := ⟨DivMod.install true x y out mq my, DivMod.Related true x y out mq my, operands x y out⟩) (tab := DivMod.tableAt true limit level x y out mq) (hid := fun v => v = mq ∨ v = my)
    (fun p hp => ht.value hp p rfl) hs hall.1 (fun h => h.elim hne.1 hne.2) (fun v h => h.elim (fun h => h ▸ hall.2.1) fun h => h ▸ hall.2.2) (off_operands hoff) (DivMod.base_means hd hx hy hout halloc hoff) fun a ha => ?_
  rw [if_pos rfl]
  exact ⟨fun h => ⟨h, fun _ => ⟨hres a ha, h⟩⟩, fun h => h.1⟩

/-! ## Remainder -/

theorem DivMod.modulus_tableAt (hd : DomsOK root) (hx : x.Valid root.length) (hy : y.Valid root.length) (hout : out.Valid root.length) (halloc : y ≠ .const 0 → DivMod.Allocated false root x y out mq my) :
    RightOrOverflow (DivMod.tableAt false limit level x y out mq root) (fun o => ∀ q, o = some q → Tabulates root (operands x y out ++ [.simple mq])
      (fun a => y.eval a ≠ 0 ∧ (x.eval a).tmod (y.eval a) = out.eval a ∧ a mq = ((x.eval a).tdiv (y.eval a)).natAbs) q ∧ ∃ ys, q.1 = ys ++ [.simple mq] ∧ ∀ v ∈ ys, v ∈ operands x y out) := by
  unfold DivMod.tableAt
  split
  · exact .pure fun q h => by cases h
  · rename_i h
    have hal := halloc h
    rw [if_neg (by decide)]
    exact (bounds_roo hd hx).bind fun b hb => DivMod.modulus_table_roo hd hx hy hout hal.lt.1 (fun v hv => (hal.off v hv).1) hal.pos hb

/-- C40 for `Modulus`, at every consistency level. -/
theorem modulus_right (ho : R .overflow) (hd : DomsOK root) (hx : x.Valid root.length) (hy : y.Valid root.length) (hout : out.Valid root.length) (halloc : y ≠ .const 0 → DivMod.Allocated false root x y out mq my)
    (hs : Selects root (operands x y out ++ [.simple mq]) (DivMod.tableAt false limit level x y out mq root) s) :
    (DivMod.posted (σ := σ) (μ := μ) false limit level root s x y out mq my fresh cache).Serves root.length m R root z0 (fun _ => False) ∧
    ∀ e, DivMod.installAt (σ := σ) (μ := μ) false limit level (.simple s) x y out mq my fresh cache root = .error e → e = .overflow := by
  have hi := DivMod.install_serves (σ := σ) (μ := μ) (m := m) ho hd hx hy hout halloc
  have ht := DivMod.modulus_tableAt (limit := limit) (level := level) hd hx hy hout halloc
  refine ⟨?_, fun e he => ?_⟩
  · by_cases hz : y = .const 0
    · have hnone : DivMod.tableAt false limit level x y out mq root = .ok none := by unfold DivMod.tableAt; rw [if_pos hz]
      have hs' : Selects root (operands x y out) (DivMod.tableAt false limit level x y out mq root) s := ⟨hs.lt, fun v hv => hs.off v (List.mem_append_left _ hv), hs.values⟩
      exact posted_serves (C := fun _ => True) (base := ⟨DivMod.install false x y out mq my, DivMod.Related false x y out mq my, operands x y out⟩) (tab := DivMod.tableAt false limit level x y out mq) ho (fun its e => hi.value e)
        (fun p hp => by rw [hnone] at hp; cases hp) hs'
    · have hal := halloc hz
      have hap := off_operands (P := (· = mq)) (x := x) (y := y) (z := out) fun v hv i hi e => (hal.off v hv).1 (e ▸ hi)
      refine posted_serves_hidden (base := ⟨DivMod.install false x y out mq my, DivMod.Related false x y out mq my, operands x y out⟩) (tab := DivMod.tableAt false limit level x y out mq) ho (fun its e => hi.value e)
        (fun p hp => ht.value hp p rfl) hs (fun v hv e => hap v hv mq e rfl) fun a w _ _ ha hC => ?_
      have e : ∀ v ∈ [x, y, out], v.eval (alter a mq w) = v.eval a := fun v hv => alter_off (hal.off v hv).1 a w
      have h1 := hC.2.2
      rw [e x (by simp), e y (by simp)] at h1
      have h2 := ha.2.2
      rw [if_neg (by decide)] at h2
      rw [h2.2, ← h1]
      simp [alter]
  · rcases addTable_error (base := ⟨DivMod.install false x y out mq my, DivMod.Related false x y out mq my, operands x y out⟩) (tab := DivMod.tableAt false limit level x y out mq) he with h | h
    · exact overflows ht h
    · exact overflows hi h

/-- C40: without its own variables, `Modulus(x, y, r)` means that the divisor is not zero and `r` is the remainder, with the sign of the dividend, at every consistency level. -/
theorem modulus_means {all : Nat → Prop} (hd : DomsOK root) (hx : x.Valid root.length) (hy : y.Valid root.length) (hout : out.Valid root.length)
    (halloc : y ≠ .const 0 → DivMod.Allocated false root x y out mq my) (hs : Selects root (operands x y out ++ [.simple mq]) (DivMod.tableAt false limit level x y out mq root) s) (hall : all s) (hne : s ≠ mq ∧ s ≠ my)
    (hoff : ∀ v ∈ [x, y, out], ∀ i, v.underlyingIndex = some i → ¬ all i) :
    Means root (fun v => (v = mq ∨ v = my) ∨ v = s) all (DivMod.posted (σ := σ) (μ := μ) false limit level root s x y out mq my fresh cache) (fun a => y.eval a ≠ 0 ∧ (x.eval a).tmod (y.eval a) = out.eval a) := by
  have ht := DivMod.modulus_tableAt (limit := limit) (level := level) hd hx hy hout halloc
  have hb := DivMod.base_means (σ := σ) (μ := μ) (divide := false) hd hx hy hout halloc hoff
  simp only [Bool.false_eq_true, if_false] at hb
  refine posted_means_implied (base := ⟨DivMod.install false x y out mq my, DivMod.Related false x y out mq my, operands x y out⟩) (tab := DivMod.tableAt false limit level x y out mq) (hid := fun v => v = mq ∨ v = my)
    (fun p hp => (ht.value hp p rfl).1) hs hall (fun h => h.elim hne.1 hne.2) (fun v hv i hi => ?_) hb fun a ha h => ?_
  · rcases List.mem_append.1 hv with h | h
    · exact .inl (off_operands hoff v h i hi)
    · rw [List.mem_singleton] at h; subst h; cases hi; exact .inr (.inl rfl)
  · have h2 := h.2.2
    rw [if_neg (by decide)] at h2
    exact ⟨h.1, h2⟩

end

/-! ## Concrete cases -/

namespace DivMod.Demo

example : Int.tdiv (-7) 2 = -3 ∧ Int.tmod (-7) 2 = -1 := (DivMod.truncated (by decide)).2 (by decide)

/-! Variables 0, 1 and 2 are operands, 3 and 4 magnitudes, and 5 selects a tuple. -/
def start : Doms := [[(-3, -2)], [(-2, 1)], [(-3, 3)], [(0, 3)], [(0, 3)], [(0, 5)]]
def fresh : Nat → Bool := fun k => decide (k = 0)
def cache : Nat → Nat → Int → Option Nat := fun _ _ _ => none

theorem divide_table : DivMod.tableAt true 1000 .auto (.simple 0) (.simple 1) (.simple 2) 3 start = .ok (some ([.simple 0, .simple 1, .simple 2],
    [[some (-3), some (-2), some 1], [some (-3), some (-1), some 3], [some (-3), some 1, some (-3)], [some (-2), some (-2), some 1], [some (-2), some (-1), some 2], [some (-2), some 1, some (-2)]])) := by decide +kernel

theorem modulus_table : DivMod.tableAt false 1000 .auto (.simple 0) (.simple 1) (.simple 2) 3 start = .ok (some ([.simple 0, .simple 1, .simple 2, .simple 3],
    [[some (-3), some (-2), some (-1), some 1], [some (-3), some (-1), some 0, some 3], [some (-3), some 1, some 0, some 3], [some (-2), some (-2), some 0, some 1], [some (-2), some (-1), some 0, some 2],
      [some (-2), some 1, some 0, some 2]])) := by decide +kernel

theorem sizes : ∀ divide, DivMod.magnitudes divide (.simple 0) (.simple 1) (.simple 2) start = .ok (3, 3) := by decide +kernel

theorem divide_selects : Selects start (operands (.simple 0) (.simple 1) (.simple 2)) (DivMod.tableAt true 1000 .auto (.simple 0) (.simple 1) (.simple 2) 3 start) 5 where
  lt := by decide
  off := by decide
  values := by
    intro p hp _ sd hsd k
    rw [divide_table] at hp; cases hp
    cases hsd
    simp [Mem]; omega

theorem modulus_selects : Selects start (operands (.simple 0) (.simple 1) (.simple 2) ++ [.simple 3]) (DivMod.tableAt false 1000 .auto (.simple 0) (.simple 1) (.simple 2) 3 start) 5 where
  lt := by decide
  off := by decide
  values := by
    intro p hp _ sd hsd k
    rw [modulus_table] at hp; cases hp
    cases hsd
    simp [Mem]; omega

theorem allocated (divide : Bool) : DivMod.Allocated divide start (.simple 0) (.simple 1) (.simple 2) 3 4 where
  lt := by decide
  ne := by decide
  off := by decide
  values := ⟨(3, 3), sizes divide, fun d hd v => by cases hd; simp [Mem], fun d hd v => by cases hd; simp [Mem]⟩

theorem fits : ∀ a, Within start a → InI64 ((VarId.simple 2).eval a) := fun a ha => by
  have := ha 2 _ rfl
  simp [Mem] at this
  simp only [VarId.eval, InI64, i64Min, i64Max]; omega

theorem apart : ∀ v ∈ [VarId.simple 0, .simple 1, .simple 2], ∀ i, v.underlyingIndex = some i → ¬ (i = 3 ∨ i = 4 ∨ i = 5) := by
  rintro v hv i hi; simp at hv; rcases hv with rfl | rfl | rfl <;> cases hi <;> decide

example : (DivMod.posted (σ := Unit) (μ := Unit) true 1000 .auto start 5 (.simple 0) (.simple 1) (.simple 2) 3 4 fresh cache).Serves 6 0 (· = .overflow) start [] (fun _ => False) :=
  (divide_right (R := (· = .overflow)) (root := start) rfl (by decide +kernel) (by decide) (by decide) (by decide) (fun _ => allocated true) divide_selects).1

example : (DivMod.posted (σ := Unit) (μ := Unit) false 1000 .auto start 5 (.simple 0) (.simple 1) (.simple 2) 3 4 fresh cache).Serves 6 0 (· = .overflow) start [] (fun _ => False) :=
  (modulus_right (R := (· = .overflow)) (root := start) rfl (by decide +kernel) (by decide) (by decide) (by decide) (fun _ => allocated false) modulus_selects).1

example : Means start (fun v => (v = 3 ∨ v = 4) ∨ v = 5) (fun v => v = 3 ∨ v = 4 ∨ v = 5) (DivMod.posted (σ := Unit) (μ := Unit) true 1000 .auto start 5 (.simple 0) (.simple 1) (.simple 2) 3 4 fresh cache)
    (fun a => a 1 ≠ 0 ∧ (a 0).tdiv (a 1) = a 2) :=
  divide_means (by decide +kernel) (by decide) (by decide) (by decide) fits (fun _ => allocated true) divide_selects (by decide) (by decide) apart

example : Means start (fun v => (v = 3 ∨ v = 4) ∨ v = 5) (fun v => v = 3 ∨ v = 4 ∨ v = 5) (DivMod.posted (σ := Unit) (μ := Unit) false 1000 .auto start 5 (.simple 0) (.simple 1) (.simple 2) 3 4 fresh cache)
    (fun a => a 1 ≠ 0 ∧ (a 0).tmod (a 1) = a 2) :=
  modulus_means (by decide +kernel) (by decide) (by decide) (by decide) (fun _ => allocated false) modulus_selects (by decide) (by decide) apart

/-- The exceptions, for magnitudes of 63 bits and for the absolute value of the smallest number. -/
example : DivMod.magnitudes false (.simple 0) (.simple 1) (.simple 2) [[(0, i64Max)], [(1, 2)], [(0, 1)]] = .error .unimplemented ∧
    DivMod.magnitudes false (.simple 0) (.simple 1) (.simple 2) [[(i64Min, 0)], [(1, 2)], [(0, 1)]] = .error .overflow := by decide +kernel

/-- With a table. -/
example : Run.run start [DivMod.installAt true 1000 .auto (.simple 5) (.simple 0) (.simple 1) (.simple 2) 3 4 fresh cache] =
    some ([[[(-3, -3)], [(-2, -2)], [(1, 1)], [(1, 1)], [(2, 2)], [(0, 0)]], [[(-3, -3)], [(-1, -1)], [(3, 3)], [(3, 3)], [(1, 1)], [(1, 1)]], [[(-3, -3)], [(1, 1)], [(-3, -3)], [(3, 3)], [(1, 1)], [(2, 2)]],
      [[(-2, -2)], [(-2, -2)], [(1, 1)], [(1, 1)], [(2, 2)], [(3, 3)]], [[(-2, -2)], [(-1, -1)], [(2, 2)], [(2, 2)], [(1, 1)], [(4, 4)]], [[(-2, -2)], [(1, 1)], [(-2, -2)], [(2, 2)], [(1, 1)], [(5, 5)]]], true) := by
  decide +kernel
/-- Without a table. -/
example : Run.run [[(-3, -2)], [(-2, 1)], [(-3, 3)], [(0, 3)], [(0, 3)], [(0, 0)]] [DivMod.installAt false 1 .auto (.simple 5) (.simple 0) (.simple 1) (.simple 2) 3 4 fresh cache] =
    some ([[[(-3, -3)], [(-2, -2)], [(-1, -1)], [(1, 1)], [(2, 2)], [(0, 0)]], [[(-3, -3)], [(-1, -1)], [(0, 0)], [(3, 3)], [(1, 1)], [(0, 0)]], [[(-3, -3)], [(1, 1)], [(0, 0)], [(3, 3)], [(1, 1)], [(0, 0)]],
      [[(-2, -2)], [(-2, -2)], [(0, 0)], [(1, 1)], [(2, 2)], [(0, 0)]], [[(-2, -2)], [(-1, -1)], [(0, 0)], [(2, 2)], [(1, 1)], [(0, 0)]], [[(-2, -2)], [(1, 1)], [(0, 0)], [(2, 2)], [(1, 1)], [(0, 0)]]], true) := by
  decide +kernel
/-- Nothing is divisible by zero. -/
example : Run.run [[(0, 1)], [(0, 1)]] [DivMod.installAt true 1000 .auto (.simple 5) (.simple 0) (.const 0) (.simple 1) 3 4 fresh cache] = some ([], true) := by decide +kernel

end DivMod.Demo
end Gcs
