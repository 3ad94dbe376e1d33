import Verif.Lemmas.Cons.PowerTable
import Verif.Props.Cons.Tabulated

/-!
# C40: powers

`Power(base, exponent, result)` with a constant exponent is right at every consistency level, except where equalities between things that are not variables are not checked, and except for one exponent. With an exponent that is
not a constant it is a table of all powers, which is exact. The power is that of `powSpec`: for negative exponents it is rounded towards zero, and does not exist if the base is zero.
-/

namespace Gcs
open IntervalSet Tabulation

section
variable {σ μ : Type} {n m : Nat} {R : Err → Prop} {root : Doms} {s : Nat} {fresh : Nat → Bool} {cache : Nat → Nat → Int → Option Nat} {z0 : List σ} {limit : Int} {level : Level}
variable {base exponent result : VarId} {k : Int} {aux : List Nat}

/-! ## Constraints with variables of their own that make tables -/

variable {c : Posted σ μ} {tab : Doms → Chk (Option (List VarId × List (List (Option Int))))} {C : Asg → Prop}

/-- What a constraint means, if it has other variables of its own besides the selector. -/
theorem Tabulation.posted_means_hidden {hid all : Nat → Prop} {P0 P : Asg → Prop} (ht : ∀ p, tab root = .ok (some p) → Tabulates root c.about C p) (hs : Selects root c.about (tab root) s) (hall : all s) (hne : ¬ hid s)
    (hhid : ∀ v, hid v → all v) (hoff : ∀ v ∈ c.about, ∀ i, v.underlyingIndex = some i → ¬ all i) (hb : Means root hid all c P0)
    (hP : ∀ a, Within root a → (P a ↔ P0 a ∧ ((∃ p, tab root = .ok (some p)) → C a))) :
    Means root (fun v => hid v ∨ v = s) all (posted root c tab s fresh cache) P := by
  have hbase : ∀ a b, (∀ v, v ≠ s → a v = b v) → (c.holds a ↔ c.holds b) := fun a b h => hb.ignores a b fun v hv => h v fun e => hv ⟨e ▸ hall, e ▸ hne⟩
  by_cases hsome : ∃ p, tab root = .ok (some p)
  · obtain ⟨p, hp⟩ := hsome
    have hq : ∀ a, (∀ q, tab root = .ok (some q) → Selected q.2 q.1 (.simple s) a) ↔ Selected p.2 p.1 (.simple s) a := by intro a; rw [hp]; simp
    have e : root[s]? = some (root[s]'hs.lt) := List.getElem?_eq_getElem hs.lt
    have hm := table_means (σ := σ) (μ := μ) (root := root) (fresh := fresh) (cache := cache) (vars := p.1) (tuples := p.2) (all := all) e (fun hne k => hs.values p hp hne _ e k) hall
      (fun v hv => hoff v ((ht p hp).about v hv))
    have hsel : ∀ a b, a s = b s → (∀ v, ¬ all v → a v = b v) → (Selected p.2 p.1 (.simple s) a ↔ Selected p.2 p.1 (.simple s) b) := fun a b h1 h2 => hm.ignores a b fun v hv => by
      by_cases h : all v
      · by_cases h' : v = s
        · rw [h']; exact h1
        · exact absurd ⟨h, h'⟩ hv
      · exact h2 v h
    refine ⟨fun a b hab => ?_, fun a ha => ?_⟩
    · dsimp only
      rw [hq, hq, hsel a b (hab s fun h => h.2 (.inr rfl)) fun v hv => hab v fun h => hv h.1]
      refine and_congr_left fun _ => ?_
      refine (hbase a (fun v => if v = s then b s else a v) fun v hv => (if_neg hv).symm).trans (hb.ignores _ _ fun v hv => ?_)
      by_cases h : v = s
      · rw [if_pos h, h]
      · rw [if_neg h]; exact hab v fun h' => hv ⟨h'.1, fun h2 => h'.2 (.inl h2)⟩
    · rw [hP a ha]
      constructor
      · rintro ⟨h1, h2⟩
        obtain ⟨b1, k1, k2, k3⟩ := (hb.iff a ha).1 h1
        obtain ⟨b2, l1, l2, l3⟩ := (hm.iff a ha).1 (((ht p hp).exact a ha).2 (h2 ⟨p, hp⟩))
        refine ⟨fun v => if v = s then b2 s else b1 v, fun v hv => ?_, fun v d hd => ?_, ?_, (hq _).2 ?_⟩
        · dsimp only
          rw [if_neg fun h => hv (.inr h)]; exact k1 v fun h => hv (.inl h)
        · by_cases h : v = s
          · subst h; simp only [if_true]; exact l2 _ d hd
          · simp only [if_neg h]; exact k2 v d hd
        · exact (hbase b1 _ fun v hv => (if_neg hv).symm).1 k3
        · refine (hsel b2 _ (by simp) fun v hv => ?_).1 l3
          have h : v ≠ s := fun e => hv (e ▸ hall)
          rw [if_neg h, l1 v h, k1 v fun h => hv (hhid v h)]
      · rintro ⟨b, k1, k2, k3, k4⟩
        refine ⟨(hb.iff a ha).2 ⟨fun v => if v = s then a s else b v, fun v hv => ?_, fun v d hd => ?_, (hbase b _ fun v hv => (if_neg hv).symm).1 k3⟩, fun _ => ((ht p hp).exact a ha).1 ((hm.iff a ha).2 ⟨fun v => if v = s then b s else a v, fun v hv => if_neg hv, fun v d hd => ?_, ?_⟩)⟩
        · by_cases h : v = s
          · simp only [h, if_true]
          · simp only [if_neg h]; exact k1 v fun h' => h'.elim hv h
        · by_cases h : v = s
          · subst h; simp only [if_true]; exact ha _ d hd
          · simp only [if_neg h]; exact k2 v d hd
        · by_cases h : v = s
          · subst h; simp only [if_true]; exact k2 _ d hd
          · simp only [if_neg h]; exact ha v d hd
        · refine (hsel b _ (by simp) fun v hv => ?_).1 ((hq b).1 k4)
          have h : v ≠ s := fun e => hv (e ▸ hall)
          simp only [if_neg h]
          exact k1 v fun h' => h'.elim (fun h' => hv (hhid v h')) h
  · have hq : ∀ a q, tab root = .ok (some q) → Selected q.2 q.1 (.simple s) a := fun a q h => absurd ⟨q, h⟩ hsome
    refine ⟨fun a b hab => ?_, fun a ha => ?_⟩
    · have : c.holds a ↔ c.holds b := by
        refine (hbase a (fun v => if v = s then b s else a v) fun v hv => (if_neg hv).symm).trans (hb.ignores _ _ fun v hv => ?_)
        by_cases h : v = s
        · rw [if_pos h, h]
        · rw [if_neg h]; exact hab v fun h' => hv ⟨h'.1, fun h2 => h'.2 (.inl h2)⟩
      exact ⟨fun h => ⟨this.1 h.1, hq b⟩, fun h => ⟨this.2 h.1, hq a⟩⟩
    · rw [hP a ha]
      constructor
      · rintro ⟨h1, _⟩
        obtain ⟨b, k1, k2, k3⟩ := (hb.iff a ha).1 h1
        exact ⟨b, fun v hv => k1 v fun h => hv (.inl h), k2, k3, hq b⟩
      · rintro ⟨b, k1, k2, k3, _⟩
        refine ⟨(hb.iff a ha).2 ⟨fun v => if v = s then a s else b v, fun v hv => ?_, fun v d hd => ?_, (hbase b _ fun v hv => (if_neg hv).symm).1 k3⟩, fun h => absurd h hsome⟩
        · by_cases h : v = s
          · simp only [h, if_true]
          · simp only [if_neg h]; exact k1 v fun h' => h'.elim hv h
        · by_cases h : v = s
          · subst h; simp only [if_true]; exact ha _ d hd
          · simp only [if_neg h]; exact k2 v d hd

/-! ## Constant exponents -/

/-- `Power(base, k, result)` at a consistency level, as a constraint on the operands, the variables for intermediate powers, and the selector of its table. -/
abbrev Power.posted (limit : Int) (level : Level) (root : Doms) (s : Nat) (base result : VarId) (k : Int) (aux : List Nat) (fresh : Nat → Bool) (cache : Nat → Nat → Int → Option Nat) : Posted σ μ :=
  ⟨Power.installAt limit level (.simple s) base result k aux fresh cache,
   fun a => Power.Powers base result k aux a ∧ ∀ p, Power.tableAt limit level base result k root = .ok (some p) → Selected p.2 p.1 (.simple s) a, operands base base result⟩

/-- Variables for intermediate powers are as `Power` makes them: there is one for each of the exponents between 1 and `k` if there are multiplications, with the bounds that are computed for it, and neither the base nor the result is
one of them, or a view of one. -/
structure Power.Allocated (root : Doms) (base result : VarId) (k : Int) (aux : List Nat) : Prop where
  length : aux.length = if Chained base k then k.toNat - 2 else 0
  nodup : aux.Nodup
  lt : ∀ i ∈ aux, i < root.length
  off : ∀ v ∈ [base, result], ∀ i, v.underlyingIndex = some i → i ∉ aux
  values : ∀ rs, ranges base result k root = .ok rs → ∀ (i v : Nat), aux[i]? = some v → ∃ r d, rs[i]? = some r ∧ root[v]? = some d ∧ ∀ x, Mem x d ↔ r.1 ≤ x ∧ x ≤ r.2

theorem Power.mem_operands {v : VarId} (hv : v ∈ [base, result]) : v ∈ operands base base result := by
  simp only [List.mem_cons, List.not_mem_nil, or_false] at hv
  rcases hv with rfl | rfl <;> simp

/-- C40 for `Power(base, k, result)` with a constant exponent, in part, at every consistency level. Missing: equalities between constants, or between views of the same variable, one of which is always less than the other
(`power_constants_unchecked`, `power_zero_unchecked`, `power_one_unchecked` show that these are not checked properly), and the result -2^63 for the exponent 63 (`power_63_loses`). The only exceptions are overflows. -/
theorem power_right_partial (ho : R .overflow) (hd : DomsOK root) (hb : base.Valid root.length) (hr : result.Valid root.length) (hres : ∀ a, Within root a → InI64 (result.eval a)) (haux : Power.Allocated root base result k aux)
    (hopen : Power.Open base result k) (h63 : k = 63 → base.isConst = false → ∀ a, Within root a → result.eval a ≠ i64Min) (hs : Selects root (operands base base result) (Power.tableAt limit level base result k root) s) :
    (Power.posted (σ := σ) (μ := μ) limit level root s base result k aux fresh cache).Serves root.length m R root z0 (fun _ => False) ∧
    ∀ e, Power.installAt (σ := σ) (μ := μ) limit level (.simple s) base result k aux fresh cache root = .error e → e = .overflow := by
  have hi := Power.install_roo (σ := σ) (μ := μ) (m := m) (k := k) ho hd rfl hb hr hres hopen haux.length haux.lt h63
  have ht := Power.tableAt_roo (k := k) (limit := limit) (level := level) hd hb hr
  refine ⟨posted_serves (base := ⟨Power.install base result k aux, Power.Powers base result k aux, operands base base result⟩) (tab := Power.tableAt limit level base result k) ho
    (fun its e => Posts.mono (hi.value e) fun v hv => Power.mem_operands hv) (fun p hp => ht.value hp p rfl) hs, fun e he => ?_⟩
  rcases addTable_error (base := ⟨Power.install base result k aux, Power.Powers base result k aux, operands base base result⟩) (tab := Power.tableAt limit level base result k) he with h | h
  · exact overflows ht h
  · exact overflows hi h

/-- If the result is a variable, or a view of one, that the base is not, equalities are not between such things. -/
theorem Power.open_of_var {j : Nat} (h : result.underlyingIndex = some j) (hb : base.underlyingIndex ≠ some j) : Power.Open base result k := by
  have big : ∀ w : Int, ∃ x : Int, ∀ a : Asg, a j = x → w ≤ result.eval a := by
    intro w
    cases result with
    | const c => cases h
    | simple i => cases h; exact ⟨w, fun a e => by simp only [VarId.eval]; omega⟩
    | view i ng c =>
      cases h
      cases ng
      · exact ⟨w - c, fun a e => by simp only [VarId.eval, Bool.false_eq_true, if_false]; omega⟩
      · exact ⟨c - w, fun a e => by simp only [VarId.eval, if_true]; omega⟩
  have small : ∀ w : Int, ∃ x : Int, ∀ a : Asg, a j = x → result.eval a ≤ w := by
    intro w
    cases result with
    | const c => cases h
    | simple i => cases h; exact ⟨w, fun a e => by simp only [VarId.eval]; omega⟩
    | view i ng c =>
      cases h
      cases ng
      · exact ⟨w - c, fun a e => by simp only [VarId.eval, Bool.false_eq_true, if_false]; omega⟩
      · exact ⟨c - w, fun a e => by simp only [VarId.eval, if_true]; omega⟩
  have hk : k = 1 → ∃ a, result.eval a ≤ base.eval a := by
    intro _
    obtain ⟨x, hx⟩ := small (base.eval fun _ => 0)
    refine ⟨fun i => if i = j then x else 0, ?_⟩
    have : base.eval (fun i => if i = j then x else 0) = base.eval fun _ => 0 := VarId.eval_congr fun i hi => if_neg fun (e : i = j) => hb (e ▸ hi)
    rw [this]
    exact hx _ (if_pos rfl)
  have hv : ∀ v : Int, ∃ a, v ≤ result.eval a := fun v => by
    obtain ⟨x, hx⟩ := big v
    exact ⟨fun _ => x, hx _ rfl⟩
  cases base with
  | const b => exact fun v _ => hv v
  | simple i => exact ⟨fun _ => hv 1, hk⟩
  | view i ng c => exact ⟨fun _ => hv 1, hk⟩

theorem Power.idxOf_nodup : ∀ {l : List Nat} {i v : Nat}, l.Nodup → l[i]? = some v → l.idxOf? v = some i
  | [], i, v, _, h => by simp at h
  | x :: l, 0, v, _, h => by
    simp only [List.getElem?_cons_zero, Option.some.injEq] at h
    simp [List.idxOf?_cons, h]
  | x :: l, i + 1, v, hn, h => by
    simp only [List.getElem?_cons_succ] at h
    have hx : x ≠ v := fun e => (List.nodup_cons.1 hn).1 (e ▸ List.mem_of_getElem? h)
    simp [List.idxOf?_cons, hx, idxOf_nodup (List.nodup_cons.1 hn).2 h]

/-- C40: without its own variables, `Power(base, k, result)` means that the result is the power, at every consistency level. -/
theorem power_means {all : Nat → Prop} (hd : DomsOK root) (hb : base.Valid root.length) (hr : result.Valid root.length) (hres : ∀ a, Within root a → InI64 (result.eval a)) (haux : Power.Allocated root base result k aux)
    (hrange : ∃ rs, Power.ranges base result k root = .ok rs) (hs : Selects root (operands base base result) (Power.tableAt limit level base result k root) s) (hall : all s) (hsaux : s ∉ aux) (hauxall : ∀ i ∈ aux, all i)
    (hoff : ∀ v ∈ [base, result], ∀ i, v.underlyingIndex = some i → ¬ all i) :
    Means root (fun v => v ∈ aux ∨ v = s) all (Power.posted (σ := σ) (μ := μ) limit level root s base result k aux fresh cache) (fun a => powSpec (base.eval a) k = some (result.eval a)) := by
  have hoff3 : ∀ v ∈ [base, base, result], ∀ i, v.underlyingIndex = some i → ¬ all i := fun v hv => hoff v (by simpa using hv)
  have ht := Power.tableAt_roo (k := k) (limit := limit) (level := level) hd hb hr
  refine posted_means_hidden (c := ⟨Power.install base result k aux, Power.Powers base result k aux, operands base base result⟩) (tab := Power.tableAt limit level base result k) (hid := (· ∈ aux))
    (fun p hp => ht.value hp p rfl) hs hall hsaux hauxall (off_operands hoff3) ?_ (P0 := fun a => powSpec (base.eval a) k = some (result.eval a)) fun a ha => ⟨fun h => ⟨h, fun _ => ⟨hres a ha, h⟩⟩, fun h => h.1⟩
  obtain ⟨rs, hrs⟩ := hrange
  refine ⟨fun a b hab => ?_, fun a ha => ?_⟩
  · have e : ∀ v ∈ [base, result], v.eval a = v.eval b := fun v hv => VarId.eval_congr fun i hi => hab i fun h => hoff v hv i hi h.1
    have ea : ∀ v, v ∈ aux → a v = b v := fun v hv => hab v fun h => h.2 hv
    dsimp only [Power.Powers]
    rw [e base (by simp), e result (by simp)]
    refine and_congr_right fun _ => forall_congr' fun i => forall_congr' fun v => ?_
    exact ⟨fun h hv => (ea v (List.mem_of_getElem? hv)).symm.trans (h hv), fun h hv => (ea v (List.mem_of_getElem? hv)).trans (h hv)⟩
  · have same : ∀ b, AgreeOff (· ∈ aux) b a → ∀ v ∈ [base, result], v.eval b = v.eval a := fun b hb v hv => VarId.eval_congr fun i hi => hb i (haux.off v hv i hi)
    constructor
    · intro h
      let b : Asg := fun v => match aux.idxOf? v with | some i => base.eval a ^ (i + 2) | none => a v
      have hb1 : AgreeOff (· ∈ aux) b a := fun v hv => by simp only [b, List.idxOf?_eq_none_iff.2 hv]
      have hb2 : ∀ (i v : Nat), aux[i]? = some v → b v = base.eval a ^ (i + 2) := fun i v hv => by
        have : aux.idxOf? v = some i := Power.idxOf_nodup haux.nodup hv
        simp only [b, this]
      refine ⟨b, hb1, fun v d hv => ?_, ?_, fun i v hv => ?_⟩
      · by_cases hm : v ∈ aux
        · obtain ⟨i, hi⟩ := List.mem_iff_getElem?.1 hm
          obtain ⟨r, d', h1, h2, h3⟩ := haux.values rs hrs i v hi
          rw [hv] at h2; cases h2
          rw [hb2 i v hi]
          exact (h3 _).2 (Power.ranges_room hd hb hr hrs ha h i r h1)
        · rw [hb1 v hm]; exact ha v d hv
      · rw [same b hb1 base (by simp), same b hb1 result (by simp)]; exact h
      · rw [hb2 i v hv, same b hb1 base (by simp)]
    · rintro ⟨b, h1, h2, h3, _⟩
      rw [same b h1 base (by simp), same b h1 result (by simp)] at h3
      exact h3

/-! ## Other exponents -/

/-- C40 for `Power(base, exponent, result)` with an exponent that is not a constant: what is installed is a table of powers, over the three operands and a selector. -/
theorem powerTable_right {sel : VarId} {ts : List (List (Option Int))} (ho : R .overflow) (hd : DomsOK root) (hb : base.Valid root.length) (he : exponent.Valid root.length) (hr : result.Valid root.length) (hres : ∀ a, Within root a → InI64 (result.eval a))
    (hts : Power.tuples base exponent result root = .ok ts) (hs : sel.Valid root.length) (hsel : ts ≠ [] → ∀ a, Within root a → 0 ≤ sel.eval a ∧ sel.eval a < ts.length) :
    (Posted.mk (Power.installTable (σ := σ) (μ := μ) sel base exponent result fresh cache) (Selected ts [base, exponent, result] sel) [base, exponent, result]).Serves root.length m R root z0 (fun _ => False) ∧
    ∃ items, Power.installTable (σ := σ) (μ := μ) sel base exponent result fresh cache root = .ok items := by
  have hx := (Power.tuples_roo hd hb he hr hres).value hts
  have hv : ∀ v ∈ [base, exponent, result], v.Valid root.length := by
    intro v hv
    simp only [List.mem_cons, List.not_mem_nil, or_false] at hv
    rcases hv with rfl | rfl | rfl <;> assumption
  have e : Power.installTable (σ := σ) (μ := μ) sel base exponent result fresh cache root = Table.install sel [base, exponent, result] ts fresh cache := by
    rw [Power.installTable, hts]; rfl
  obtain ⟨h1, h2⟩ := table_right (σ := σ) (μ := μ) (m := m) (z0 := z0) (fresh := fresh) (cache := cache) ho hs hv hx.1.inI64 hsel
  refine ⟨fun items hi => h1 items (e.symm.trans hi), ?_⟩
  rw [e]
  cases hi : Table.install (σ := σ) (μ := μ) sel [base, exponent, result] ts fresh cache with
  | ok items => exact ⟨items, rfl⟩
  | error er =>
    obtain ⟨-, t, ht, hl⟩ := h2 er hi
    exact absurd (hx.1.width t ht) hl

/-- Making the table throws nothing but overflows. -/
theorem powerTable_throws {e : Err} (hd : DomsOK root) (hb : base.Valid root.length) (he : exponent.Valid root.length) (hr : result.Valid root.length) (hres : ∀ a, Within root a → InI64 (result.eval a))
    (h : Power.tuples base exponent result root = .error e) : e = .overflow := overflows (Power.tuples_roo hd hb he hr hres) h

/-- C40: without its selector, it means that the result is the power. -/
theorem powerTable_means {all : Nat → Prop} {sd : IntervalSet} {ts : List (List (Option Int))} (hd : DomsOK root) (hb : base.Valid root.length) (he : exponent.Valid root.length) (hr : result.Valid root.length) (hres : ∀ a, Within root a → InI64 (result.eval a))
    (hts : Power.tuples base exponent result root = .ok ts) (hs : root[s]? = some sd) (hsd : ts ≠ [] → ∀ k : Int, Mem k sd ↔ 0 ≤ k ∧ k < ts.length) (hall : all s)
    (hoff : ∀ v ∈ [base, exponent, result], ∀ i, v.underlyingIndex = some i → ¬ all i) :
    Means root (· = s) all (Posted.mk (Power.installTable (σ := σ) (μ := μ) (.simple s) base exponent result fresh cache) (Selected ts [base, exponent, result] (.simple s)) [base, exponent, result])
      (fun a => powSpec (base.eval a) (exponent.eval a) = some (result.eval a)) := by
  have hx := (Power.tuples_roo hd hb he hr hres).value hts
  have hm := table_means (σ := σ) (μ := μ) (root := root) (fresh := fresh) (cache := cache) (vars := [base, exponent, result]) (tuples := ts) (all := all) hs hsd hall hoff
  exact ⟨hm.ignores, fun a ha => (hx.2 a ha).symm.trans (hm.iff a ha)⟩

end

/-! ## What is not checked, and what is lost -/

namespace Power.Demo

/-- A power of constants that is too small a number is accepted: 2 ^ 3 = 5. -/
theorem power_constants_unchecked : powSpec 2 3 = some 8 ∧ Run.run [[(0, 1)]] [Power.install (.const 2) (.const 5) 3 []] = some ([[[(0, 0)]], [[(1, 1)]]], true) := by decide +kernel

/-- So is x ^ 0 = 0. -/
theorem power_zero_unchecked : (∀ x : Int, powSpec x 0 = some 1) ∧ Run.run [[(0, 1)]] [Power.install (.simple 0) (.const 0) 0 []] = some ([[[(0, 0)]], [[(1, 1)]]], true) :=
  ⟨fun x => by simp [powSpec], by decide +kernel⟩

/-- And x ^ 1 = x + 5. -/
theorem power_one_unchecked : (∀ x : Int, powSpec x 1 = some x) ∧ Run.run [[(0, 1)]] [Power.install (.simple 0) (.view 0 false 5) 1 []] = some ([[[(0, 0)]], [[(1, 1)]]], true) :=
  ⟨fun x => by simp [powSpec, Int.pow_one], by decide +kernel⟩

/-- (-2) ^ 63 is -2 ^ 63, which fits, but is not found. -/
theorem power_63_loses : powSpec (-2) 63 = some i64Min ∧ InI64 i64Min ∧ Run.run [[(-2, -2), (0, 0)], [(i64Min, i64Min), (0, 0)]] [Power.install (.simple 0) (.simple 1) 63 []] = some ([[[(0, 0)], [(0, 0)]]], true) := by decide +kernel

/-! Cubes: variable 2 is for the square, variable 3 selects a tuple of the table. -/
def start : Doms := [[(-3, 3)], [(-27, 30)], [(-9, 9)], [(0, 6)]]
def fresh : Nat → Bool := fun k => decide (k = 0)
def cache : Nat → Nat → Int → Option Nat := fun _ _ _ => none

theorem start_table : Power.tableAt 100 .auto (.simple 0) (.simple 1) 3 start = .ok (some ([.simple 0, .simple 1],
    [[some (-3), some (-27)], [some (-2), some (-8)], [some (-1), some (-1)], [some 0, some 0], [some 1, some 1], [some 2, some 8], [some 3, some 27]])) := by decide +kernel

theorem start_ranges : Power.ranges (.simple 0) (.simple 1) 3 start = .ok [(-9, 9)] := by decide +kernel

theorem selects : Selects start (operands (.simple 0) (.simple 0) (.simple 1)) (Power.tableAt 100 .auto (.simple 0) (.simple 1) 3 start) 3 where
  lt := by decide
  off := by decide
  values := by
    intro p hp _ sd hsd k
    rw [start_table] at hp; cases hp
    cases hsd
    simp [Mem]; omega

theorem allocated : Power.Allocated start (.simple 0) (.simple 1) 3 [2] where
  length := by decide
  nodup := by decide
  lt := by decide
  off := by rintro v hv i hi; simp at hv; rcases hv with rfl | rfl <;> cases hi <;> decide
  values := by
    intro rs hrs i v hv
    rw [start_ranges] at hrs; cases hrs
    cases i with
    | zero => cases hv; exact ⟨(-9, 9), [(-9, 9)], rfl, rfl, fun x => by simp [Mem]⟩
    | succ i => simp at hv

theorem fits : ∀ a, Within start a → InI64 ((VarId.simple 1).eval a) := fun a ha => by
  have := ha 1 _ rfl
  simp [Mem] at this
  simp only [VarId.eval, InI64, i64Min, i64Max]; omega

example : (Power.posted (σ := Unit) (μ := Unit) 100 .auto start 3 (.simple 0) (.simple 1) 3 [2] fresh cache).Serves 4 0 (· = .overflow) start [] (fun _ => False) :=
  (power_right_partial (R := (· = .overflow)) (root := start) rfl (by decide +kernel) (by decide) (by decide) fits allocated (Power.open_of_var (j := 1) rfl (by decide)) (fun h => absurd h (by decide)) selects).1

example : Means start (fun v => v ∈ [2] ∨ v = 3) (fun v => v = 2 ∨ v = 3) (Power.posted (σ := Unit) (μ := Unit) 100 .auto start 3 (.simple 0) (.simple 1) 3 [2] fresh cache) (fun a => powSpec (a 0) 3 = some (a 1)) :=
  power_means (by decide +kernel) (by decide) (by decide) fits allocated ⟨_, start_ranges⟩ selects (.inr rfl) (by decide) (by decide)
    (by rintro v hv i hi; simp at hv; rcases hv with rfl | rfl <;> cases hi <;> decide)

/-- With a table, and without. -/
example : Run.run start [Power.installAt 100 .auto (.simple 3) (.simple 0) (.simple 1) 3 [2] fresh cache] =
    some ([[[(-3, -3)], [(-27, -27)], [(9, 9)], [(0, 0)]], [[(-2, -2)], [(-8, -8)], [(4, 4)], [(1, 1)]], [[(-1, -1)], [(-1, -1)], [(1, 1)], [(2, 2)]], [[(0, 0)], [(0, 0)], [(0, 0)], [(3, 3)]],
      [[(1, 1)], [(1, 1)], [(1, 1)], [(4, 4)]], [[(2, 2)], [(8, 8)], [(4, 4)], [(5, 5)]], [[(3, 3)], [(27, 27)], [(9, 9)], [(6, 6)]]], true) := by decide +kernel
example : Run.run [[(-3, 3)], [(-27, 30)], [(-9, 9)], [(0, 0)]] [Power.installAt 3 .auto (.simple 3) (.simple 0) (.simple 1) 3 [2] fresh cache] =
    some ([[[(-3, -3)], [(-27, -27)], [(9, 9)], [(0, 0)]], [[(-2, -2)], [(-8, -8)], [(4, 4)], [(0, 0)]], [[(-1, -1)], [(-1, -1)], [(1, 1)], [(0, 0)]], [[(0, 0)], [(0, 0)], [(0, 0)], [(0, 0)]],
      [[(1, 1)], [(1, 1)], [(1, 1)], [(0, 0)]], [[(2, 2)], [(8, 8)], [(4, 4)], [(0, 0)]], [[(3, 3)], [(27, 27)], [(9, 9)], [(0, 0)]]], true) := by decide +kernel

/-! All powers, including negative ones. -/
def startT : Doms := [[(0, 2)], [(-1, 1)], [(0, 4)], [(0, 7)]]

def tableT : List (List (Option Int)) := [[some 0, some 0, some 1], [some 0, some 1, some 0], [some 1, some (-1), some 1], [some 1, some 0, some 1], [some 1, some 1, some 1],
    [some 2, some (-1), some 0], [some 2, some 0, some 1], [some 2, some 1, some 2]]

theorem startT_tuples : Power.tuples (.simple 0) (.simple 1) (.simple 2) startT = .ok tableT := by decide +kernel

theorem fitsT : ∀ a, Within startT a → InI64 ((VarId.simple 2).eval a) := fun a ha => by
  have := ha 2 _ rfl
  simp [Mem] at this
  simp only [VarId.eval, InI64, i64Min, i64Max]; omega

example : ∃ items, Power.installTable (σ := Unit) (μ := Unit) (.simple 3) (.simple 0) (.simple 1) (.simple 2) fresh cache startT = .ok items :=
  (powerTable_right (R := (· = .overflow)) (m := 0) (z0 := []) rfl (by decide +kernel) (by decide) (by decide) (by decide) fitsT startT_tuples (by decide) fun _ a ha => by
    have := ha 3 _ rfl
    simp [Mem] at this
    simp only [VarId.eval, tableT, List.length_cons, List.length_nil]; omega).2

example : Means startT (· = 3) (· = 3) (Posted.mk (Power.installTable (σ := Unit) (μ := Unit) (.simple 3) (.simple 0) (.simple 1) (.simple 2) fresh cache) (Selected tableT [.simple 0, .simple 1, .simple 2] (.simple 3)) [.simple 0, .simple 1, .simple 2])
    (fun a => powSpec (a 0) (a 1) = some (a 2)) :=
  powerTable_means (by decide +kernel) (by decide) (by decide) (by decide) fitsT startT_tuples rfl (fun _ k => by simp [Mem, tableT]; omega) rfl
    (by rintro v hv i hi; simp at hv; rcases hv with rfl | rfl | rfl <;> cases hi <;> decide)

end Power.Demo
end Gcs
