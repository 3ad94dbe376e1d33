import Verif.Lemmas.Cons.TabulationInstall
import Verif.Props.Cons.Table
import Verif.Props.Cons.Arithmetic
import Verif.Props.Cons.Multiply

/-!
# C38, C40, C49: constraints that make tables

`Plus`, `Minus` and `Multiply` at every consistency level, and linear equalities with any reification made into a table. The table has a selector, which is a variable of its own. That what is installed is right is said
about the constraint on the selector too; what it means without the selector is said separately.
-/

namespace Gcs
open IntervalSet

section
variable {σ μ : Type} {n m : Nat} {R : Err → Prop} {root : Doms} {s : Nat} {fresh : Nat → Bool} {cache : Nat → Nat → Int → Option Nat} {z0 : List σ}
open Tabulation

/-- A constraint that may add a table, whose selector is variable number `s`. -/
abbrev Tabulation.posted (root : Doms) (base : Posted σ μ) (tab : Doms → Chk (Option (List VarId × List (List (Option Int))))) (s : Nat) (fresh : Nat → Bool) (cache : Nat → Nat → Int → Option Nat) : Posted σ μ :=
  ⟨addTable base.install tab (.simple s) fresh cache, fun a => base.holds a ∧ ∀ p, tab root = .ok (some p) → Selected p.2 p.1 (.simple s) a, base.about⟩

/-- The selector is a variable of which nothing is a view, whose values are the numbers of the tuples if there is a table with tuples. -/
structure Tabulation.Selects (root : Doms) (xs : List VarId) (tab : Chk (Option (List VarId × List (List (Option Int))))) (s : Nat) : Prop where
  lt : s < root.length
  off : ∀ v ∈ xs, v.underlyingIndex ≠ some s
  values : ∀ p, tab = .ok (some p) → p.2 ≠ [] → ∀ sd, root[s]? = some sd → ∀ k : Int, Mem k sd ↔ 0 ≤ k ∧ k < p.2.length

variable {base : Posted σ μ} {tab : Doms → Chk (Option (List VarId × List (List (Option Int))))} {C : Asg → Prop}

theorem Tabulation.Selects.inside {xs : List VarId} (h : Selects root xs (tab root) s) : ∀ p, tab root = .ok (some p) → p.2 ≠ [] → ∀ a, Within root a → 0 ≤ VarId.eval a (.simple s) ∧ VarId.eval a (.simple s) < p.2.length := by
  intro p hp hne a ha
  have e : root[s]? = some (root[s]'h.lt) := List.getElem?_eq_getElem h.lt
  exact (h.values p hp hne _ e _).1 (ha s _ e)

theorem Tabulation.posted_serves (ho : R .overflow) (hb : base.OK root.length m R root) (ht : ∀ p, tab root = .ok (some p) → Tabulates root base.about C p) (hs : Selects root base.about (tab root) s) :
    (posted root base tab s fresh cache).Serves root.length m R root z0 (fun _ => False) := by
  intro items e
  dsimp only [addTable] at e
  cases et : tab root with
  | error er => rw [et] at e; cases e
  | ok o =>
    cases eb : base.install root with
    | error er => rw [et, eb] at e; cases e
    | ok is =>
      rw [et, eb] at e
      cases o with
      | none =>
        cases e
        have := Posted.OK.serves (c := ⟨fun _ => .ok (is ++ []), fun a => base.holds a ∧ ∀ p, tab root = .ok (some p) → Selected p.2 p.1 (.simple s) a, base.about⟩) (n := root.length) (m := m) (R := R) (root := root)
          (fun its e' => by
            cases e'
            rw [List.append_nil]
            exact Posts.congr (hb is eb) fun a => ⟨fun h => ⟨h, fun p hp => by rw [et] at hp; cases hp⟩, fun h => h.1⟩) z0 (fun _ => False)
        exact this _ rfl
      | some p =>
        cases e
        have hp := ht p et
        obtain ⟨I, es, h1, h2⟩ := items_serve (sel := .simple s) (fresh := fresh) (cache := cache) (z0 := z0) (m := m) ho (hb is eb) hs.lt hp.valid hp.about hp.shape
          (fun v hv i h1 h2 => hs.off v (hp.about v hv) (by cases h2; exact h1)) (hs.inside p et)
        refine ⟨I, es, h1, ?_⟩
        have : (fun a => base.holds a ∧ ∀ q, tab root = .ok (some q) → Selected q.2 q.1 (.simple s) a) = fun a => base.holds a ∧ Selected p.2 p.1 (.simple s) a := by
          funext a; rw [et]; simp
        dsimp only
        rw [et] at this ⊢
        rw [this]; exact h2

theorem Tabulation.posted_means {all : Nat → Prop} {P : Asg → Prop} (ht : ∀ p, tab root = .ok (some p) → Tabulates root base.about C p) (hs : Selects root base.about (tab root) s) (hall : all s)
    (hoff : ∀ v ∈ base.about, ∀ i, v.underlyingIndex = some i → ¬ all i) (hig : ∀ a b, AgreeOff all a b → (base.holds a ↔ base.holds b))
    (hP : ∀ a, Within root a → (P a ↔ base.holds a ∧ ((∃ p, tab root = .ok (some p)) → C a))) :
    Means root (· = s) all (posted root base tab s fresh cache) P := by
  by_cases hsome : ∃ p, tab root = .ok (some p)
  · obtain ⟨p, hp⟩ := hsome
    have hq : ∀ a, (∀ q, tab root = .ok (some q) → Selected q.2 q.1 (.simple s) a) ↔ Selected p.2 p.1 (.simple s) a := by intro a; rw [hp]; simp
    have e : root[s]? = some (root[s]'hs.lt) := List.getElem?_eq_getElem hs.lt
    have hm := table_means (σ := σ) (μ := μ) (root := root) (fresh := fresh) (cache := cache) (vars := p.1) (tuples := p.2) (all := all) e (fun hne k => hs.values p hp hne _ e k) hall
      (fun v hv => hoff v ((ht p hp).about v hv))
    refine ⟨fun a b hab => ?_, fun a ha => ?_⟩
    · dsimp only
      rw [hq, hq, hig a b fun v hv => hab v fun h => hv h.1]
      exact and_congr_right fun _ => hm.ignores a b hab
    · rw [hP a ha]
      constructor
      · rintro ⟨h1, h2⟩
        obtain ⟨b, k1, k2, k3⟩ := (hm.iff a ha).1 (((ht p hp).exact a ha).2 (h2 ⟨p, hp⟩))
        exact ⟨b, k1, k2, (hig b a fun v hv => k1 v fun e => hv (e ▸ hall)).2 h1, (hq b).2 k3⟩
      · rintro ⟨b, k1, k2, k3, k4⟩
        exact ⟨(hig b a fun v hv => k1 v fun e => hv (e ▸ hall)).1 k3, fun _ => ((ht p hp).exact a ha).1 ((hm.iff a ha).2 ⟨b, k1, k2, (hq b).1 k4⟩)⟩
  · have hq : ∀ a q, tab root = .ok (some q) → Selected q.2 q.1 (.simple s) a := fun a q h => absurd ⟨q, h⟩ hsome
    refine ⟨fun a b hab => ?_, fun a ha => ?_⟩
    · exact ⟨fun h => ⟨(hig a b fun v hv => hab v fun h => hv h.1).1 h.1, hq b⟩, fun h => ⟨(hig a b fun v hv => hab v fun h => hv h.1).2 h.1, hq a⟩⟩
    · rw [hP a ha]
      constructor
      · exact fun h => ⟨a, fun _ _ => rfl, ha, h.1, hq a⟩
      · rintro ⟨b, k1, k2, k3, _⟩
        exact ⟨(hig b a fun v hv => k1 v fun e => hv (e ▸ hall)).1 k3, fun h => absurd h hsome⟩

theorem Tabulation.addTable_error {e : Err} {sel : VarId} (h : addTable (σ := σ) (μ := μ) base.install tab sel fresh cache root = .error e) : tab root = .error e ∨ base.install root = .error e := by
  unfold addTable at h
  cases et : tab root with
  | error er => rw [et] at h; cases h; exact .inl rfl
  | ok o =>
    cases eb : base.install root with
    | error er => rw [et, eb] at h; cases h; exact .inr rfl
    | ok is => rw [et, eb] at h; cases h

theorem Tabulation.overflows {α : Type} {x : Chk α} {Q : α → Prop} (h : RightOrOverflow x Q) {e : Err} (he : x = .error e) : e = .overflow := by
  rcases h with h | ⟨v, h, _⟩
  · rw [h] at he; cases he; rfl
  · rw [h] at he; cases he

theorem Posted.Serves.congr {c : Posted σ μ} {D : Asg → Prop} (h : c.Serves n m R root z0 (fun _ => False)) (hC : ∀ a, Within root a → (D a ↔ c.holds a)) : (Posted.mk c.install D c.about).Serves n m R root z0 (fun _ => False) := by
  intro items e
  obtain ⟨I, es, h1, h2⟩ := h items e
  refine ⟨I, es, h1, fun p hp => ?_, fun a ha => (hC a ha).trans (h2.together a ha), h2.shrink, h2.only, h2.start⟩
  have := h2.items p hp
  obtain ⟨it, e⟩ := p
  cases it with
  | init _ f => exact fun d hd hl => ver_weaken (J := { n, m, R, C := fun a => Within root a ∧ c.holds a, watch := False }) _ _ (fun a _ h => ⟨h.1, (hC a h.1).1 h.2⟩) (this d hd hl)
  | prop f t =>
    obtain ⟨ys, k1, k2⟩ := this
    exact ⟨ys, k1, k2.wakes, k2.refined, fun d z hd hl hz hi =>
      verS_weaken (J := { n, m, R, C := fun a => Within root a ∧ c.holds a, own := fun _ => False }) _ _ _ (fun a _ h => ⟨h.1, (hC a h.1).1 h.2⟩) (k2.ver d z hd hl hz hi)⟩

theorem Tabulation.ignores {all : Nat → Prop} {xs : List VarId} (hoff : ∀ v ∈ xs, ∀ i, v.underlyingIndex = some i → ¬ all i) {a b : Asg} (hab : AgreeOff all a b) : ∀ v ∈ xs, v.eval a = v.eval b :=
  fun v hv => VarId.eval_congr fun i hi => hab i (hoff v hv i hi)

theorem Tabulation.off_operands {P : Nat → Prop} {x y z : VarId} (h : ∀ v ∈ [x, y, z], ∀ i, v.underlyingIndex = some i → ¬ P i) : ∀ v ∈ operands x y z, ∀ i, v.underlyingIndex = some i → ¬ P i := by
  intro v hv i hi
  rcases List.mem_append.1 hv with hv | hv
  · exact h v hv i hi
  · obtain ⟨j, hj, rfl⟩ := List.mem_map.1 hv
    obtain ⟨w, hw, e⟩ := List.mem_filterMap.1 hj
    cases hi
    exact h w hw _ e

variable {limit : Int} {level : Level} {x y z : VarId}

/-! ## Plus and Minus -/

/-- The table that `Plus` (or, if `sub`, `Minus`) makes when posted with domains `root`, if it makes one. -/
def Tabulation.sumTable (sub : Bool) (limit : Int) (level : Level) (x y z : VarId) (root : Doms) : Chk (Option (List VarId × List (List (Option Int)))) := do (← sumPlan sub x y z).table limit level root

/-- `Plus(x, y, z)` at a consistency level, as a constraint on the operands and the selector of its table. -/
abbrev Plus.posted (limit : Int) (level : Level) (root : Doms) (s : Nat) (x y z : VarId) (fresh : Nat → Bool) (cache : Nat → Nat → Int → Option Nat) : Posted σ μ :=
  ⟨Plus.installAt limit level (.simple s) x y z fresh cache, fun a => x.eval a + y.eval a = z.eval a ∧ ∀ p, sumTable false limit level x y z root = .ok (some p) → Selected p.2 p.1 (.simple s) a, operands x y z⟩

/-- `Minus(x, y, z)`. -/
abbrev Minus.posted (limit : Int) (level : Level) (root : Doms) (s : Nat) (x y z : VarId) (fresh : Nat → Bool) (cache : Nat → Nat → Int → Option Nat) : Posted σ μ :=
  ⟨Minus.installAt limit level (.simple s) x y z fresh cache, fun a => x.eval a - y.eval a = z.eval a ∧ ∀ p, sumTable true limit level x y z root = .ok (some p) → Selected p.2 p.1 (.simple s) a, operands x y z⟩

theorem Tabulation.sumTable_roo (sub : Bool) (hd : DomsOK root) (hx : x.Valid root.length) (hy : y.Valid root.length) (hz : z.Valid root.length) :
    RightOrOverflow (sumTable sub limit level x y z root) (fun o => ∀ q, o = some q → Tabulates root (operands x y z) (fun a => op sub (x.eval a) (y.eval a) = z.eval a) q) := sum_table_roo sub hd hx hy hz

/-- C40 for `Plus(x, y, z)` at every consistency level, whatever the threshold for tables is. The only exceptions are overflows. -/
theorem plus_right (ho : R .overflow) (hd : DomsOK root) (hx : x.Valid root.length) (hy : y.Valid root.length) (hz : z.Valid root.length) (hs : Selects root (operands x y z) (sumTable false limit level x y z root) s) :
    (Plus.posted (σ := σ) (μ := μ) limit level root s x y z fresh cache).Serves root.length m R root z0 (fun _ => False) ∧
    ∀ e, Plus.installAt (σ := σ) (μ := μ) limit level (.simple s) x y z fresh cache root = .error e → e = .overflow := by
  have hb := plus_right_partial (σ := σ) (μ := μ) (m := m) (root := root) ho hx hy hz
  have ht := sumTable_roo (limit := limit) (level := level) false hd hx hy hz
  refine ⟨posted_serves (base := ⟨Plus.install x y z, fun a => x.eval a + y.eval a = z.eval a, operands x y z⟩) (tab := sumTable false limit level x y z) ho
    (fun its e => Posts.mono (hb.1 its e) fun v hv => List.mem_append_left _ hv) (fun p hp => ht.value hp p rfl) hs, fun e he => ?_⟩
  rcases addTable_error (base := ⟨Plus.install x y z, fun a => x.eval a + y.eval a = z.eval a, operands x y z⟩) (tab := sumTable false limit level x y z) he with h | h
  · exact overflows ht h
  · exact (hb.2 e h).elim

/-- C40 for `Minus(x, y, z)` at every consistency level. -/
theorem minus_right (ho : R .overflow) (hd : DomsOK root) (hx : x.Valid root.length) (hy : y.Valid root.length) (hz : z.Valid root.length) (hs : Selects root (operands x y z) (sumTable true limit level x y z root) s) :
    (Minus.posted (σ := σ) (μ := μ) limit level root s x y z fresh cache).Serves root.length m R root z0 (fun _ => False) ∧
    ∀ e, Minus.installAt (σ := σ) (μ := μ) limit level (.simple s) x y z fresh cache root = .error e → e = .overflow := by
  have hb := minus_right_partial (σ := σ) (μ := μ) (m := m) (root := root) ho hx hy hz
  have ht := sumTable_roo (limit := limit) (level := level) true hd hx hy hz
  refine ⟨posted_serves (base := ⟨Minus.install x y z, fun a => x.eval a - y.eval a = z.eval a, operands x y z⟩) (tab := sumTable true limit level x y z) ho
    (fun its e => Posts.mono (hb.1 its e) fun v hv => List.mem_append_left _ hv) (fun p hp => ht.value hp p rfl) hs, fun e he => ?_⟩
  rcases addTable_error (base := ⟨Minus.install x y z, fun a => x.eval a - y.eval a = z.eval a, operands x y z⟩) (tab := sumTable true limit level x y z) he with h | h
  · exact overflows ht h
  · exact (hb.2 e h).elim

/-- C40: without its selector, `Plus(x, y, z)` means that `z` is the sum, at every consistency level. -/
theorem plus_means {all : Nat → Prop} (hd : DomsOK root) (hx : x.Valid root.length) (hy : y.Valid root.length) (hz : z.Valid root.length) (hs : Selects root (operands x y z) (sumTable false limit level x y z root) s)
    (hall : all s) (hoff : ∀ v ∈ [x, y, z], ∀ i, v.underlyingIndex = some i → ¬ all i) :
    Means root (· = s) all (Plus.posted (σ := σ) (μ := μ) limit level root s x y z fresh cache) (fun a => x.eval a + y.eval a = z.eval a) := by
  refine posted_means (base := ⟨Plus.install x y z, fun a => x.eval a + y.eval a = z.eval a, operands x y z⟩) (tab := sumTable false limit level x y z)
    (fun p hp => (sumTable_roo (limit := limit) (level := level) false hd hx hy hz).value hp p rfl) hs hall (off_operands hoff) (fun a b hab => ?_) fun a _ => ⟨fun h => ⟨h, fun _ => h⟩, fun h => h.1⟩
  have := ignores hoff hab
  dsimp only
  rw [this x (by simp), this y (by simp), this z (by simp)]

/-- C40: without its selector, `Minus(x, y, z)` means that `z` is the difference, at every consistency level. -/
theorem minus_means {all : Nat → Prop} (hd : DomsOK root) (hx : x.Valid root.length) (hy : y.Valid root.length) (hz : z.Valid root.length) (hs : Selects root (operands x y z) (sumTable true limit level x y z root) s)
    (hall : all s) (hoff : ∀ v ∈ [x, y, z], ∀ i, v.underlyingIndex = some i → ¬ all i) :
    Means root (· = s) all (Minus.posted (σ := σ) (μ := μ) limit level root s x y z fresh cache) (fun a => x.eval a - y.eval a = z.eval a) := by
  refine posted_means (base := ⟨Minus.install x y z, fun a => x.eval a - y.eval a = z.eval a, operands x y z⟩) (tab := sumTable true limit level x y z)
    (fun p hp => (sumTable_roo (limit := limit) (level := level) true hd hx hy hz).value hp p rfl) hs hall (off_operands hoff) (fun a b hab => ?_) fun a _ => ⟨fun h => ⟨h, fun _ => h⟩, fun h => h.1⟩
  have := ignores hoff hab
  dsimp only
  rw [this x (by simp), this y (by simp), this z (by simp)]

/-! ## Linear equalities -/
open Linear (TermsOK varsOf)
variable {terms : List WTerm} {value : Int} {r : Reif}

/-- A linear equality with `consistency::Tabulated`, as a constraint on its variables and the selector. -/
abbrev Linear.tabulated (root : Doms) (s : Nat) (terms : List WTerm) (value : Int) (r : Reif) (fresh : Nat → Bool) (cache : Nat → Nat → Int → Option Nat) : Posted σ μ :=
  ⟨Linear.equalityTabulated terms value r (.simple s) fresh cache, fun a => ∀ p, linearTable terms value r root = .ok p → Selected p.2 p.1 (.simple s) a, Linear.about terms r⟩

/-- C38, C47: what is installed for a tabulated linear equality is right. -/
theorem linearTabulated_right (ho : R .overflow) (hd : DomsOK root) (ht : TermsOK root.length terms) (hv : InI64 value) (hr : r.Valid root.length)
    (hs : Selects root (Linear.about terms r) (do return some (← linearTable terms value r root)) s) :
    (Linear.tabulated (σ := σ) (μ := μ) root s terms value r fresh cache).Serves root.length m R root z0 (fun _ => False) ∧
    ∀ e, Linear.equalityTabulated (σ := σ) (μ := μ) terms value r (.simple s) fresh cache root = .error e → e = .overflow := by
  have hT := linearTable_roo (value := value) (r := r) hd ht hv hr
  have hget : ∀ p, (do return some (← linearTable terms value r root) : Chk (Option _)) = .ok (some p) ↔ linearTable terms value r root = .ok p := by
    intro p; cases linearTable terms value r root with
    | error e => exact ⟨fun h => (by cases h), fun h => (by cases h)⟩
    | ok q => exact ⟨fun h => (by cases h; rfl), fun h => (by cases h; rfl)⟩
  have h := posted_serves (σ := σ) (μ := μ) (base := ⟨fun _ => .ok [], fun _ => True, Linear.about terms r⟩) (tab := fun root => do return some (← linearTable terms value r root)) (m := m) (fresh := fresh) (cache := cache) (z0 := z0)
    (C := fun a => r.holds (fun a => wsum terms a = value) a) ho (fun its e => by cases e; exact Posts.nil fun _ _ => trivial) (fun p hp => hT.value ((hget p).1 hp)) hs
  refine ⟨h.congr (D := fun a => ∀ p, linearTable terms value r root = .ok p → Selected p.2 p.1 (.simple s) a) fun a _ => ⟨fun h => ⟨trivial, fun p hp => h p ((hget p).1 hp)⟩, fun h p hp => h.2 p ((hget p).2 hp)⟩, fun e he => ?_⟩
  rcases addTable_error (base := ⟨fun _ => .ok [], fun _ => True, Linear.about terms r⟩) (tab := fun root => do return some (← linearTable terms value r root)) he with h | h
  · refine overflows hT (e := e) ?_
    cases hl : linearTable terms value r root with
    | error e' => rw [hl] at h; cases h; rfl
    | ok q => rw [hl] at h; cases h
  · cases h

/-- C38, C47: without its selector, a tabulated linear equality means the equality with its reification, if it could be posted. -/
theorem linearTabulated_means {all : Nat → Prop} {p : List VarId × List (List (Option Int))} (hd : DomsOK root) (ht : TermsOK root.length terms) (hv : InI64 value) (hr : r.Valid root.length)
    (hs : Selects root (Linear.about terms r) (do return some (← linearTable terms value r root)) s) (hp : linearTable terms value r root = .ok p) (hall : all s)
    (hoff : ∀ v ∈ Linear.about terms r, ∀ i, v.underlyingIndex = some i → ¬ all i) :
    Means root (· = s) all (Linear.tabulated (σ := σ) (μ := μ) root s terms value r fresh cache) (fun a => r.holds (fun a => wsum terms a = value) a) := by
  have hT := (linearTable_roo (value := value) (r := r) hd ht hv hr).value hp
  have e0 : (do return some (← linearTable terms value r root) : Chk (Option _)) = .ok (some p) := by rw [hp]; rfl
  have := posted_means (σ := σ) (μ := μ) (base := ⟨fun _ => .ok [], fun _ => True, Linear.about terms r⟩) (tab := fun root => do return some (← linearTable terms value r root)) (fresh := fresh) (cache := cache)
    (C := fun a => r.holds (fun a => wsum terms a = value) a) (P := fun a => r.holds (fun a => wsum terms a = value) a) (s := s) (all := all) (fun q hq => by rw [e0] at hq; cases hq; exact hT) hs hall hoff (fun _ _ _ => Iff.rfl)
    fun a _ => ⟨fun h => ⟨trivial, fun _ => h⟩, fun h => h.2 ⟨p, e0⟩⟩
  have hh : ∀ a, (∀ q, linearTable terms value r root = .ok q → Selected q.2 q.1 (.simple s) a) ↔
      True ∧ ∀ q, (do return some (← linearTable terms value r root) : Chk (Option _)) = .ok (some q) → Selected q.2 q.1 (.simple s) a := by
    intro a; rw [e0, hp]; simp
  refine ⟨fun a b hab => ?_, fun a ha => (this.iff a ha).trans ?_⟩
  · exact (hh a).trans ((this.ignores a b hab).trans (hh b).symm)
  · exact exists_congr fun b => and_congr_right fun _ => and_congr_right fun _ => (hh b).symm

/-! ## Multiply -/

/-- The table that `Multiply` makes, or that the linear equality makes that it is if an operand is a constant. -/
def Multiply.tableAt (limit : Int) (level : Level) (x y z : VarId) (root : Doms) : Chk (Option (List VarId × List (List (Option Int)))) := do
  match ← linearForm x y z with
  | some (ts, v) =>
    if ← linearTabulated limit level ts root then return some (← linearTable ts v .mustHold root)
    else return none
  | none => (productPlan x y z).table limit level root

/-- `Multiply(x, y, z)` at a consistency level, as a constraint on the operands and the selector of its table. -/
abbrev Multiply.posted (limit : Int) (level : Level) (root : Doms) (s : Nat) (x y z : VarId) (fresh : Nat → Bool) (cache : Nat → Nat → Int → Option Nat) : Posted σ μ :=
  ⟨Multiply.installAt limit level (.simple s) x y z fresh cache, fun a => x.eval a * y.eval a = z.eval a ∧ ∀ p, Multiply.tableAt limit level x y z root = .ok (some p) → Selected p.2 p.1 (.simple s) a, operands x y z⟩

theorem Multiply.small_roo (hd : DomsOK root) {largest : Int} : ∀ (ts : List Linear.Term) (b : Bool) (size : Int), (∀ t ∈ ts, t.var < root.length) → RightOrOverflow (small limit largest root b size ts) (fun _ => True)
  | [], _, _, _ => .pure trivial
  | t :: ts, b, size, h => by
    rw [small]
    refine (domainSize_roo (v := .simple t.var) hd (h t (by simp))).bind fun k _ => ?_
    split
    · exact small_roo hd ts _ _ fun t ht => h t (by simp [ht])
    · split
      · exact small_roo hd ts _ _ fun t ht => h t (by simp [ht])
      · exact .pure trivial

theorem Multiply.largest_roo (hd : DomsOK root) : ∀ (ts : List Linear.Term) (acc : Int), (∀ t ∈ ts, t.var < root.length) → RightOrOverflow (largest root acc ts) (fun _ => True)
  | [], _, _ => .pure trivial
  | t :: ts, acc, h => (domainSize_roo (v := .simple t.var) hd (h t (by simp))).bind fun k _ => largest_roo hd ts _ fun t ht => h t (by simp [ht])

theorem Multiply.linearTabulated_roo (hd : DomsOK root) (ht : TermsOK root.length terms) : RightOrOverflow (linearTabulated limit level terms root) (fun _ => True) := by
  cases level with
  | bc => exact .pure trivial
  | tabulated => exact .pure trivial
  | auto => exact (Linear.tidy_roo ht).bind fun t h => (largest_roo hd t.1 0 h.1.var).bind fun k _ => small_roo hd t.1 _ _ h.1.var

/-- C40 for `Multiply(x, y, z)` at every consistency level, with constants, views and squares. The only exceptions are overflows. -/
theorem multiply_right (ho : R .overflow) (hd : DomsOK root) (hx : x.Valid root.length) (hy : y.Valid root.length) (hz : z.Valid root.length) (hs : Selects root (operands x y z) (Multiply.tableAt limit level x y z root) s) :
    (Multiply.posted (σ := σ) (μ := μ) limit level root s x y z fresh cache).Serves root.length m R root z0 (fun _ => False) ∧
    ∀ e, Multiply.installAt (σ := σ) (μ := μ) limit level (.simple s) x y z fresh cache root = .error e → e = .overflow := by
  have hb := multiply_right_partial (σ := σ) (μ := μ) (m := m) (root := root) ho hd rfl hx hy hz
  have hb' : (Posted.mk (Multiply.install (σ := σ) (μ := μ) x y z) (fun a => x.eval a * y.eval a = z.eval a) (operands x y z)).OK root.length m R root :=
    fun its e => Posts.mono (hb.1 its e) fun v hv => List.mem_append_right _ hv
  have hlf := Multiply.linearForm_roo hx hy hz
  cases ef : Multiply.linearForm x y z with
  | error er =>
    have := overflows hlf ef; subst this
    have e0 : Multiply.installAt (σ := σ) (μ := μ) limit level (.simple s) x y z fresh cache root = .error .overflow := by unfold Multiply.installAt; rw [ef]; rfl
    exact ⟨fun items e => (by dsimp only at e; rw [e0] at e; cases e), fun e he => (by rw [e0] at he; cases he; rfl)⟩
  | ok o =>
    have hlf := hlf.value ef
    cases o with
    | none =>
      have e1 : Multiply.installAt (σ := σ) (μ := μ) limit level (.simple s) x y z fresh cache root = addTable (Multiply.install x y z) (fun root => (productPlan x y z).table limit level root) (.simple s) fresh cache root := by
        unfold Multiply.installAt; rw [ef]; rfl
      have e2 : Multiply.tableAt limit level x y z root = (productPlan x y z).table limit level root := by unfold Multiply.tableAt; rw [ef]; rfl
      have ht := product_table_roo (limit := limit) (level := level) hd hx hy hz
      rw [e2] at hs
      have h := posted_serves (base := ⟨Multiply.install x y z, fun a => x.eval a * y.eval a = z.eval a, operands x y z⟩) (tab := fun root => (productPlan x y z).table limit level root) (fresh := fresh) (cache := cache) (z0 := z0) ho hb' (fun p hp => ht.value hp p rfl) hs
      refine ⟨fun items e => ?_, fun e he => ?_⟩
      · dsimp only at e
        rw [e1] at e
        have := h items e
        dsimp only at this ⊢
        rw [e2]; exact this
      · rw [e1] at he
        rcases addTable_error (base := ⟨Multiply.install x y z, fun a => x.eval a * y.eval a = z.eval a, operands x y z⟩) (tab := fun root => (productPlan x y z).table limit level root) he with h | h
        · exact overflows ht h
        · exact hb.2 e h
    | some q =>
      obtain ⟨ts, v⟩ := q
      obtain ⟨h1, h2, h3, h4⟩ := hlf _ rfl
      have hlt := Multiply.linearTabulated_roo (limit := limit) (level := level) hd h1
      cases eb : Multiply.linearTabulated limit level ts root with
      | error er =>
        have := overflows hlt eb; subst this
        have e0 : Multiply.installAt (σ := σ) (μ := μ) limit level (.simple s) x y z fresh cache root = .error .overflow := by unfold Multiply.installAt; rw [ef]; dsimp only [bind, Except.bind]; rw [eb]
        exact ⟨fun items e => (by dsimp only at e; rw [e0] at e; cases e), fun e he => (by rw [e0] at he; cases he; rfl)⟩
      | ok b =>
        cases b with
        | false =>
          have e1 : Multiply.installAt (σ := σ) (μ := μ) limit level (.simple s) x y z fresh cache root = Multiply.install x y z root := by
            unfold Multiply.installAt Multiply.install; rw [ef]; dsimp only [bind, Except.bind]; rw [eb]; rfl
          have e2 : Multiply.tableAt limit level x y z root = .ok none := by unfold Multiply.tableAt; rw [ef]; dsimp only [bind, Except.bind]; rw [eb]; rfl
          refine ⟨fun items e => ?_, fun e he => hb.2 e (by dsimp only; rw [← e1]; exact he)⟩
          dsimp only at e
          rw [e1] at e
          have := (hb'.serves z0 (fun _ => False)).congr (D := fun a => x.eval a * y.eval a = z.eval a ∧ ∀ p, Multiply.tableAt limit level x y z root = .ok (some p) → Selected p.2 p.1 (.simple s) a)
            (fun a _ => ⟨fun h => h.1, fun h => ⟨h, fun p hp => by rw [e2] at hp; cases hp⟩⟩)
          exact this items e
        | true =>
          have e1 : Multiply.installAt (σ := σ) (μ := μ) limit level (.simple s) x y z fresh cache root = Linear.equalityTabulated ts v .mustHold (.simple s) fresh cache root := by
            unfold Multiply.installAt; rw [ef]; dsimp only [bind, Except.bind]; rw [eb]; rfl
          have e2 : Multiply.tableAt limit level x y z root = (do return some (← linearTable ts v .mustHold root)) := by unfold Multiply.tableAt; rw [ef]; dsimp only [bind, Except.bind]; rw [eb]; rfl
          have hab : ∀ w ∈ Linear.about ts .mustHold, w ∈ operands x y z := by
            intro w hw
            rw [Linear.about, h4] at hw
            simp only [Reif.vars, List.append_nil] at hw
            exact List.mem_append_right _ hw
          rw [e2] at hs
          have h := linearTabulated_right (σ := σ) (μ := μ) (m := m) (z0 := z0) (fresh := fresh) (cache := cache) ho hd h1 h2 trivial (r := .mustHold) ⟨hs.lt, fun w hw => hs.off w (hab w hw), hs.values⟩
          refine ⟨fun items e => ?_, fun e he => h.2 e (by rw [← e1]; exact he)⟩
          dsimp only at e
          rw [e1] at e
          have hT := linearTable_roo (value := v) (r := .mustHold) hd h1 h2 trivial
          have hin := (h.1.congr (D := fun a => x.eval a * y.eval a = z.eval a ∧ ∀ p, Multiply.tableAt limit level x y z root = .ok (some p) → Selected p.2 p.1 (.simple s) a) fun a ha => by
            dsimp only
            rw [e2]
            cases el : linearTable ts v .mustHold root with
            | error er =>
              have : Linear.equalityTabulated (σ := σ) (μ := μ) ts v .mustHold (.simple s) fresh cache root = .error er := by unfold Linear.equalityTabulated addTable; dsimp only; rw [el]; rfl
              rw [this] at e; cases e
            | ok p =>
              constructor
              · rintro ⟨_, h⟩ q hq; cases hq; exact h p rfl
              · intro h
                have hsel := h p rfl
                refine ⟨(h3 a).1 (((hT.value el).exact a ha).1 hsel.inTable), fun q hq => ?_⟩
                cases hq; exact hsel) items e
          obtain ⟨I, es, k1, k2⟩ := hin
          refine ⟨I, es, k1, fun p hp => ?_, k2.together, k2.shrink, k2.only, k2.start⟩
          have := k2.items p hp
          obtain ⟨it, _⟩ := p
          cases it with
          | init _ f => exact this
          | prop f t => obtain ⟨ys, j1, j2⟩ := this; exact ⟨ys, fun y hy => hab y (j1 y hy), j2⟩

/-- C40: without its selector, `Multiply(x, y, z)` means that `z` is the product, at every consistency level, if the values of `z` are integers that can be represented. -/
theorem multiply_means {all : Nat → Prop} (hd : DomsOK root) (hx : x.Valid root.length) (hy : y.Valid root.length) (hz : z.Valid root.length) (hfit : ∀ a, Within root a → InI64 (z.eval a))
    (hs : Selects root (operands x y z) (Multiply.tableAt limit level x y z root) s) (hall : all s) (hoff : ∀ v ∈ [x, y, z], ∀ i, v.underlyingIndex = some i → ¬ all i) :
    Means root (· = s) all (Multiply.posted (σ := σ) (μ := μ) limit level root s x y z fresh cache) (fun a => x.eval a * y.eval a = z.eval a) := by
  suffices h : Means root (· = s) all (Tabulation.posted (σ := σ) (μ := μ) root ⟨fun _ => .ok [], fun a => x.eval a * y.eval a = z.eval a, operands x y z⟩ (Multiply.tableAt limit level x y z) s fresh cache) (fun a => x.eval a * y.eval a = z.eval a) from ⟨h.ignores, h.iff⟩
  refine posted_means (base := ⟨fun _ => .ok [], fun a => x.eval a * y.eval a = z.eval a, operands x y z⟩) (tab := Multiply.tableAt limit level x y z) (C := fun a => x.eval a * y.eval a = z.eval a) (fun p hp => ?_) hs hall (off_operands hoff)
    (fun a b hab => ?_) fun a _ => ⟨fun h => ⟨h, fun _ => h⟩, fun h => h.1⟩
  · unfold Multiply.tableAt at hp
    have hlf := Multiply.linearForm_roo hx hy hz
    cases ef : Multiply.linearForm x y z with
    | error er => rw [ef] at hp; cases hp
    | ok o =>
      rw [ef] at hp
      cases o with
      | none =>
        have h := (product_table_roo (limit := limit) (level := level) hd hx hy hz).value hp p rfl
        exact ⟨h.nodup, h.about, h.valid, h.shape, fun a ha => (h.exact a ha).trans ⟨fun h => h.2, fun h => ⟨hfit a ha, h⟩⟩⟩
      | some q =>
        obtain ⟨ts, v⟩ := q
        obtain ⟨h1, h2, h3, h4⟩ := hlf.value ef _ rfl
        dsimp only [bind, Except.bind] at hp
        split at hp
        · cases hp
        · split at hp
          · split at hp
            · cases hp
            · rename_i el
              cases hp
              have h := (linearTable_roo (value := v) (r := .mustHold) hd h1 h2 trivial).value el
              refine ⟨h.nodup, fun w hw => ?_, h.valid, h.shape, fun a ha => (h.exact a ha).trans (h3 a)⟩
              have hw := h.about w hw
              rw [Linear.about, h4] at hw
              simp only [Reif.vars, List.append_nil] at hw
              exact List.mem_append_right _ hw
          · cases hp
  · have := ignores hoff hab
    dsimp only
    rw [this x (by simp), this y (by simp), this z (by simp)]

/-! ## Consistency -/

/-- C49: the propagator for a table that says what a constraint says makes the constraint generalised arc consistent: where it has not failed, every value left of every variable of the table is part of an assignment within the
domains that satisfies the constraint, if the variables of the table are not views of each other. If it fails, there is no such assignment with a tuple still selected. -/
theorem Tabulates.consistent {c : Ctx} {st st' : Sys σ μ} {res : Res PState} {xs : List VarId} {p : List VarId × List (List (Option Int))} (h : Tabulates root xs C p) (hs : s < root.length)
    (hn : ((p.1 ++ [VarId.simple s]).filterMap VarId.underlyingIndex).Nodup) (hrun : Runnable root.length m st) (hin : ∀ a, Within st.doms a → 0 ≤ a s ∧ a s < p.2.length) (hsub : ∀ a, Within st.doms a → Within root a)
    (hr : runProg c (Table.prop (.simple s) p.1 p.2 fresh cache) st = .ok (res, st')) :
    (Failed res st' → ∀ a, Within st.doms a → ¬ Selected p.2 p.1 (.simple s) a) ∧
    (¬ Failed res st' → ∀ v ∈ p.1, ∀ y, Poss st'.doms v y → ∃ a, Within st'.doms a ∧ v.eval a = y ∧ C a) := by
  obtain ⟨h1, h2⟩ := table_consistent (n := root.length) (sel := .simple s) hs h.valid (fun t ht => ⟨h.shape.width t ht, h.shape.inI64 t ht⟩) hrun hin hr
  refine ⟨h1, fun hf v hv y hy => ?_⟩
  obtain ⟨a, k1, k2, k3⟩ := h2 hf hn v hv y hy
  have hsub' : Within st.doms a := by
    have ver := ver_facts _ _ hrun.domsOK hrun.domsLen (Table.prop_ver (σ := σ) (μ := μ) (J := { n := root.length, m, R := (· = .overflow), C := Selected p.2 p.1 (.simple s) }) (sel := .simple s) rfl hs h.valid h.shape (fun _ h => h)
      fresh cache hrun.domsOK hrun.domsLen (by rintro k ⟨a, ha, rfl⟩; exact hin a ha))
    obtain ⟨ps, _, ⟨_, _, hs'⟩, _⟩ := wp_run (np := c.owner + 1) c (Nat.lt_succ_self _) _ st (Ver.okAt _ _ ver) (Ver.wp _ _ ver) hrun res st' hr hf
    exact hs' a k1
  exact ⟨a, k1, k2, (h.exact a (hsub a hsub')).1 k3.inTable⟩

end

namespace Tabulation.Demo

/-! Even numbers, with a view: `x + (y + 1) = z`. Variable 3 is the selector of the table, which has four tuples. -/
def x : VarId := .simple 0
def y : VarId := .view 1 false 1
def z : VarId := .simple 2
def start : Doms := [[(0, 0), (2, 2)], [(0, 0), (2, 2)], [(0, 9)], [(0, 3)]]
def fresh : Nat → Bool := fun k => decide (k = 0)
def cache : Nat → Nat → Int → Option Nat := fun _ _ _ => none

/-- The level that is not branched on is the largest, `z`. -/
example : sumTable false 100 .auto x y z start = .ok (some ([.simple 0, .simple 1, .simple 2], [[some 0, some 0, some 1], [some 0, some 2, some 3], [some 2, some 0, some 3], [some 2, some 2, some 5]])) := by decide +kernel

/-- With a lower threshold there is no table, and the selector does not matter. -/
example : sumTable false 3 .auto x y z start = .ok none := by decide +kernel
example : sumTable false 3 .bc x y z start = .ok none := by decide +kernel

theorem selects : Selects start (operands x y z) (sumTable false 100 .auto x y z start) 3 where
  lt := by decide
  off := by decide
  values := by
    intro p hp _ sd hsd k
    have e : sumTable false 100 .auto x y z start = .ok (some ([.simple 0, .simple 1, .simple 2], [[some 0, some 0, some 1], [some 0, some 2, some 3], [some 2, some 0, some 3], [some 2, some 2, some 5]])) := by decide +kernel
    rw [e] at hp; cases hp
    cases hsd
    simp [Mem]; omega

example : (Plus.posted (σ := Unit) (μ := Unit) 100 .auto start 3 x y z fresh cache).Serves 4 0 (· = .overflow) start [] (fun _ => False) :=
  (plus_right (R := (· = .overflow)) (root := start) rfl (by decide +kernel) (by decide) (by decide) (by decide) selects).1

example : Means start (· = 3) (· = 3) (Plus.posted (σ := Unit) (μ := Unit) 100 .auto start 3 x y z fresh cache) (fun a => x.eval a + y.eval a = z.eval a) :=
  plus_means (by decide +kernel) (by decide) (by decide) (by decide) selects rfl (by rintro v hv i hi rfl; simp [x, y, z] at hv; rcases hv with rfl | rfl | rfl <;> cases hi)

/-- All solutions: the propagators for bounds and for the table together. -/
example : Run.run start [Plus.installAt 100 .auto (.simple 3) x y z fresh cache] =
    some ([[[(0, 0)], [(0, 0)], [(1, 1)], [(0, 0)]], [[(0, 0)], [(2, 2)], [(3, 3)], [(1, 1)]], [[(2, 2)], [(0, 0)], [(3, 3)], [(2, 2)]], [[(2, 2)], [(2, 2)], [(5, 5)], [(3, 3)]]], true) := by decide +kernel

/-- A table without tuples. -/
example : Run.run [[(0, 0), (2, 2)], [(0, 0), (2, 2)], [(2, 2), (4, 4)], [(0, 0)]] [Plus.installAt 100 .tabulated (.simple 3) x y z fresh cache] = some ([], true) := by decide +kernel

/-- `x - y = x` determines `y` alone. -/
example : sumTable true 100 .auto x (.simple 1) x start = .ok (some ([.simple 0, .simple 1], [[some 0, some 0], [some 2, some 0]])) := by decide +kernel

/-- `2 x = y` for multiplication with a constant becomes a table of a linear equality. -/
example : Multiply.tableAt 100 .auto x (.const 2) (.simple 2) start = .ok (some ([.simple 0, .simple 2], [[some 0, some 0], [some 2, some 4]])) := by decide +kernel
example : Multiply.tableAt 100 .auto x (.simple 1) (.simple 2) start = .ok (some ([.simple 0, .simple 1, .simple 2], [[some 0, some 0, some 0], [some 0, some 2, some 0], [some 2, some 0, some 0], [some 2, some 2, some 4]])) := by decide +kernel

/-- A reified equality: where the condition does not hold, everything else is a wildcard. -/
example : linearTable [(2, x), (-1, z)] 0 (.ifCond (Cond.ge (.simple 1) 1)) start = .ok ([.simple 0, .simple 2, .simple 1], [[none, none, some 0], [some 0, some 0, some 2], [some 2, some 4, some 2]]) := by decide +kernel
example : linearTable [(1, x), (1, .simple 1)] 2 (.iffCond (Cond.eq x 0)) start = .ok ([.simple 0, .simple 1], [[some 0, some 2], [some 2, some 2]]) := by decide +kernel

end Tabulation.Demo
end Gcs
