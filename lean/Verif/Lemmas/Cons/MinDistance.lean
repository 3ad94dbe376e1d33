import Verif.Model.Cons.MinDistance
import Verif.Spec.MinDistance
import Verif.Lemmas.Cons.Inverse
import Verif.Lemmas.Cons.Disjunctive2DInstall

namespace Gcs.MinDistance
open IntervalSet

/-- What is accepted as distances. -/
structure Fit (D : Matrix) : Prop where
  ok : Distances D
  exact : ∀ row ∈ D, ∀ x ∈ row, InI64 x

/-- What is accepted as requirements. -/
structure Fits (p : Nat) (Q : Option Matrix) : Prop where
  ok : ∀ q, Q = some q → Requirements p q
  exact : ∀ q, Q = some q → ∀ row ∈ q, ∀ x ∈ row, InI64 x

theorem entry_at {D : Matrix} {a b : Nat} (ha : a < D.length) (hb : b < D[a].length) : entry D a b = D[a][b] := by
  simp [entry, List.getD_eq_getElem?_getD, List.getElem?_eq_getElem ha, List.getElem?_eq_getElem hb]

theorem dist_eq {D : Matrix} (hs : ∀ row ∈ D, row.length = D.length) {a b : Int} (ha : InRange D.length a) (hb : InRange D.length b) : dist D a b = .ok (entry D a b) := by
  obtain ⟨h0, h1⟩ := ha
  obtain ⟨k0, k1⟩ := hb
  obtain ⟨row, e1, e2⟩ := Gcs.atIndex_ok h0 h1
  have hl := hs row (List.mem_of_getElem? e2)
  obtain ⟨x, f1, f2⟩ := Gcs.atIndex_ok (xs := row) k0 (by omega)
  rw [dist, e1]
  show atIndex row b = _
  rw [f1, entry]
  simp only [List.getD_eq_getElem?_getD, e2, Option.getD_some, f2]

theorem Fit.inI64 {D : Matrix} (h : Fit D) {a b : Int} (ha : InRange D.length a) (hb : InRange D.length b) : InI64 (entry D a b) := by
  have h1 : a.toNat < D.length := by have := ha.1; have := ha.2; omega
  have h2 : b.toNat < D[a.toNat].length := by rw [h.ok.square _ (List.getElem_mem h1)]; have := hb.1; have := hb.2; omega
  have e : entry D a b = D[a.toNat][b.toNat] := by
    have := entry_at h1 h2
    rwa [Int.toNat_of_nonneg ha.1, Int.toNat_of_nonneg hb.1] at this
  rw [e]
  exact h.exact _ (List.getElem_mem h1) _ (List.getElem_mem h2)

theorem dist_roo {D : Matrix} (h : Fit D) {a b : Int} (ha : InRange D.length a) (hb : InRange D.length b) : RightOrOverflow (dist D a b) (fun r => r = entry D a b ∧ InI64 r) :=
  .inr ⟨_, dist_eq h.ok.square ha hb, rfl, h.inI64 ha hb⟩

theorem entry_symm {D : Matrix} (h : Distances D) {a b : Int} (ha : InRange D.length a) (hb : InRange D.length b) : entry D a b = entry D b a := by
  have := h.symm a.toNat b.toNat (by have := ha.1; have := ha.2; omega) (by have := hb.1; have := hb.2; omega)
  rwa [Int.toNat_of_nonneg ha.1, Int.toNat_of_nonneg hb.1] at this

theorem entry_self {D : Matrix} (h : Distances D) {a : Int} (ha : InRange D.length a) : entry D a a = 0 := by
  have := h.zero a.toNat (by have := ha.1; have := ha.2; omega)
  rwa [Int.toNat_of_nonneg ha.1] at this

/-- What is required of numbers `i` and `j`. -/
def need (Q : Option Matrix) (i j : Nat) : Option Int := Q.map fun q => entry q i j

theorem required_roo {Q : Option Matrix} {p : Nat} (h : Fits p Q) {i j : Nat} (hi : i < p) (hj : j < p) : RightOrOverflow (required Q i j) (fun r => r = need Q i j ∧ ∀ x, r = some x → InI64 x) := by
  cases Q with
  | none => exact .inr ⟨none, rfl, rfl, fun _ h => (nomatch h)⟩
  | some q =>
    have hq := h.ok q rfl
    have hi' : i < q.length := by rw [hq.rows]; exact hi
    have hj' : j < q[i].length := by rw [hq.square _ (List.getElem_mem hi')]; exact hj
    refine .inr ⟨some (entry q i j), ?_, rfl, fun x hx => ?_⟩
    · have e1 : vecAt q i = .ok q[i] := vecAt_ok.2 (List.getElem?_eq_getElem hi')
      have e2 : vecAt q[i] j = .ok q[i][j] := vecAt_ok.2 (List.getElem?_eq_getElem hj')
      rw [entry_at hi' hj', required]
      show (do let r ← vecAt q i; let x ← vecAt r j; pure (some x) : Chk (Option Int)) = _
      rw [e1]
      show (do let x ← vecAt q[i] j; pure (some x) : Chk (Option Int)) = _
      rw [e2]; rfl
    · cases hx
      rw [entry_at hi' hj']
      exact h.exact q rfl _ (List.getElem_mem hi') _ (List.getElem_mem hj')

theorem mem_pairs_iff {α : Type} {p : α × α} : ∀ {l : List α}, p ∈ Disjunctive2D.pairs l ↔ ∃ i j : Nat, i < j ∧ l[i]? = some p.1 ∧ l[j]? = some p.2
  | [] => by simp [Disjunctive2D.pairs]
  | x :: xs => by
    rw [Disjunctive2D.pairs, List.mem_append, List.mem_map, mem_pairs_iff (l := xs)]
    constructor
    · rintro (⟨y, hy, rfl⟩ | ⟨i, j, h, h1, h2⟩)
      · obtain ⟨j, hj⟩ := List.getElem?_of_mem hy
        exact ⟨0, j + 1, by omega, rfl, by simpa using hj⟩
      · exact ⟨i + 1, j + 1, by omega, by simpa using h1, by simpa using h2⟩
    · rintro ⟨i, j, h, h1, h2⟩
      cases j with
      | zero => omega
      | succ j =>
        cases i with
        | zero =>
          left
          refine ⟨p.2, List.mem_of_getElem? (by simpa using h2), ?_⟩
          simp at h1
          rw [h1]
        | succ i => exact .inr ⟨i, j, by omega, by simpa using h1, by simpa using h2⟩

theorem mem_pairs_zipIdx {α : Type} {p : (α × Nat) × (α × Nat)} {l : List α} : p ∈ Disjunctive2D.pairs l.zipIdx ↔ p.1.2 < p.2.2 ∧ l[p.1.2]? = some p.1.1 ∧ l[p.2.2]? = some p.2.1 := by
  rw [mem_pairs_iff]
  obtain ⟨⟨x, i⟩, y, j⟩ := p
  simp only [List.getElem?_zipIdx, Option.map_eq_some_iff, Prod.mk.injEq, Nat.zero_add]
  constructor
  · rintro ⟨i', j', h, ⟨a, h1, rfl, rfl⟩, b, h2, rfl, rfl⟩
    exact ⟨h, h1, h2⟩
  · rintro ⟨h, h1, h2⟩
    exact ⟨i, j, h, ⟨x, h1, rfl, rfl⟩, y, h2, rfl, rfl⟩

theorem least_ok {D : Matrix} (h : Fit D) : ∀ (ps : List (Int × Int)) (mu : Option Int), (∀ p ∈ ps, InRange D.length p.1 ∧ InRange D.length p.2) → (∀ u, mu = some u → InI64 u) →
    RightOrOverflow (least D mu ps) (fun r => (r = none → mu = none ∧ ps = []) ∧ ∀ m, r = some m → InI64 m ∧ (mu = some m ∨ ∃ p ∈ ps, entry D p.1 p.2 = m) ∧ (∀ u, mu = some u → m ≤ u) ∧ ∀ p ∈ ps, m ≤ entry D p.1 p.2)
  | [], mu, _, hm => .pure ⟨fun h => ⟨h, rfl⟩, fun m e => ⟨hm m e, .inl e, fun u hu => by rw [e] at hu; cases hu; exact Int.le_refl _, by simp⟩⟩
  | p :: ps, mu, hp, hm => by
    refine (dist_roo h (hp p (by simp)).1 (hp p (by simp)).2).bind fun x hx => ?_
    obtain ⟨rfl, hx⟩ := hx
    cases mu with
    | none =>
      refine (least_ok h ps (some (entry D p.1 p.2)) (fun q hq => hp q (by simp [hq])) (fun u hu => by cases hu; exact hx)).mono fun r hr => ⟨fun e => absurd (hr.1 e).1 (by simp), fun m e => ?_⟩
      obtain ⟨h1, h2, h3, h4⟩ := hr.2 m e
      refine ⟨h1, .inr ?_, fun _ h => (nomatch h), fun q hq => ?_⟩
      · rcases h2 with h2 | ⟨q, hq, e⟩
        · cases h2; exact ⟨p, by simp, rfl⟩
        · exact ⟨q, by simp [hq], e⟩
      · rcases List.mem_cons.1 hq with rfl | hq
        · exact h3 _ rfl
        · exact h4 q hq
    | some w =>
      refine (least_ok h ps (some (min w (entry D p.1 p.2))) (fun q hq => hp q (by simp [hq])) (fun u hu => by cases hu; exact Disjunctive2D.InI64.min (hm w rfl) hx)).mono fun r hr => ⟨fun e => absurd (hr.1 e).1 (by simp), fun m e => ?_⟩
      obtain ⟨h1, h2, h3, h4⟩ := hr.2 m e
      have h3 := h3 _ rfl
      refine ⟨h1, ?_, fun u h => by cases h; omega, fun q hq => ?_⟩
      · rcases h2 with h2 | ⟨q, hq, e⟩
        · have h2 : min w (entry D p.1 p.2) = m := by cases h2; rfl
          by_cases hw : w ≤ entry D p.1 p.2
          · exact .inl (by congr 1; omega)
          · exact .inr ⟨p, by simp, by omega⟩
        · exact .inr ⟨q, by simp [hq], e⟩
      · rcases List.mem_cons.1 hq with rfl | hq
        · omega
        · exact h4 q hq

/-- The part of the meaning that is about `z`. -/
def Tight (D : Matrix) (xs : List Int) (z : Int) : Prop :=
  (∀ (i j : Nat) x y, i < j → xs[i]? = some x → xs[j]? = some y → z ≤ entry D x y) ∧ ∃ (i j : Nat) (x y : Int), i < j ∧ xs[i]? = some x ∧ xs[j]? = some y ∧ entry D x y = z

/-- The values. -/
abbrev at_ (xs : List VarId) (a : Asg) : List Int := xs.map (·.eval a)

theorem at_get {xs : List VarId} {a : Asg} {i : Nat} {v : Int} : (at_ xs a)[i]? = some v ↔ ∃ x, xs[i]? = some x ∧ x.eval a = v := by
  simp [at_, List.getElem?_map]

theorem allSome_some {α : Type} : ∀ {l : List (Option α)} {vs : List α}, allSome l = some vs ↔ l = vs.map some
  | [], vs => by cases vs <;> simp [allSome]
  | none :: l, vs => by cases vs <;> simp [allSome]
  | some x :: l, vs => by
    cases vs with
    | nil => simp [allSome]
    | cons v vs =>
      simp only [allSome, Option.map_eq_some_iff, List.cons.injEq, List.map_cons, Option.some.injEq]
      constructor
      · rintro ⟨ws, h, rfl, rfl⟩; exact ⟨rfl, allSome_some.1 h⟩
      · rintro ⟨rfl, h⟩; exact ⟨vs, allSome_some.2 h, rfl, rfl⟩

/-- The values were read from `d`. -/
def Read (d : Doms) (xs : List VarId) (vals : List (Option Int)) : Prop :=
  vals.length = xs.length ∧ ∀ (i : Nat) x r, xs[i]? = some x → vals[i]? = some r → ∀ v, (r = some v ↔ Pinned d x v) ∧ (r = some v → InI64 v)

theorem values_roo {d : Doms} {xs : List VarId} (hd : DomsOK d) (hv : ∀ x ∈ xs, x.Valid d.length) : RightOrOverflow (values d xs) (Read d xs) :=
  AllDifferent.mapAll_roo xs fun x hx => single_pin hd (hv x hx)

theorem Read.whole {d : Doms} {xs : List VarId} {vals : List (Option Int)} (h : Read d xs vals) {vs : List Int} (e : vals = vs.map some) {a : Asg} (ha : Within d a) : vs = at_ xs a := by
  have hl := h.1
  apply List.ext_getElem?
  intro i
  rw [e, List.length_map] at hl
  by_cases hi : i < xs.length
  · have e1 : vals[i]? = some (some vs[i]) := by rw [e, List.getElem?_map, List.getElem?_eq_getElem (by omega)]; rfl
    have := ((h.2 i xs[i] _ (List.getElem?_eq_getElem hi) e1 vs[i]).1.1 rfl) a ha
    rw [List.getElem?_eq_getElem (by omega), at_, List.getElem?_map, List.getElem?_eq_getElem hi]
    simp [this]
  · rw [List.getElem?_eq_none (by omega), List.getElem?_eq_none (by simp; omega)]

theorem Read.all {d : Doms} {xs : List VarId} {vals : List (Option Int)} (h : Read d xs vals) {a : Asg} (ha : Within d a) (hk : ∀ x ∈ xs, Known d x) : vals = (at_ xs a).map some := by
  have hl := h.1
  apply List.ext_getElem?
  intro i
  by_cases hi : i < xs.length
  · have e1 : vals[i]? = some vals[i] := List.getElem?_eq_getElem (by omega)
    have := (h.2 i xs[i] _ (List.getElem?_eq_getElem hi) e1 (xs[i].eval a)).1.2 ((hk _ (List.getElem_mem hi)).pinned ha)
    rw [e1, this]
    simp [List.getElem?_eq_getElem hi]
  · rw [List.getElem?_eq_none (by omega), List.getElem?_eq_none (by simp; omega)]

section
variable {σ μ : Type} {n m : Nat} {R : Err → Prop} {root d : Doms} {D : Matrix} {Q : Option Matrix} {z x y : VarId} {xs : List VarId}

abbrev Means (D : Matrix) (Q : Option Matrix) (xs : List VarId) (z : VarId) (a : Asg) : Prop := Spread D Q (at_ xs a) (z.eval a)

abbrev job (n m : Nat) (R : Err → Prop) (root : Doms) (D : Matrix) (Q : Option Matrix) (xs : List VarId) (z : VarId) : Job := { n, m, R, C := fun a => Within root a ∧ Means D Q xs z a }

/-- All values are sites. -/
abbrev Sites (D : Matrix) (xs : List VarId) (d : Doms) : Prop := ∀ a, Within d a → ∀ x ∈ xs, InRange D.length (x.eval a)

theorem ver_pin (ho : R .overflow) (hD : Fit D) (hz : z.Valid n) (h2 : 2 ≤ xs.length) {d0 : Doms} {vals : List (Option Int)} (hr : Read d0 xs vals) (hs0 : Sites D xs d0) (hd : DomsOK d) (hl : d.length = n) (hs : ∀ a, Within d a → Within d0 a) :
    (pin (σ := σ) (μ := μ) D z vals).Ver (job n m R root D Q xs z) (fun _ => False) (fun _ d' => (∀ a, Within d' a → Within d a) ∧ ((∀ x ∈ xs, Known d0 x) → ∀ a, Within d' a → Tight D (at_ xs a) (z.eval a))) d := by
  unfold pin
  split
  · rename_i e
    refine ⟨fun _ h => h, fun hk a ha => ?_⟩
    rw [allSome_some.2 (hr.all (hs a ha) hk)] at e
    cases e
  · rename_i vs e
    have e' := allSome_some.1 e
    obtain ⟨a0, ha0⟩ := exists_within hd
    have hv : ∀ v ∈ vs, InRange D.length v := fun v hv => by
      rw [hr.whole e' (hs a0 ha0)] at hv
      obtain ⟨x, hx, rfl⟩ := List.mem_map.1 hv
      exact hs0 a0 (hs a0 ha0) x hx
    have same : ∀ a, Within d a → at_ xs a = vs := fun a ha => (hr.whole e' (hs a ha)).symm
    refine ver_onlyIf (fun _ => ?_) fun hn => absurd hv hn
    refine ver_lift (x := least D none (Disjunctive2D.pairs vs)) ho (least_ok hD _ none (fun p hp => ?_) (by simp)) fun r hr' => ?_
    · obtain ⟨i, j, _, h1, h2⟩ := mem_pairs_iff.1 hp
      exact ⟨hv _ (List.mem_of_getElem? h1), hv _ (List.mem_of_getElem? h2)⟩
    · have hlen : vs.length = xs.length := by rw [← hr.1, e', List.length_map]
      cases r with
      | none =>
        exfalso
        have : (vs[0], vs[1]) ∈ Disjunctive2D.pairs vs := mem_pairs_iff.2 ⟨0, 1, by omega, List.getElem?_eq_getElem (by omega), List.getElem?_eq_getElem (by omega)⟩
        rw [(hr'.1 rfl).2] at this
        cases this
      | some mu =>
        obtain ⟨k1, k2, _, k4⟩ := hr'.2 mu rfl
        have k2 : ∃ i j : Nat, ∃ x y, i < j ∧ vs[i]? = some x ∧ vs[j]? = some y ∧ entry D x y = mu := by
          rcases k2 with h | ⟨p, hp, e⟩
          · cases h
          · obtain ⟨i, j, h, h1, h2⟩ := mem_pairs_iff.1 hp
            exact ⟨i, j, _, _, h, h1, h2, e⟩
        have k4 : ∀ (i j : Nat) x y, i < j → vs[i]? = some x → vs[j]? = some y → mu ≤ entry D x y := fun i j x y h h1 h2 => k4 (x, y) (mem_pairs_iff.2 ⟨i, j, h, h1, h2⟩)
        have sound : ∀ a, Within d a → (job n m R root D Q xs z).C a → z.eval a = mu := by
          rintro a ha ⟨_, hC⟩
          have g1 := hC.least
          have g2 := hC.attained
          rw [same a ha] at g1 g2
          obtain ⟨i, j, x, y, h, h1, h2, e⟩ := g2
          obtain ⟨i', j', x', y', h', h1', h2', e'⟩ := k2
          have := k4 i j x y h h1 h2
          have := g1 i' j' x' y' h' h1' h2'
          omega
        refine ver_tell (.ge hz k1) (fun a ha hC => Int.le_of_eq (sound a ha hC).symm) fun d1 hd1 hl1 h1 => ?_
        refine ver_lift (x := iAdd mu 1) ho (add_roo k1 (by decide)) fun k hk => ?_
        obtain ⟨rfl, hk⟩ := hk
        refine ver_tell_last (.lt hz hk) (fun a ha hC => ?_) fun d2 hd2 hl2 h2 => ?_
        · have := sound a ((h1 a).1 ha).1 hC
          show z.eval a < mu + 1
          omega
        · refine ⟨fun a ha => ((h1 a).1 ((h2 a).1 ha).1).1, fun _ a ha => ?_⟩
          have l1 : z.eval a < mu + 1 := ((h2 a).1 ha).2
          have l2 : mu ≤ z.eval a := ((h1 a).1 ((h2 a).1 ha).1).2
          have e : z.eval a = mu := by omega
          rw [e, same a ((h1 a).1 ((h2 a).1 ha).1).1]
          exact ⟨k4, k2⟩

end
end Gcs.MinDistance
