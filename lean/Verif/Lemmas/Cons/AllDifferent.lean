import Verif.Model.Cons.AllDifferent
import Verif.Spec.AllDifferent
import Verif.Lemmas.Cons.Prune
import Verif.Lemmas.Cons.NValue
import Verif.Lemmas.Cons.LinearConsistent

/-!
# The all-different propagator
-/

namespace Gcs
open IntervalSet

/-- Values for variables that share nothing can be put together. -/
theorem exists_values {d : Doms} (hd : DomsOK d) : ∀ (vars : List VarId), (vars.filterMap VarId.underlyingIndex).Nodup → ∀ f : Nat → Int,
    (∀ (i : Nat) v, vars[i]? = some v → Poss d v (f i)) → ∃ b, Within d b ∧ ∀ (i : Nat) v, vars[i]? = some v → v.eval b = f i
  | [], _, _, _ => by obtain ⟨b, hb⟩ := exists_within hd; exact ⟨b, hb, by simp⟩
  | v :: vs, hn, f, hf => by
    have hn' : (vs.filterMap VarId.underlyingIndex).Nodup := by
      rw [List.filterMap_cons] at hn
      cases e : v.underlyingIndex with
      | none => rw [e] at hn; exact hn
      | some k => rw [e] at hn; exact (List.nodup_cons.1 hn).2
    obtain ⟨b, hb, h⟩ := exists_values hd vs hn' (fun i => f (i + 1)) fun i w hw => hf (i + 1) w hw
    obtain ⟨a, ha, e⟩ := hf 0 v rfl
    have other : ∀ k, v.underlyingIndex = some k → ∀ w ∈ vs, w.underlyingIndex ≠ some k := fun k hk w hw hc => by
      rw [List.filterMap_cons, hk] at hn
      exact (List.nodup_cons.1 hn).1 (List.mem_filterMap.2 ⟨w, hw, hc⟩)
    cases hk : v.underlyingIndex with
    | none =>
      refine ⟨b, hb, fun i w hw => ?_⟩
      cases i with
      | zero =>
        cases hw
        cases v with
        | const c => exact e
        | simple i => cases hk
        | view i n k => cases hk
      | succ i => exact h i w hw
    | some k =>
      refine ⟨_, hb.upd ha k, fun i w hw => ?_⟩
      cases i with
      | zero =>
        cases hw
        rw [← e]
        cases v with
        | const c => rfl
        | simple i => cases hk; simp [VarId.eval]
        | view i n l => cases hk; simp [VarId.eval]
      | succ i =>
        rw [← h i w hw]
        have hne := other k hk w (List.mem_of_getElem? hw)
        cases w with
        | const c => rfl
        | simple j =>
          have hjk : j ≠ k := fun e => hne (by rw [e]; rfl)
          simp only [VarId.eval, if_neg hjk]
        | view j n l =>
          have hjk : j ≠ k := fun e => hne (by rw [e]; rfl)
          simp only [VarId.eval, if_neg hjk]

namespace AllDifferent

section
variable {d : Doms} {vars : List VarId} {vals excluded : List Int} {v : VarId}

/-- Right edges for a variable. -/
def Edges (d : Doms) (vals : List Int) (v : VarId) (es : List Nat) : Prop := ∀ r, r ∈ es ↔ ∃ y, vals[r]? = some y ∧ Poss d v y

theorem probe_roo (hd : DomsOK d) (hv : v.Valid d.length) : ∀ (k : Nat) (ys : List Int), (∀ y ∈ ys, InI64 y) →
    RightOrOverflow (probe d v k ys) (fun es => ∀ r, r ∈ es ↔ k ≤ r ∧ ∃ y, ys[r - k]? = some y ∧ Poss d v y)
  | k, [], _ => .pure (by simp)
  | k, y :: ys, hy => by
    refine (inDomain_spec hd hv y (hy y (by simp))).bind fun b hb => ?_
    refine (probe_roo hd hv (k + 1) ys fun z hz => hy z (by simp [hz])).bind fun rs hrs => .pure fun r => ?_
    have tail : r ∈ rs ↔ k + 1 ≤ r ∧ ∃ z, (y :: ys)[r - k]? = some z ∧ Poss d v z := by
      rw [hrs]
      constructor
      · rintro ⟨h, z, h1, h2⟩
        refine ⟨h, z, ?_, h2⟩
        have : r - k = (r - (k + 1)) + 1 := by omega
        rw [this, List.getElem?_cons_succ]; exact h1
      · rintro ⟨h, z, h1, h2⟩
        refine ⟨h, z, ?_, h2⟩
        have : r - k = (r - (k + 1)) + 1 := by omega
        rw [this, List.getElem?_cons_succ] at h1; exact h1
    cases b with
    | true =>
      rw [if_pos rfl, List.mem_cons, tail]
      constructor
      · rintro (rfl | ⟨h, h'⟩)
        · exact ⟨Nat.le_refl _, y, by simp, hb.1 rfl⟩
        · exact ⟨by omega, h'⟩
      · rintro ⟨h, h'⟩
        by_cases e : r = k
        · exact .inl e
        · exact .inr ⟨by omega, h'⟩
    | false =>
      rw [if_neg (by simp), tail]
      refine ⟨fun ⟨h, h'⟩ => ⟨by omega, h'⟩, fun ⟨h, z, h1, h2⟩ => ⟨?_, z, h1, h2⟩⟩
      apply Nat.lt_of_le_of_ne h
      rintro rfl
      rw [Nat.sub_self, List.getElem?_cons_zero] at h1
      cases h1
      have := hb.2 h2
      cases this

theorem least_le : ∀ (y : Int) (ys : List Int), least y ys ≤ y ∧ (∀ z ∈ ys, least y ys ≤ z) ∧ (least y ys = y ∨ least y ys ∈ ys)
  | y, [] => ⟨Int.le_refl _, by simp, .inl rfl⟩
  | y, z :: zs => by
    obtain ⟨h1, h2, h3⟩ := least_le (if z < y then z else y) zs
    have m : (if z < y then z else y) ≤ y ∧ (if z < y then z else y) ≤ z := by split <;> omega
    unfold least
    refine ⟨?_, fun w hw => ?_, ?_⟩
    · omega
    · rcases List.mem_cons.1 hw with rfl | hw
      · omega
      · exact h2 w hw
    · rcases h3 with h3 | h3
      · split at h3
        · rename_i hc; rw [if_pos hc, h3]; simp
        · rename_i hc; rw [if_neg hc, h3]; simp
      · exact .inr (by simp [h3])

theorem le_greatest : ∀ (y : Int) (ys : List Int), y ≤ greatest y ys ∧ (∀ z ∈ ys, z ≤ greatest y ys) ∧ (greatest y ys = y ∨ greatest y ys ∈ ys)
  | y, [] => ⟨Int.le_refl _, by simp, .inl rfl⟩
  | y, z :: zs => by
    obtain ⟨h1, h2, h3⟩ := le_greatest (if z < y then y else z) zs
    have m : y ≤ (if z < y then y else z) ∧ z ≤ (if z < y then y else z) := by split <;> omega
    unfold greatest
    refine ⟨?_, fun w hw => ?_, ?_⟩
    · omega
    · rcases List.mem_cons.1 hw with rfl | hw
      · omega
      · exact h2 w hw
    · rcases h3 with h3 | h3
      · split at h3
        · rename_i hc; rw [if_pos hc, h3]; simp
        · rename_i hc; rw [if_neg hc, h3]; simp
      · exact .inr (by simp [h3])

/-- All values have a slot. -/
def Covers (vals : List Int) (t : Int × Nat) : Prop := InI64 t.1 ∧ ∀ y ∈ vals, t.1 ≤ y ∧ (y - t.1).toNat < t.2

theorem table_roo (hy : ∀ y ∈ vals, InI64 y) : RightOrOverflow (table vals) (fun t => ∀ x, t = some x → Covers vals x) := by
  unfold table
  split
  · exact .pure nofun
  · rename_i y ys
    split
    · obtain ⟨l1, l2, l3⟩ := least_le y ys
      obtain ⟨g1, g2, g3⟩ := le_greatest y ys
      have hl : InI64 (least y ys) := by rcases l3 with h | h; rw [h]; exact hy y (by simp); exact hy _ (by simp [h])
      have hg : InI64 (greatest y ys) := by rcases g3 with h | h; rw [h]; exact hy y (by simp); exact hy _ (by simp [h])
      refine (sub_roo hg hl).bind fun w hw => .pure fun x hx => ?_
      split at hx
      · cases hx
        refine ⟨hl, fun z hz => ?_⟩
        have h1 : least y ys ≤ z ∧ z ≤ greatest y ys := by
          rcases List.mem_cons.1 hz with rfl | hz
          · exact ⟨l1, g1⟩
          · exact ⟨l2 z hz, g2 z hz⟩
        refine ⟨h1.1, ?_⟩
        show (z - least y ys).toNat < w.toNat + 1
        have := hw.1
        omega
      · cases hx
    · exact .pure nofun

theorem slot_roo {t : Int × Nat} (ht : Covers vals t) {y : Int} (hy : InI64 y) : RightOrOverflow (slot vals t y) (fun o => o = vals.idxOf? y) := by
  unfold slot
  have none_of : y ∉ vals → vals.idxOf? y = none := fun h => List.idxOf?_eq_none_iff.2 h
  split
  · refine .pure (none_of fun h => ?_).symm
    have := (ht.2 y h).1; omega
  · refine (sub_roo hy ht.1).bind fun o ho => ?_
    split
    · exact .pure rfl
    · refine .pure (none_of fun h => ?_).symm
      have := (ht.2 y h).2
      rw [ho.1] at *; omega

theorem marks_roo {t : Int × Nat} (ht : Covers vals t) : ∀ ys : List Int, (∀ y ∈ ys, InI64 y) → RightOrOverflow (marks vals t ys) (fun ms => ∀ r, r ∈ ms ↔ ∃ y ∈ ys, vals.idxOf? y = some r)
  | [], _ => .pure (by simp)
  | y :: ys, hy => by
    refine (slot_roo ht (hy y (by simp))).bind fun o ho => (marks_roo ht ys fun z hz => hy z (by simp [hz])).bind fun rs hrs => .pure fun r => ?_
    rw [List.mem_append, hrs, ho]
    simp

theorem idxOf?_iff (hn : vals.Nodup) {y : Int} {r : Nat} : vals.idxOf? y = some r ↔ vals[r]? = some y := by
  rw [List.idxOf?, List.findIdx?_eq_some_iff_getElem]
  constructor
  · rintro ⟨h, h1, _⟩
    rw [List.getElem?_eq_getElem h]
    simpa using h1
  · intro h
    obtain ⟨hl, e⟩ := List.getElem?_eq_some_iff.1 h
    refine ⟨hl, by simpa using e, fun j hj => ?_⟩
    have : vals[j] ≠ vals[r] := fun hc => by
      have := (List.nodup_iff_pairwise_ne.1 hn)
      exact List.pairwise_iff_getElem.1 this j r (by omega) hl hj hc
    simp; rw [e] at this; exact this

theorem sweep_roo {t : Int × Nat} (hn : vals.Nodup) (ht : Covers vals t) (hd : DomsOK d) (hv : v.Valid d.length) : RightOrOverflow (sweep d vals t v) (Edges d vals v) := by
  refine (listed_roo hd hv).bind fun g hg => (marks_roo ht g.1 fun y hy => (hg.1 y hy).1).bind fun ms hms => ?_
  split
  · rename_i e he
    rw [hg.2.2 e he]; exact .inl rfl
  · rename_i he
    refine .pure fun r => ?_
    simp only [List.mem_filter, List.mem_range, decide_eq_true_eq, hms, idxOf?_iff hn]
    constructor
    · rintro ⟨_, y, h1, h2⟩
      exact ⟨y, h2, (hg.1 y h1).2⟩
    · rintro ⟨y, h1, h2⟩
      exact ⟨(List.getElem?_eq_some_iff.1 h1).1, y, hg.2.1 he y h2, h1⟩

theorem mapAll_roo {α β : Type} {f : α → Chk β} {P : α → β → Prop} : ∀ xs : List α, (∀ x ∈ xs, RightOrOverflow (f x) (P x)) →
    RightOrOverflow (mapAll f xs) (fun ys => ys.length = xs.length ∧ ∀ (i : Nat) x y, xs[i]? = some x → ys[i]? = some y → P x y)
  | [], _ => .pure (by simp)
  | x :: xs, h => by
    refine (h x (by simp)).bind fun y hy => (mapAll_roo xs fun z hz => h z (by simp [hz])).bind fun ys hys => .pure ⟨by simp [hys.1], fun i x' y' h1 h2 => ?_⟩
    cases i with
    | zero => cases h1; cases h2; exact hy
    | succ i => exact hys.2 i x' y' h1 h2

theorem phantoms_roo (hd : DomsOK d) (he : ∀ y ∈ excluded, InI64 y) : ∀ (k : Nat) (vs : List VarId), (∀ v ∈ vs, v.Valid d.length) →
    RightOrOverflow (phantoms d excluded k vs) (fun x => x.1.length = vs.length ∧ k ≤ x.2 ∧ (∀ (i : Nat) r, x.1[i]? = some (some r) → k ≤ r ∧ r < x.2) ∧
      (∀ (i j : Nat) r, x.1[i]? = some (some r) → x.1[j]? = some (some r) → i = j) ∧ ∀ (i : Nat) v, vs[i]? = some v → ((∃ r, x.1[i]? = some (some r)) ↔ ∃ y ∈ excluded, Poss d v y))
  | k, [], _ => .pure (by simp)
  | k, v :: vs, hv => by
    refine (anyOf_roo (P := Poss d v) excluded fun y hy => inDomain_spec hd (hv v (by simp)) y (he y hy)).bind fun b hb => ?_
    cases b with
    | true =>
      rw [if_pos rfl]
      refine (phantoms_roo hd he (k + 1) vs fun w hw => hv w (by simp [hw])).bind fun x hx => .pure ?_
      obtain ⟨h1, h2, h3, h4, h5⟩ := hx
      refine ⟨by simp [h1], by show k ≤ x.2; omega, fun i r hr => ?_, fun i j r hi hj => ?_, fun i w hw => ?_⟩
      · cases i with
        | zero => simp at hr; subst hr; exact ⟨Nat.le_refl _, by show k < x.2; omega⟩
        | succ i => have := h3 i r (by simpa using hr); exact ⟨by omega, this.2⟩
      · cases i with
        | zero =>
          cases j with
          | zero => rfl
          | succ j =>
            simp at hi; subst hi
            have := h3 j _ (by simpa using hj); omega
        | succ i =>
          cases j with
          | zero =>
            simp at hj; subst hj
            have := h3 i _ (by simpa using hi); omega
          | succ j => rw [h4 i j r (by simpa using hi) (by simpa using hj)]
      · cases i with
        | zero => cases hw; exact ⟨fun _ => hb.1 rfl, fun _ => ⟨k, rfl⟩⟩
        | succ i => simpa using h5 i w (by simpa using hw)
    | false =>
      rw [if_neg (by simp)]
      refine (phantoms_roo hd he k vs fun w hw => hv w (by simp [hw])).bind fun x hx => .pure ?_
      obtain ⟨h1, h2, h3, h4, h5⟩ := hx
      refine ⟨by simp [h1], h2, fun i r hr => ?_, fun i j r hi hj => ?_, fun i w hw => ?_⟩
      · cases i with
        | zero => simp at hr
        | succ i => exact h3 i r (by simpa using hr)
      · cases i with
        | zero => simp at hi
        | succ i =>
          cases j with
          | zero => simp at hj
          | succ j => rw [h4 i j r (by simpa using hi) (by simpa using hj)]
      · cases i with
        | zero =>
          cases hw
          refine ⟨fun ⟨r, hr⟩ => by simp at hr, fun h => ?_⟩
          have := hb.2 h
          cases this
        | succ i => simpa using h5 i w (by simpa using hw)

/-- The graph shows what values are possible. -/
structure Shows (d : Doms) (vars : List VarId) (vals excluded : List Int) (G : Gac.Graph) : Prop where
  wf : G.WF
  nL : G.nL = vars.length
  nVals : G.nVals = vals.length
  real : ∀ (i : Nat) v r, vars[i]? = some v → r < G.nVals → (r ∈ G.adj i ↔ ∃ y, vals[r]? = some y ∧ Poss d v y)
  phantom : ∀ (i : Nat) v, vars[i]? = some v → ((∃ r ∈ G.adj i, G.nVals ≤ r) ↔ ∃ y ∈ excluded, Poss d v y)
  own : ∀ i j r, r ∈ G.adj i → r ∈ G.adj j → G.nVals ≤ r → i = j

theorem graph_roo (hn : vals.Nodup) (hd : DomsOK d) (hv : ∀ v ∈ vars, v.Valid d.length) (hy : ∀ y ∈ vals, InI64 y) (he : ∀ y ∈ excluded, InI64 y) :
    RightOrOverflow (graph d vars vals excluded) (Shows d vars vals excluded) := by
  refine (table_roo hy).bind fun t ht => ?_
  have edges : RightOrOverflow (AllDifferent.edges d vars vals t)
      (fun es => es.length = vars.length ∧ ∀ (i : Nat) v y, vars[i]? = some v → es[i]? = some y → Edges d vals v y) := by
    cases t with
    | none => exact mapAll_roo vars fun v h => (probe_roo hd (hv v h) 0 vals hy).mono fun es h r => by simpa using h r
    | some t => exact mapAll_roo vars fun v h => sweep_roo hn (ht t rfl) hd (hv v h)
  refine edges.bind fun es hes => (phantoms_roo hd he vals.length vars hv).bind fun ps hps => .pure ?_
  obtain ⟨e1, e2⟩ := hes
  obtain ⟨p1, p2, p3, p4, p5⟩ := hps
  have esAt : ∀ (i : Nat) v, vars[i]? = some v → ∃ y, es[i]? = some y ∧ Edges d vals v y := fun i v h => by
    have hl : i < es.length := e1 ▸ (List.getElem?_eq_some_iff.1 h).1
    exact ⟨es[i], List.getElem?_eq_getElem hl, e2 i v _ h (List.getElem?_eq_getElem hl)⟩
  have esLt : ∀ i r, r ∈ es.getD i [] → r < vals.length := fun i r hr => by
    rw [List.getD_eq_getElem?_getD] at hr
    cases h : es[i]? with
    | none => rw [h] at hr; simp at hr
    | some y =>
      rw [h] at hr
      have hl : i < vars.length := e1 ▸ (List.getElem?_eq_some_iff.1 h).1
      obtain ⟨z, hz, _⟩ := (e2 i _ y (List.getElem?_eq_getElem hl) h r).1 hr
      exact (List.getElem?_eq_some_iff.1 hz).1
  have psIff : ∀ i r, r ∈ (ps.1.getD i none).toList ↔ ps.1[i]? = some (some r) := fun i r => by
    rw [List.getD_eq_getElem?_getD]
    cases h : ps.1[i]? with
    | none => simp
    | some o => cases o <;> simp [eq_comm]
  have psGe : ∀ i r, r ∈ (ps.1.getD i none).toList → vals.length ≤ r ∧ r < ps.2 := fun i r h => p3 i r ((psIff i r).1 h)
  refine ⟨⟨fun i _ r hr => ?_, p2⟩, rfl, rfl, fun i v r h hr => ?_, fun i v h => ?_, fun i j r hi hj hr => ?_⟩
  · rcases List.mem_append.1 hr with hr | hr
    · exact Nat.lt_of_lt_of_le (esLt i r hr) p2
    · exact (psGe i r hr).2
  · obtain ⟨y, h1, h2⟩ := esAt i v h
    show r ∈ es.getD i [] ++ (ps.1.getD i none).toList ↔ _
    rw [List.mem_append, List.getD_eq_getElem?_getD, h1, Option.getD_some, h2 r]
    refine ⟨fun hh => hh.resolve_right fun hc => ?_, .inl⟩
    have := (psGe i r hc).1
    have : r < vals.length := hr
    omega
  · show (∃ r ∈ es.getD i [] ++ (ps.1.getD i none).toList, vals.length ≤ r) ↔ _
    rw [← p5 i v h]
    constructor
    · rintro ⟨r, hr, hge⟩
      rcases List.mem_append.1 hr with hr | hr
      · have := esLt i r hr; omega
      · exact ⟨r, (psIff i r).1 hr⟩
    · rintro ⟨r, hr⟩
      exact ⟨r, List.mem_append_right _ ((psIff i r).2 hr), (p3 i r hr).1⟩
  · have : ∀ k, r ∈ es.getD k [] ++ (ps.1.getD k none).toList → ps.1[k]? = some (some r) := fun k hk => by
      rcases List.mem_append.1 hk with hk | hk
      · have := esLt k r hk
        have : vals.length ≤ r := hr
        omega
      · exact (psIff k r).1 hk
    exact p4 i j r (this i hi) (this j hj)

/-- Possible values for all variables that satisfy the constraint, not looking at how the variables are related. -/
def Sel (d : Doms) (vars : List VarId) (vals excluded : List Int) (f : Nat → Int) : Prop :=
  ∀ (i : Nat) v, vars[i]? = some v → Poss d v (f i) ∧ (f i ∈ vals ∨ f i ∈ excluded) ∧ ∀ (j : Nat), j < vars.length → i ≠ j → f i = f j → f i ∈ excluded

open Classical in
theorem sel_of_choice {G : Gac.Graph} (hG : Shows d vars vals excluded G) (hn : vals.Nodup) {c : Nat → Nat} (hc : Gac.Choice G c) :
    ∃ f, Sel d vars vals excluded f ∧ ∀ i < vars.length, c i < G.nVals → vals[c i]? = some (f i) := by
  have hlen : ∀ i, i < vars.length → i < G.nL := fun i h => hG.nL ▸ h
  have key : ∀ i, i < vars.length → ∃ y, (∀ v, vars[i]? = some v → Poss d v y) ∧ (c i < G.nVals → vals[c i]? = some y) ∧ (¬ c i < G.nVals → y ∈ excluded) := by
    intro i hi
    have hv : vars[i]? = some vars[i] := List.getElem?_eq_getElem hi
    by_cases h : c i < G.nVals
    · obtain ⟨y, h1, h2⟩ := (hG.real i _ (c i) hv h).1 (hc.edge i (hlen i hi))
      exact ⟨y, fun v e => by rw [hv] at e; cases e; exact h2, fun _ => h1, fun h' => absurd h h'⟩
    · obtain ⟨y, h1, h2⟩ := (hG.phantom i _ hv).1 ⟨c i, hc.edge i (hlen i hi), by omega⟩
      exact ⟨y, fun v e => by rw [hv] at e; cases e; exact h2, fun h' => absurd h' h, fun _ => h1⟩
  let f : Nat → Int := fun i => if h : i < vars.length then (key i h).choose else 0
  have hf : ∀ i (h : i < vars.length), (∀ v, vars[i]? = some v → Poss d v (f i)) ∧ (c i < G.nVals → vals[c i]? = some (f i)) ∧ (¬ c i < G.nVals → f i ∈ excluded) := fun i h => by
    have := (key i h).choose_spec
    simp only [f, dif_pos h]; exact this
  refine ⟨f, fun i v hv => ?_, fun i hi h => (hf i hi).2.1 h⟩
  have hi := (List.getElem?_eq_some_iff.1 hv).1
  obtain ⟨h1, h2, h3⟩ := hf i hi
  refine ⟨h1 v hv, ?_, fun j hj hij e => ?_⟩
  · by_cases h : c i < G.nVals
    · exact .inl (List.mem_of_getElem? (h2 h))
    · exact .inr (h3 h)
  · obtain ⟨_, k2, k3⟩ := hf j hj
    by_cases h : c i < G.nVals
    · by_cases h' : c j < G.nVals
      · have e1 := h2 h; have e2 := k2 h'
        have : c i = c j := (List.getElem?_inj (List.getElem?_eq_some_iff.1 e1).1 hn).1 (by rw [e1, e2, e])
        exact absurd (hc.inj i (hlen i hi) j (hlen j hj) this) hij
      · rw [e]; exact k3 h'
    · exact h3 h

open Classical in
theorem choice_of_sel {G : Gac.Graph} (hG : Shows d vars vals excluded G) {f : Nat → Int} (hf : Sel d vars vals excluded f) :
    ∃ c, Gac.Choice G c ∧ ∀ i < vars.length, f i ∉ excluded → vals[c i]? = some (f i) := by
  have key : ∀ i, i < vars.length → ∃ r ∈ G.adj i, (f i ∈ excluded → G.nVals ≤ r) ∧ (f i ∉ excluded → vals[r]? = some (f i)) := by
    intro i hi
    have hv : vars[i]? = some vars[i] := List.getElem?_eq_getElem hi
    obtain ⟨h1, h2, _⟩ := hf i _ hv
    by_cases h : f i ∈ excluded
    · obtain ⟨r, k1, k2⟩ := (hG.phantom i _ hv).2 ⟨f i, h, h1⟩
      exact ⟨r, k1, fun _ => k2, fun h' => absurd h h'⟩
    · obtain ⟨r, hr⟩ := List.mem_iff_getElem?.1 (h2.resolve_right h)
      have : r < G.nVals := hG.nVals ▸ (List.getElem?_eq_some_iff.1 hr).1
      exact ⟨r, (hG.real i _ r hv this).2 ⟨f i, hr, h1⟩, fun h' => absurd h' h, fun _ => hr⟩
  let c : Nat → Nat := fun i => if h : i < vars.length then (key i h).choose else 0
  have hc : ∀ i (h : i < vars.length), c i ∈ G.adj i ∧ (f i ∈ excluded → G.nVals ≤ c i) ∧ (f i ∉ excluded → vals[c i]? = some (f i)) := fun i h => by
    have := (key i h).choose_spec
    simp only [c, dif_pos h]; exact this
  refine ⟨c, ⟨fun i hi => (hc i (hG.nL ▸ hi)).1, fun i hi j hj e => ?_⟩, fun i hi h => (hc i hi).2.2 h⟩
  obtain ⟨a1, a2, a3⟩ := hc i (hG.nL ▸ hi)
  obtain ⟨b1, b2, b3⟩ := hc j (hG.nL ▸ hj)
  have lt : ∀ k (h : k < vars.length), f k ∉ excluded → c k < G.nVals := fun k h hk => by
    rw [hG.nVals]; exact (List.getElem?_eq_some_iff.1 ((hc k h).2.2 hk)).1
  by_cases h : f i ∈ excluded
  · exact hG.own i j (c i) a1 (e ▸ b1) (a2 h)
  · by_cases h' : f j ∈ excluded
    · exact hG.own i j (c j) (e ▸ a1) b1 (b2 h')
    · have e1 := a3 h; have e2 := b3 h'
      rw [e, e2] at e1
      refine Decidable.byContradiction fun hne => h ?_
      have hl : i < vars.length := hG.nL ▸ hi
      exact (hf i _ (List.getElem?_eq_getElem hl)).2.2 j (hG.nL ▸ hj) hne (Option.some.inj e1).symm

end

section
variable {σ μ : Type} {J : Job} {d : Doms} {vars : List VarId} {vals excluded : List Int} {old : Nat → List (Option Nat)}

/-- Facts about the values. -/
structure Vals (vals excluded : List Int) : Prop where
  nodup : vals.Nodup
  valsOK : ∀ y ∈ vals, InI64 y
  excludedOK : ∀ y ∈ excluded, InI64 y
  apart : ∀ y ∈ vals, y ∉ excluded

structure Values (root : Doms) (vars : List VarId) (vals excluded : List Int) : Prop extends Vals vals excluded where
  all : ∀ v ∈ vars, ∀ y, Poss root v y → y ∈ vals ∨ y ∈ excluded

/-- What the propagator leaves: there are values for all variables together, and every value left is among such values. -/
def Pruned (d : Doms) (vars : List VarId) (vals excluded : List Int) (d' : Doms) : Prop :=
  (∃ f, Sel d vars vals excluded f) ∧ ∀ a, Within d' a ↔ Within d a ∧ ∀ (i : Nat) v, vars[i]? = some v → v.eval a ∈ vals → ∃ f, Sel d vars vals excluded f ∧ f i = v.eval a

theorem sel_of_apart {a : Asg} (ha : Within d a) (hr : ∀ v ∈ vars, v.eval a ∈ vals ∨ v.eval a ∈ excluded) (hA : DifferExcept vars excluded a) :
    Sel d vars vals excluded (fun i => (vars[i]?.map (·.eval a)).getD 0) := by
  intro i v hv
  simp only [hv, Option.map_some, Option.getD_some]
  refine ⟨ha.poss v, hr v (List.mem_of_getElem? hv), fun j hj hij e => ?_⟩
  rw [List.getElem?_eq_getElem hj, Option.map_some, Option.getD_some] at e
  exact hA i j v _ hv (List.getElem?_eq_getElem hj) hij e

theorem gac_vals (ho : J.R .overflow) (hf : Vals vals excluded) (hv : ∀ v ∈ vars, v.Valid J.n) (hold : ∀ k, Gac.Injective (old k))
    (hC : ∀ a, J.C a → (∀ v ∈ vars, v.eval a ∈ vals ∨ v.eval a ∈ excluded) ∧ DifferExcept vars excluded a) (hd : DomsOK d) (hl : d.length = J.n) :
    (gac (σ := σ) (μ := μ) vars vals excluded old).Ver J (fun _ => False) (fun _ d' => Pruned d vars vals excluded d') d := by
  rintro s rfl
  refine ver_lift ho (graph_roo hf.nodup hd (fun v h => hl.symm ▸ hv v h) hf.valsOK hf.excludedOK) fun G hG => ?_
  have hinj : Gac.Injective (if excluded = [] then old s.total else []) := by
    split
    · exact hold _
    · intro i j r h; simp at h
  have sel : ∀ a, Within s.doms a → J.C a → Sel s.doms vars vals excluded (fun i => (vars[i]?.map (·.eval a)).getD 0) := fun a ha hc => sel_of_apart ha (hC a hc).1 (hC a hc).2
  rcases Gac.prune_spec hG.wf hinj with ⟨h1, h2⟩ | ⟨dels, h1, h2, h3⟩
  · rw [h1]
    refine ver_tell_last trivial (fun a ha hc => ?_) fun d' _ _ h => ?_
    · obtain ⟨c, hc, _⟩ := choice_of_sel hG (sel a ha hc)
      exact absurd hc (h2 c)
    · have : ∀ a, ¬ Within d' a := fun a ha => ((h a).1 ha).2
      obtain ⟨b, hb⟩ := exists_within ‹DomsOK d'›
      exact absurd hb (this b)
  · rw [h1]
    have hdel : ∀ e ∈ dels, ∃ v y, vars[e.1]? = some v ∧ vals[e.2]? = some y := fun e he => by
      obtain ⟨k1, _, k3, _⟩ := (h3 e.1 e.2).1 he
      exact ⟨_, _, List.getElem?_eq_getElem (hG.nL ▸ k1), List.getElem?_eq_getElem (hG.nVals ▸ k3)⟩
    obtain ⟨c0, hc0⟩ := h2
    obtain ⟨f0, hf0, _⟩ := sel_of_choice hG hf.nodup hc0
    -- what deleting means
    have dead : ∀ i r v y, vars[i]? = some v → vals[r]? = some y → Poss s.doms v y → ((i, r) ∈ dels ↔ ¬ ∃ f, Sel s.doms vars vals excluded f ∧ f i = y) := by
      intro i r v y hi hr hp
      have hil := (List.getElem?_eq_some_iff.1 hi).1
      have hrl : r < G.nVals := hG.nVals ▸ (List.getElem?_eq_some_iff.1 hr).1
      rw [h3]
      constructor
      · rintro ⟨_, _, _, k⟩ ⟨f, hf1, rfl⟩
        obtain ⟨c, hc, e⟩ := choice_of_sel hG hf1
        have e' := e i hil (hf.apart _ (List.mem_of_getElem? hr))
        exact k c hc ((List.getElem?_inj (List.getElem?_eq_some_iff.1 e').1 hf.nodup).1 (by rw [e', hr]))
      · intro hno
        refine ⟨hG.nL ▸ hil, (hG.real i v r hi hrl).2 ⟨y, hr, hp⟩, hrl, fun c hc e => hno ?_⟩
        obtain ⟨f, hf1, hf2⟩ := sel_of_choice hG hf.nodup hc
        refine ⟨f, hf1, ?_⟩
        have := hf2 i hil (e.symm ▸ hrl)
        rw [e, hr] at this; cases this; rfl
    have main : ∀ (es : List (Nat × Nat)) (d1 : Doms), (∀ e ∈ es, e ∈ dels) → DomsOK d1 → d1.length = J.n → (∀ a, Within d1 a → Within s.doms a) →
        (Prog.forEach (delete vars vals) es : Prog σ μ Unit).Ver J (fun _ => False) (fun _ d' => ∀ a, Within d' a ↔ Within d1 a ∧ ∀ e ∈ es, ∀ v y, vars[e.1]? = some v → vals[e.2]? = some y → v.eval a ≠ y) d1 := by
      intro es
      induction es with
      | nil => intro d1 _ _ _ _; exact fun a => by simp
      | cons e es ih =>
        intro d1 hes hd1 hl1 hs1
        obtain ⟨v, y, hv1, hy1⟩ := hdel e (hes e (by simp))
        have hvm := List.mem_of_getElem? hv1
        have hym := List.mem_of_getElem? hy1
        have hq : (delete vars vals e : Prog σ μ Unit) = Prog.tell (.cond (Cond.ne v y)) := by
          simp only [delete, vecAt, hv1, hy1]; rfl
        show ((delete vars vals e).bind fun _ => Prog.forEach (delete vars vals) es).Ver _ _ _ _
        rw [hq]
        refine ver_tell (.ne (hv v hvm) (hf.valsOK y hym)) (fun a ha hc => ?_) fun d2 hd2 hl2 h => ?_
        · rw [Lit.holds_ne]
          intro hE
          refine (dead e.1 e.2 v y hv1 hy1 (hE ▸ (hs1 a ha).poss v)).1 (hes e (by simp)) ⟨_, sel a (hs1 a ha) hc, ?_⟩
          simp [hv1, hE]
        · refine ver_mono (fun _ d' hd' a => ?_) _ _ (ih d2 (fun x hx => hes x (by simp [hx])) hd2 hl2 fun a ha => hs1 a ((h a).1 ha).1)
          rw [hd', h, List.forall_mem_cons, Lit.holds_ne, and_assoc]
          refine and_congr_right fun _ => and_congr_left fun _ => ?_
          constructor
          · intro hne v' y' e1 e2
            rw [hv1] at e1; rw [hy1] at e2; cases e1; cases e2; exact hne
          · exact fun hh => hh v y hv1 hy1
    refine ver_mono (fun _ d' hd' => ⟨⟨f0, hf0⟩, fun a => ?_⟩) _ _ (main dels s.doms (fun _ h => h) hd hl fun _ h => h)
    rw [hd']
    refine and_congr_right fun ha => ⟨fun hh i v hi hm => ?_, fun hh e he v y hi hr hE => ?_⟩
    · obtain ⟨r, hr⟩ := List.mem_iff_getElem?.1 hm
      refine Classical.byContradiction fun hno => ?_
      exact hh (i, r) ((dead i r v _ hi hr (ha.poss v)).2 hno) v _ hi hr rfl
    · obtain ⟨f, h1, h2⟩ := hh e.1 v hi (hE ▸ List.mem_of_getElem? hr)
      exact (dead e.1 e.2 v y hi hr (hE ▸ ha.poss v)).1 he ⟨f, h1, h2.trans hE⟩

theorem gac_ver {root : Doms} (ho : J.R .overflow) (hf : Values root vars vals excluded) (hv : ∀ v ∈ vars, v.Valid J.n) (hold : ∀ k, Gac.Injective (old k))
    (hC : ∀ a, J.C a → Within root a ∧ DifferExcept vars excluded a) (hd : DomsOK d) (hl : d.length = J.n) :
    (gac (σ := σ) (μ := μ) vars vals excluded old).Ver J (fun _ => False) (fun _ d' => Pruned d vars vals excluded d') d :=
  gac_vals ho hf.toVals hv hold (fun a hc => ⟨fun v hm => hf.all v hm _ ((hC a hc).1.poss v), (hC a hc).2⟩) hd hl

end
end AllDifferent
end Gcs
