import Verif.Lemmas.Cons.SmartTableInstall
import Verif.Spec.Lex
import Verif.Props.Cons.Run
import Verif.Props.Stateful

/-!
# C58: SmartTable, and what is made of it
-/

namespace Gcs
open SmartTable

section
variable {σ μ : Type} {n m : Nat} {R : Err → Prop} {root : Doms} {B : Kind σ (List Bool)} {h : Nat} {vars : List VarId} {rows : List (List SmartEntry)} {z0 : List σ} {order : Nat → List VarId}

/-- C58: `SmartTable(vars, rows)`: what is installed is right, and posting does not throw, if no variable is repeated in `vars`, entries are about variables (no views or constants) that are in `vars`, and no two variables in a row
are linked by comparisons in two ways; whatever the order in which the variables of a row are gone through. Missing: views, constants, repeated variables, and cycles, for which this is false (see below). -/
theorem smartTable_right_partial (ho : R .overflow) (hv : ∀ v ∈ vars, v.Valid n) (hn : vars.Nodup) (hp : ∀ es ∈ rows, ∀ e ∈ es, ∀ x ∈ e.vars, (∃ i, x = .simple i) ∧ x ∈ vars) (ha : ∀ es ∈ rows, Acyclic es)
    (hord : ∀ (i : Nat) es, rows[i]? = some es → ∀ v, v ∈ order i ↔ ∃ e ∈ es, v ∈ e.vars) (hz : z0[h]? = some (B.put (List.replicate rows.length true))) :
    (Posted.mk (SmartTable.install (μ := μ) B h order vars rows) (SmartHolds rows) vars).Serves n m R root z0 (· = h) ∧ ∃ items, SmartTable.install (σ := σ) (μ := μ) B h order vars rows root = .ok items := by
  obtain ⟨items, h1, h2⟩ := (Fine.mk hn hp ha hord).install_ok (μ := μ) (m := m) (R := R) (root := root) (B := B) ho hv hz
  refine ⟨fun items' k => ?_, items, h1⟩
  have k : SmartTable.install (μ := μ) B h order vars rows root = .ok items' := k
  rw [h1] at k; cases k
  exact h2

/-- C58: a comparison of a variable with itself, or with a view of it, is refused. -/
theorem smartTable_refuses {es : List SmartEntry} {x y : VarId} {r : Rel} (hes : es ∈ rows) (he : .binary x y r ∈ es) (h1 : x.underlyingIndex = y.underlyingIndex) (h2 : x.underlyingIndex ≠ none) :
    SmartTable.install (σ := σ) (μ := μ) B h order vars rows root = .error .invalidProblem := by
  refine if_pos ⟨es, hes, _, he, ?_⟩
  cases x <;> cases y <;> simp [VarId.underlyingIndex] at h1 h2 <;> simp [aliased, SmartTable.deview, h1]

/-- A way to see that there are no cycles: for each comparison, a set of variables that has one of its ends in it, and both or none of those of the others. -/
theorem Linked.side {es : List SmartEntry} (S : VarId → Prop) (hs : ∀ x y r, SmartEntry.binary x y r ∈ es → (S x ↔ S y)) {u v : VarId} (h : Linked es u v) : S u ↔ S v := by
  induction h with
  | refl => exact Iff.rfl
  | step _ hb ih =>
    rcases hb with hb | hb
    · exact ih.trans (hs _ _ _ hb)
    · exact ih.trans (hs _ _ _ hb).symm

/-- There are none if every comparison has a variable on its left that is nowhere else. -/
theorem acyclic_left {es : List SmartEntry} (h1 : ∀ x y r, SmartEntry.binary x y r ∈ es → ∀ x' y' r', SmartEntry.binary x' y' r' ∈ es → x ≠ y')
    (h2 : ∀ (i j : Nat) x y y' r r', es[i]? = some (.binary x y r) → es[j]? = some (.binary x y' r') → i = j) : Acyclic es := by
  intro i x y r hi hl
  have he := List.mem_of_getElem? hi
  have := (Linked.side (· = x) (fun x' y' r' hm => ?_) hl).1 rfl
  · exact h1 x y r he x y r he this.symm
  · obtain ⟨j, hj, hj'⟩ := List.mem_eraseIdx_iff_getElem?.1 hm
    constructor
    · rintro rfl; exact absurd (h2 j i x' y' y r' r hj' hi) hj
    · rintro rfl; exact absurd rfl (h1 y' y r he x' y' r' (List.mem_of_getElem? hj'))

end

/-! ## Lexicographic order -/

section
variable {σ μ : Type} {n m : Nat} {R : Err → Prop} {root : Doms} {B : Kind σ (List Bool)} {h : Nat} {xs ys : List VarId} {z0 : List σ} {order : Nat → List VarId}

theorem lexRows_get {i : Nat} {es : List SmartEntry} (hi : (lexRows xs ys)[i]? = some es) : i < (xs.zip ys).length ∧ es.length = i + 1 ∧ ∀ (j : Nat) p, (xs.zip ys)[j]? = some p → j ≤ i → es[j]? = some (.binary p.1 p.2 (if j < i then .eq else .gt)) := by
  rw [lexRows, List.getElem?_map, Option.map_eq_some_iff] at hi
  obtain ⟨k, hk, rfl⟩ := hi
  obtain ⟨hk', e⟩ := List.getElem?_eq_some_iff.1 hk
  rw [List.getElem_range] at e; subst e
  rw [List.length_range] at hk'
  refine ⟨hk', by simp only [List.length_append, List.length_map, List.length_take, List.length_drop]; omega, fun j p hj hji => ?_⟩
  by_cases e : j < i
  · rw [List.getElem?_append_left (by simp only [List.length_map, List.length_take]; omega), List.getElem?_map, List.getElem?_take_of_lt e, hj, if_pos e]; rfl
  · have : j = i := by omega
    subst this
    rw [List.getElem?_append_right (by simp only [List.length_map, List.length_take]; omega), List.getElem?_map, if_neg e]
    rw [List.length_map, List.length_take, Nat.min_eq_left (by omega), Nat.sub_self, List.getElem?_take_of_lt (by omega), List.getElem?_drop, Nat.add_zero, hj]; rfl

theorem lexRows_entry {i j : Nat} {es : List SmartEntry} {e : SmartEntry} (hi : (lexRows xs ys)[i]? = some es) (hj : es[j]? = some e) : ∃ p, (xs.zip ys)[j]? = some p ∧ j ≤ i ∧ e = .binary p.1 p.2 (if j < i then .eq else .gt) := by
  obtain ⟨h1, h2, h3⟩ := lexRows_get hi
  have hji := (List.getElem?_eq_some_iff.1 hj).1
  have hz := List.getElem?_eq_getElem (l := xs.zip ys) (i := j) (by omega)
  have := h3 j _ hz (by omega)
  rw [hj] at this
  exact ⟨_, hz, by omega, Option.some.inj this⟩

theorem lex_iff : ∀ {xs ys : List Int}, xs.length = ys.length → (LexGreater false xs ys ↔ ∃ (i : Nat) (p : Int × Int), (xs.zip ys)[i]? = some p ∧ p.1 > p.2 ∧ ∀ (j : Nat) (q : Int × Int), j < i → (xs.zip ys)[j]? = some q → q.1 = q.2)
  | [], [], _ => by simp [LexGreater]
  | [], _ :: _, h => by simp at h
  | _ :: _, [], h => by simp at h
  | x :: xs, y :: ys, h => by
    rw [LexGreater, lex_iff (by simpa using h)]
    constructor
    · rintro (h | ⟨h, i, p, h1, h2, h3⟩)
      · exact ⟨0, (x, y), rfl, h, fun j _ hj => absurd hj (Nat.not_lt_zero j)⟩
      · refine ⟨i + 1, p, h1, h2, fun j q hj hq => ?_⟩
        cases j with
        | zero => cases hq; exact h
        | succ j => exact h3 j q (by omega) hq
    · rintro ⟨i, p, h1, h2, h3⟩
      cases i with
      | zero => cases h1; exact .inl h2
      | succ i => exact .inr ⟨h3 0 (x, y) (by omega) rfl, i, p, h1, h2, fun j q hj hq => h3 (j + 1) q (by omega) hq⟩

theorem lexRows_holds {a : Asg} (hl : xs.length = ys.length) : SmartHolds (lexRows xs ys) a ↔ LexGreater false (xs.map (·.eval a)) (ys.map (·.eval a)) := by
  rw [lex_iff (by simpa using hl), List.zip_map]
  have at_ : ∀ (j : Nat) q, ((xs.zip ys).map (Prod.map (·.eval a) (·.eval a)))[j]? = some q ↔ ∃ p, (xs.zip ys)[j]? = some p ∧ (p.1.eval a, p.2.eval a) = q := fun j q => by
    rw [List.getElem?_map, Option.map_eq_some_iff]; rfl
  simp only [at_]
  constructor
  · rintro ⟨es, hes, hsat⟩
    obtain ⟨i, hi⟩ := List.getElem?_of_mem hes
    obtain ⟨h1, h2, h3⟩ := lexRows_get hi
    have hz := List.getElem?_eq_getElem h1
    refine ⟨i, _, ⟨_, hz, rfl⟩, ?_, ?_⟩
    · have := hsat _ (List.mem_of_getElem? (h3 i _ hz (Nat.le_refl i)))
      rw [if_neg (Nat.lt_irrefl i)] at this; exact this
    · rintro j _ hj ⟨p, hp, rfl⟩
      have := hsat _ (List.mem_of_getElem? (h3 j p hp (Nat.le_of_lt hj)))
      rw [if_pos hj] at this; exact this
  · rintro ⟨i, _, ⟨p, hp, rfl⟩, h2, h3⟩
    have hlt := (List.getElem?_eq_some_iff.1 hp).1
    have hrow := List.getElem?_eq_getElem (l := lexRows xs ys) (i := i) (by simpa [lexRows] using hlt)
    refine ⟨_, List.mem_of_getElem? hrow, fun e he => ?_⟩
    obtain ⟨j, hj⟩ := List.getElem?_of_mem he
    obtain ⟨q, hq, hji, rfl⟩ := lexRows_entry hrow hj
    by_cases e : j < i
    · rw [if_pos e]; exact h3 j _ e ⟨q, hq, rfl⟩
    · have : j = i := by omega
      subst this
      rw [hp] at hq; cases hq
      rw [if_neg e]; exact h2

/-- C58: `LexSmartTable(xs, ys)`, for lists of the same length of different variables. -/
theorem lexSmartTable_right_partial (ho : R .overflow) (hv : ∀ v ∈ xs ++ ys, v.Valid n ∧ ∃ i, v = .simple i) (hn : (xs ++ ys).Nodup) (hl : xs.length = ys.length)
    (hord : ∀ (i : Nat) es, (lexRows xs ys)[i]? = some es → ∀ v, v ∈ order i ↔ ∃ e ∈ es, v ∈ e.vars) (hz : z0[h]? = some (B.put (List.replicate xs.length true))) :
    (Posted.mk (installLex (μ := μ) B h order xs ys) (fun a => LexGreater false (xs.map (·.eval a)) (ys.map (·.eval a))) (xs ++ ys)).Serves n m R root z0 (· = h) ∧ ∃ items, installLex (σ := σ) (μ := μ) B h order xs ys root = .ok items := by
  have hlen : (lexRows xs ys).length = xs.length := by simp [lexRows, hl]
  have hd := List.nodup_append.1 hn
  have in1 : ∀ {j : Nat} {p : VarId × VarId}, (xs.zip ys)[j]? = some p → xs[j]? = some p.1 ∧ ys[j]? = some p.2 := fun h => List.getElem?_zip_eq_some.1 h
  have key := smartTable_right_partial (μ := μ) (m := m) (R := R) (root := root) (B := B) (rows := lexRows xs ys) (order := order) ho (fun v h => (hv v h).1) hn ?_ ?_ hord (by rw [hlen]; exact hz)
  · have e : SmartHolds (lexRows xs ys) = fun a => LexGreater false (xs.map (·.eval a)) (ys.map (·.eval a)) := funext fun a => propext (lexRows_holds hl)
    rw [e] at key; exact key
  · intro es hes e he x hx
    obtain ⟨i, hi⟩ := List.getElem?_of_mem hes
    obtain ⟨j, hj⟩ := List.getElem?_of_mem he
    obtain ⟨p, hp, _, rfl⟩ := lexRows_entry hi hj
    obtain ⟨k1, k2⟩ := in1 hp
    have : x ∈ xs ++ ys := by
      simp only [SmartEntry.vars, List.mem_cons, List.not_mem_nil, or_false] at hx
      rcases hx with rfl | rfl
      · exact List.mem_append_left _ (List.mem_of_getElem? k1)
      · exact List.mem_append_right _ (List.mem_of_getElem? k2)
    exact ⟨(hv x this).2, this⟩
  · intro es hes
    obtain ⟨i, hi⟩ := List.getElem?_of_mem hes
    refine acyclic_left (fun x y r he x' y' r' he' => ?_) fun j k x y y' r r' hj hk => ?_
    · obtain ⟨j, hj⟩ := List.getElem?_of_mem he
      obtain ⟨k, hk⟩ := List.getElem?_of_mem he'
      obtain ⟨p, hp, _, e1⟩ := lexRows_entry hi hj
      obtain ⟨q, hq, _, e2⟩ := lexRows_entry hi hk
      cases e1; cases e2
      exact hd.2.2 _ (List.mem_of_getElem? (in1 hp).1) _ (List.mem_of_getElem? (in1 hq).2)
    · obtain ⟨p, hp, _, e1⟩ := lexRows_entry hi hj
      obtain ⟨q, hq, _, e2⟩ := lexRows_entry hi hk
      cases e1
      have e2 : p.1 = q.1 := by injection e2
      have h1 := (in1 hp).1
      have h2 := (in1 hq).1
      rw [← e2, ← h1] at h2
      exact (List.getElem?_inj (List.getElem?_eq_some_iff.1 h1).1 hd.1).1 h2.symm

end

/-! ## At most one -/

section
variable {σ μ : Type} {n m : Nat} {R : Err → Prop} {root : Doms} {B : Kind σ (List Bool)} {h : Nat} {vars : List VarId} {val : VarId} {z0 : List σ} {order : Nat → List VarId}

theorem countP_eraseIdx {p : VarId → Bool} {l : List VarId} {i : Nat} {x : VarId} (hx : l[i]? = some x) : l.countP p = (l.eraseIdx i).countP p + if p x then 1 else 0 := by
  obtain ⟨hi, rfl⟩ := List.getElem?_eq_some_iff.1 hx
  have e : l = l.take i ++ l[i] :: l.drop (i + 1) := by rw [← List.drop_eq_getElem_cons hi, List.take_append_drop]
  rw [List.eraseIdx_eq_take_drop_succ, List.countP_append]
  conv => lhs; rw [e, List.countP_append, List.countP_cons]
  omega

theorem atMostRows_holds {a : Asg} (h2 : 2 ≤ vars.length) : SmartHolds (atMostRows vars val) a ↔ vars.countP (fun x => x.eval a = val.eval a) ≤ 1 := by
  constructor
  · rintro ⟨es, hes, hsat⟩
    obtain ⟨i, hi, rfl⟩ := List.mem_map.1 hes
    rw [List.mem_range] at hi
    rw [countP_eraseIdx (List.getElem?_eq_getElem hi)]
    have : (vars.eraseIdx i).countP (fun x => x.eval a = val.eval a) = 0 := List.countP_eq_zero.2 fun x hx => by
      have : x.eval a ≠ val.eval a := hsat _ (List.mem_map_of_mem (f := fun x => SmartEntry.binary x val .ne) hx)
      simpa using this
    rw [this]; split <;> omega
  · intro h
    by_cases hex : ∃ x ∈ vars, x.eval a = val.eval a
    · obtain ⟨x, hx, he⟩ := hex
      obtain ⟨i, hi⟩ := List.getElem?_of_mem hx
      rw [countP_eraseIdx hi, if_pos (by simpa using he)] at h
      refine ⟨_, List.mem_map_of_mem (List.mem_range.2 (List.getElem?_eq_some_iff.1 hi).1), fun e he' => ?_⟩
      obtain ⟨y, hy, rfl⟩ := List.mem_map.1 he'
      have h0 : (vars.eraseIdx i).countP (fun x => x.eval a = val.eval a) = 0 := by omega
      have := List.countP_eq_zero.1 h0 y hy
      show y.eval a ≠ val.eval a
      simpa using this
    · refine ⟨_, List.mem_map_of_mem (List.mem_range.2 (show 0 < vars.length by omega)), fun e he' => ?_⟩
      obtain ⟨y, hy, rfl⟩ := List.mem_map.1 he'
      exact fun e => hex ⟨y, List.mem_of_mem_eraseIdx hy, e⟩

/-- C58: `AtMostOneSmartTable(vars, val)`, for different variables. -/
theorem atMostOneSmartTable_right_partial (ho : R .overflow) (hv : ∀ v ∈ vars ++ [val], v.Valid n ∧ ∃ i, v = .simple i) (hn : (vars ++ [val]).Nodup)
    (hord : ∀ (i : Nat) es, (atMostRows vars val)[i]? = some es → ∀ v, v ∈ order i ↔ ∃ e ∈ es, v ∈ e.vars) (hz : z0[h]? = some (B.put (List.replicate vars.length true))) :
    (Posted.mk (installAtMost (μ := μ) B h order vars val) (fun a => vars.countP (fun x => x.eval a = val.eval a) ≤ 1) (vars ++ [val])).Serves n m R root z0 (· = h) ∧ ∃ items, installAtMost (σ := σ) (μ := μ) B h order vars val root = .ok items := by
  by_cases h2 : vars.length < 2
  · refine ⟨fun items k => ?_, [], if_pos h2⟩
    have k : installAtMost (σ := σ) (μ := μ) B h order vars val root = .ok items := k
    rw [installAtMost, if_pos h2] at k; cases k
    exact Linear.Posts.served ⟨[], rfl, fun _ h => (nomatch h), fun a _ => ⟨fun _ _ h => (nomatch h), fun _ => Nat.le_trans List.countP_le_length (by omega)⟩⟩
  · have hlen : (atMostRows vars val).length = vars.length := by simp [atMostRows]
    have hd := List.nodup_append.1 hn
    have key := smartTable_right_partial (μ := μ) (m := m) (R := R) (root := root) (B := B) (rows := atMostRows vars val) (order := order) ho (fun v h => (hv v h).1) hn ?_ ?_ hord (by rw [hlen]; exact hz)
    · have e : SmartHolds (atMostRows vars val) = fun a => vars.countP (fun x => x.eval a = val.eval a) ≤ 1 := funext fun a => propext (atMostRows_holds (by omega))
      have e' : installAtMost (σ := σ) (μ := μ) B h order vars val = SmartTable.install B h order (vars ++ [val]) (atMostRows vars val) := funext fun d => if_neg h2
      rw [e] at key; rw [e']; exact key
    · intro es hes e he x hx
      obtain ⟨i, _, rfl⟩ := List.mem_map.1 hes
      obtain ⟨y, hy, rfl⟩ := List.mem_map.1 he
      have : x ∈ vars ++ [val] := by
        simp only [SmartEntry.vars, List.mem_cons, List.not_mem_nil, or_false] at hx
        rcases hx with rfl | rfl
        · exact List.mem_append_left _ (List.mem_of_mem_eraseIdx hy)
        · simp
      exact ⟨(hv x this).2, this⟩
    · intro es hes
      obtain ⟨i, _, rfl⟩ := List.mem_map.1 hes
      refine acyclic_left (fun x y r he x' y' r' he' => ?_) fun j k x y y' r r' hj hk => ?_
      · obtain ⟨z, hz, e1⟩ := List.mem_map.1 he
        obtain ⟨z', hz', e2⟩ := List.mem_map.1 he'
        cases e1; cases e2
        exact hd.2.2 _ (List.mem_of_mem_eraseIdx hz) _ (by simp)
      · rw [List.getElem?_map, Option.map_eq_some_iff] at hj hk
        obtain ⟨z, hz, e1⟩ := hj
        obtain ⟨z', hz', e2⟩ := hk
        have e : z = z' := by injection e1 with e1; injection e2 with e2; exact e1.trans e2.symm
        subst e
        exact (List.getElem?_inj (List.getElem?_eq_some_iff.1 hz).1 (hd.1.sublist (List.eraseIdx_sublist ..))).1 (hz.trans hz'.symm)

end

/-! ## What is wrong otherwise -/

namespace SmartTable.Wrong

def kind : Kind (List Bool) (List Bool) := ⟨id, some, fun _ => rfl⟩
def x : VarId := .simple 0
def y : VarId := .simple 1

/-- The values of all variables. -/
def at_ (vs : List Int) : Asg := fun i => vs.getD i 0

/-- C58: entries that close a cycle are left out: `x ≤ y` and `x ≠ y` is taken to be `x ≤ y`. -/
theorem smartTable_cycle_wrong : Run.runWith [[true]] [[(1, 1)], [(1, 1)]] [install kind 0 (fun _ => [x, y]) [x, y] [[.binary x y .le, .binary x y .ne]]] = some ([[[(1, 1)], [(1, 1)]]], true) ∧
    ¬ SmartHolds [[.binary x y .le, .binary x y .ne]] (at_ [1, 1]) := by
  refine ⟨by decide +kernel, ?_⟩
  simp [SmartHolds, SmartEntry.sat, Rel.holds, x, y, VarId.eval, at_]

/-- C58: if an entry is about a view of a variable, a row that does not hold is never found out: `x + 1 < 0` allows 5. -/
theorem smartTable_view_accepts_wrong : Run.runWith [[true]] [[(5, 5)]] [install kind 0 (fun _ => [x]) [x] [[.value (.view 0 false 1) 0 .lt]]] = some ([[[(5, 5)]]], true) ∧
    ¬ SmartHolds [[.value (.view 0 false 1) 0 .lt]] (at_ [5]) := by
  refine ⟨by decide +kernel, ?_⟩
  simp [SmartHolds, SmartEntry.sat, Rel.holds, VarId.eval, at_]

/-- C58: and if it is the view that is in the list of variables, a row that holds may not be found: `x + 1 = 6` does not allow 5. -/
theorem smartTable_view_rejects_wrong : Run.runWith [[true]] [[(5, 5)]] [install kind 0 (fun _ => [x]) [.view 0 false 1] [[.value (.view 0 false 1) 6 .eq]]] = some ([], true) ∧
    SmartHolds [[.value (.view 0 false 1) 6 .eq]] (at_ [5]) := by
  refine ⟨by decide +kernel, ?_⟩
  simp [SmartHolds, SmartEntry.sat, Rel.holds, VarId.eval, at_]

/-- C58: if variables are given twice, `x ≠ y` allows them to be equal. -/
theorem smartTable_repeated_wrong : Run.runWith [[true]] [[(1, 1)], [(1, 1)]] [install kind 0 (fun _ => [x, y]) [x, y, x, y] [[.binary x y .ne]]] = some ([[[(1, 1)], [(1, 1)]]], true) ∧
    ¬ SmartHolds [[.binary x y .ne]] (at_ [1, 1]) := by
  refine ⟨by decide +kernel, ?_⟩
  simp [SmartHolds, SmartEntry.sat, Rel.holds, x, y, VarId.eval, at_]

/-- C58: constants in entries are accepted, and propagation throws. -/
theorem smartTable_const_throws : Run.thrownWith [[true]] [[(1, 3)]] [install kind 0 (fun _ => [x, .const 2]) [x] [[.binary x (.const 2) .lt]]] = some .unimplemented ∧
    Run.thrownWith [[true, true]] [[(1, 3)], [(1, 3)]] [installAtMost kind 0 (fun i => [.const 2, [y, x].getD i x]) [x, y] (.const 2)] = some .unimplemented := by decide +kernel

/-- C58: entries about variables that are not in the list are accepted, and propagation throws (`std::out_of_range`). -/
theorem smartTable_missing_throws : Run.thrownWith [[true]] [[(1, 3)], [(1, 2)]] [install kind 0 (fun _ => [x, y]) [x] [[.binary x y .lt]]] = some .ub := by decide +kernel

/-- C58: if the first list is longer than the second and begins with it, then it is lexicographically greater, and `LexGreaterThan` says so; `LexSmartTable` does not. -/
theorem lexSmartTable_longer_wrong : Run.runWith [[true]] [[(1, 1)], [(0, 1)], [(1, 1)]] [installLex kind 0 (fun _ => [x, .simple 2]) [x, y] [.simple 2]] = some ([], true) ∧ LexGreater false [1, 0] [1] := by
  refine ⟨by decide +kernel, by simp [LexGreater]⟩

end SmartTable.Wrong

/-! ## Examples -/

namespace SmartTable.Demo
open Wrong

def z : VarId := .simple 2
def w : VarId := .simple 3
def vars : List VarId := [x, y, z, w]
def root : Doms := [[(1, 3)], [(1, 3)], [(1, 2)], [(0, 1)]]

/-- A chain of three comparisons and something about its last variable; or a set for the first, and a comparison. -/
def rows : List (List SmartEntry) := [[.binary x y .lt, .binary y z .eq, .binary z w .ne, .value w 1 .ge], [.set x [1, 3] true, .binary w x .ge, .set z [2] false]]
def order (i : Nat) : List VarId := [[z, w, x, y], [x, z, w]].getD i []

theorem acyclic : ∀ es ∈ rows, Acyclic es := by
  have cut : ∀ (es : List SmartEntry) (i : Nat) (x y : VarId) (S : List VarId), ((es.eraseIdx i).all fun e => match e with | .binary x y _ => decide (x ∈ S ↔ y ∈ S) | _ => true) = true → x ∈ S → y ∉ S → ¬ Linked (es.eraseIdx i) x y := by
    intro es i x y S h hx hy hl
    refine hy ((Linked.side (· ∈ S) (fun x y r hm => ?_) hl).1 hx)
    have := List.all_eq_true.1 h _ hm
    simpa using this
  intro es hes i u v r hi
  simp only [rows, List.mem_cons, List.not_mem_nil, or_false] at hes
  rcases hes with rfl | rfl
  · match i, hi with
    | 0, hi => cases hi; exact cut _ 0 _ _ [x] (by decide) (by decide) (by decide)
    | 1, hi => cases hi; exact cut _ 1 _ _ [x, y] (by decide) (by decide) (by decide)
    | 2, hi => cases hi; exact cut _ 2 _ _ [x, y, z] (by decide) (by decide) (by decide)
    | 3, hi => cases hi
    | _ + 4, hi => simp at hi
  · match i, hi with
    | 0, hi => cases hi
    | 1, hi => cases hi; exact cut _ 1 _ _ [w] (by decide) (by decide) (by decide)
    | 2, hi => cases hi
    | _ + 3, hi => simp at hi

example : (Posted.mk (install (μ := Unit) kind 0 order vars rows) (SmartHolds rows) vars).Serves 4 1 (· = .overflow) root [[true, true]] (· = 0) := by
  refine (smartTable_right_partial (R := (· = .overflow)) (root := root) (vars := vars) (rows := rows) rfl (by decide) (by decide) (fun es hes e he v hv => ?_) acyclic (fun i es hi v => ?_) rfl).1
  · have h : ∀ es ∈ rows, ∀ e ∈ es, ∀ v ∈ e.vars, v ∈ vars := by decide
    have hm := h es hes e he v hv
    refine ⟨?_, hm⟩
    simp only [vars, List.mem_cons, List.not_mem_nil, or_false] at hm
    rcases hm with rfl | rfl | rfl | rfl <;> exact ⟨_, rfl⟩
  · match i, hi with
    | 0, hi => cases hi; simp [order, SmartEntry.vars]; grind
    | 1, hi => cases hi; simp [order, SmartEntry.vars]; grind
    | _ + 2, hi => simp [rows] at hi

/-- The solutions: three of the second row, one of the first. -/
example : Run.runWith [[true, true]] root [install kind 0 order vars rows] = some ([[[(1, 1)], [(1, 1)], [(1, 1)], [(1, 1)]], [[(1, 1)], [(2, 2)], [(1, 1)], [(1, 1)]], [[(1, 1)], [(3, 3)], [(1, 1)], [(1, 1)]], [[(1, 1)], [(2, 2)], [(2, 2)], [(1, 1)]]], true) := by decide +kernel

/-- The first row becomes one tree, of which the deepest entries come first. -/
example : (rows[0]?.map fun es => forest es (order 0) []) = some (.ok [[.binary x y .lt, .value w 1 .ge, .binary y z .eq, .binary z w .ne]]) := by decide +kernel

end SmartTable.Demo
end Gcs
