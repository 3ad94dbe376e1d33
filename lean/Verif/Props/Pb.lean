import Verif.Lemmas.PbClause
import Verif.Model.Names

/-!
# Encodings in proofs (C43, C44)

`Means` says that the 0/1 variables represent integers: bits add up to the value, literals are true of it. `Good` adds the bounds and the constraints asked for (`Spec/Pb.lean`). All statements are about calls that
return normally: bits that do not fit, sums that overflow, names that do not exist throw.

Not as one would hope: with the compact encoding, variables without rows for their bounds have literals that do not mean their condition (`compact_needs_bounds`); views of different variables may share the label of
their rows (`view_labels_clash`).
-/

namespace Gcs.Pb

variable {s : Session} {t : Tracker} {α : Bools} {w : Vals}

/-! ## C43 -/

/-- C43: every value within the bounds is the sum of the bits in exactly one way. -/
theorem bits_represent {p : PVar} {l u x : Int} {b : Bits} (hu : InI64 u) (h : registerBits p l u = .ok b) (hx : l ≤ x ∧ x ≤ u) :
    ∃ α : Bools, sum α b = x ∧ ∀ β : Bools, sum β b = x → ∀ y ∈ b, β y.2.var = α y.2.var := by
  have e := bits_encode (w := fun _ => x) (f := fun _ => false) hu h hx
  exact ⟨_, e, fun β hβ => bits_unique hu h (hβ.trans e.symm)⟩

/-- C43: `bits_encoding_fits` says whether there are such bits. -/
theorem bits_fit {p : PVar} {l u : Int} (hl : InI64 l) (hu : InI64 u) (hlu : l ≤ u) : (∃ b, registerBits p l u = .ok b) ↔ bitsEncodingFits l u = .ok true := registerBits_iff hl hu hlu

/-- C43: whatever has been asked for and in whichever order, a 0/1 assignment satisfying all rows gives every variable a value, within its bounds, such that literals mean their conditions. -/
theorem literals_mean {c : Bool} (h : History c s) (hs : Sat s α) : ∃ w : Vals, Means s.t α w ∧ InBounds s w :=
  let ⟨w, g⟩ := ((history_inv h).sat α).1 hs
  ⟨w, g.means, g.bounds⟩

/-- C43: the values are determined. -/
theorem values_determined {c : Bool} {w' : Vals} {p : PVar} (h : History c s) (hg : Good s α w) (hg' : Good s α w') (hp : s.Known p) : w p = w' p := value_unique (history_inv h).wf hg hg' hp

/-- C43: conversely, all values within the bounds are represented, if no constraint has been asked for. -/
theorem every_value {c : Bool} (h : History c s) (hn : s.asked = []) (hw : ∀ p l u, s.bounds p = some (l, u) → l ≤ w p ∧ w p ≤ u)
    (hv : ∀ i neg add k, s.t.view i neg add = some k → w (.aux k) = (VarId.view i neg add).eval w.asg) (f : Nat → Bool) : Sat s (encode w f) ∧ Means s.t (encode w f) w := by
  have m := encode_means (f := f) (history_inv h).wf hw hv
  exact ⟨((history_inv h).sat _).2 ⟨w, m, fun p l u hb _ => hw p l u hb, fun a ha => by rw [hn] at ha; nomatch ha⟩, m⟩

/-! ## C44 -/

/-- C44: a row holds exactly if the inequality does whenever what it is reified on does. -/
theorem row_means (m : Means t α w) {i : Ineq} {reifs : Option Reifs} {row : Row} (h : addConstraint t i reifs = .ok row) :
    row.Holds α ↔ ((∀ r ∈ reifs.getD [], r.Holds t α w) → i.Holds t α w) := add_means m h

/-- C44: the same for a reified inequality written without building it first. -/
theorem reified_row_means (m : Means t α w) {i : Ineq} {rs : Reifs} {row : Row} (h : emitReifiedInequality t i rs = .ok row) :
    row.Holds α ↔ ((∀ r ∈ rs, r.Holds t α w) → i.Holds t α w) := by
  rw [emitReified_eq] at h
  exact add_means m h

/-- C44: an equality. -/
theorem equality_means (m : Means t α w) {lhs : List (Int × Term)} {rhs : Int} {reifs : Option Reifs} {q : Row × Row} (h : addEquality t lhs rhs reifs = .ok q) :
    (q.1.Holds α ∧ q.2.Holds α) ↔ ((∀ r ∈ reifs.getD [], r.Holds t α w) → total t α w lhs = rhs) := by
  unfold addEquality at h
  obtain ⟨f, hf, h⟩ := bindOk h
  obtain ⟨j, hj, h⟩ := bindOk h
  obtain ⟨g, hg, h⟩ := bindOk h
  cases h
  rw [row_means m hf, row_means m hg, (atLeast_raw hj).2, ← forall_and]
  refine forall_congr' fun _ => ?_
  show (total t α w lhs ≤ rhs ∧ _) ↔ _
  omega

/-- C44: a flag made to mean an inequality. -/
theorem two_way_means (m : Means t α w) {i : Ineq} {n : Nat} {b : Bool} {q : Row × Row} (h : addTwoWay t i n b = .ok q) : (q.1.Holds α ∧ q.2.Holds α) ↔ (α (.flag n) = b ↔ i.Holds t α w) := by
  rw [twoWay_ok h]
  unfold addTwoWay at h
  obtain ⟨f, hf, _⟩ := bindOk h
  obtain ⟨⟨_, _, _, hl⟩, _⟩ := add_parts hf
  rw [total_value m _ hl]
  exact Iff.rfl

/-- C44: a clause. -/
theorem clause_row_means (m : Means t α w) {ls : List PLit} {row : Row} (h : addClause t ls = .ok row) : row.Holds α ↔ ∃ l ∈ ls, l.Holds w := clause_means m h

/-- C44: the rows of a model and of the definitions in a proof are satisfied exactly by the 0/1 assignments that represent values within the bounds obeying all constraints asked for. -/
theorem rows_mean {c : Bool} (h : History c s) (α : Bools) : Sat s α ↔ ∃ w : Vals, Means s.t α w ∧ InBounds s w ∧ ∀ a ∈ s.asked, a.Holds s.t α w := by
  rw [(history_inv h).sat]
  exact exists_congr fun w => good_iff

/-- C44: values within the bounds obeying all constraints give a 0/1 assignment satisfying all rows: no solution is lost. -/
theorem solutions_kept {c : Bool} (h : History c s) (hw : ∀ p l u, s.bounds p = some (l, u) → l ≤ w p ∧ w p ≤ u)
    (hv : ∀ i neg add k, s.t.view i neg add = some k → w (.aux k) = (VarId.view i neg add).eval w.asg) (f : Nat → Bool) (ha : ∀ a ∈ s.asked, a.Holds s.t (encode w f) w) : Sat s (encode w f) :=
  ((history_inv h).sat _).2 ⟨w, encode_means (history_inv h).wf hw hv, fun p l u hb _ => hw p l u hb, ha⟩

/-! ## Cases meeting the hypotheses -/

instance (s : Session) (p : PVar) : Decidable (s.Known p) := inferInstanceAs (Decidable (_ = _))

instance (s : Session) (o : Op) : Decidable (o.OK s) := by
  cases o <;> (unfold Op.OK; infer_instance)

/-- A history, if every call is as it should be and returns. -/
def checked (fuel : Nat) : List Op → Session → Option Session
  | [], s => some s
  | o :: os, s =>
    if o.OK s then
      match o.run fuel s with
      | .ok s' => checked fuel os s'
      | .error _ => none
    else none

theorem checked_history {c : Bool} {fuel : Nat} : ∀ {os : List Op} {s s' : Session}, History c s → checked fuel os s = some s' → History c s'
  | [], s, s', h, e => by rw [checked] at e; cases e; exact h
  | o :: os, s, s', h, e => by
    rw [checked] at e
    split at e
    · rename_i hok
      split at e
      · rename_i s1 hr
        exact checked_history (h.step fuel o hok hr) e
      · cases e
    · cases e

namespace Demo

/-- A variable from -3 to 5, one that is zero or one, one with a literal for each value, and one that is only in the proof; a view; literals; `2 * (-x0 + 4) + x1 - p0 + 3 * [x2 = 5] <= 5` if `x0 >= 2` and flag 0; an interval during
the proof. -/
def ops : List Op :=
  [.setUp 0 (-3) 5 none, .setUp 1 0 1 none, .setUp 2 4 6 (some .directOnly), .createAux 2 9 .bits, .createFree (-1) 2,
   .needEq (.real 0) 2, .needGe (.real 0) 5, .needView 0 true 4,
   .constrain ⟨[(2, .var (.view 0 true 4)), (1, .var (.simple 1)), (-1, .aux 0), (3, .item (.lit (.lit (.cond ⟨.simple 2, .equal, 5, 0⟩))))], 5⟩
     (some [.lit (.lit (.cond ⟨.simple 0, .greaterEqual, 2, 0⟩)), .flag 0 true]),
   .startProof, .needGe (.real 0) 0, .needWithin (.real 0) (-1) 3, .needEq (.aux 0) 7]

/-- `x0 = 3, x1 = 1, x2 = 5`, and `2, 1` and `1` (the view) for those that are only in the proof. -/
def good : Vals
  | .real 0 => 3
  | .real 1 => 1
  | .real 2 => 5
  | .aux 0 => 2
  | .aux 1 => 1
  | .aux 2 => 1
  | _ => 0

/-- `x0 = 2`: now the sum is larger. -/
def bad : Vals
  | .real 0 => 2
  | .aux 2 => 2
  | p => good p

/-- The view has the wrong value. -/
def odd : Vals
  | .aux 2 => 0
  | p => good p

instance (s : Session) (α : Bools) : Decidable (Sat s α) := inferInstanceAs (Decidable (∀ r ∈ s.rows, _))

/-- All calls return. -/
theorem runs : (checked 20 ops (.start false)).isSome = true := by decide +kernel

/-- The final session. -/
def final : Session := (checked 20 ops (.start false)).get runs

theorem history : History false final := checked_history .start (Option.some_get runs).symm

/-- There are rows, and some assignments satisfy them while others do not: without the flag the constraint need not hold. -/
example : final.rows.length = 48 ∧ Sat final (encode good fun _ => true) ∧ ¬ Sat final (encode bad fun _ => true) ∧ Sat final (encode bad fun _ => false) ∧ ¬ Sat final (encode odd fun _ => true) := by decide +kernel

/-- The hypotheses of `solutions_kept` and `literals_mean` are met. -/
example : (∀ p l u, final.bounds p = some (l, u) → l ≤ good p ∧ good p ≤ u) := by
  intro p l u h
  have e : final.bounds = (upd (upd (upd (upd (upd (upd (fun _ => none) (.real 0) (some (-3, 5))) (.real 1) (some (0, 1))) (.real 2) (some (4, 6))) (.aux 0) (some (2, 9))) (.aux 1) (some (-1, 2))) (.aux 2) (some (-1, 7))) := by
    rfl
  rw [e] at h
  simp only [upd] at h
  repeat' split at h
  all_goals first | (subst_vars; cases h; decide) | cases h

/-- The compact encoding: three values, two order literals. -/
example : ((checked 20 [.setUp 0 1 3 none, .needEq (.real 0) 1, .needEq (.real 0) 3, .needEq (.real 0) 2] (.start true)).map fun s => s.rows.length) = some 12 := by decide +kernel

/-- Bits: -3 to 5 takes a sign and three bits; -2^62 to 2^62 does not fit, -2^62 to 2^62 - 1 does. -/
example : registerBits (.real 0) (-3) 5 = .ok [(-8, ⟨.sign (.real 0), false⟩), (1, ⟨.bit (.real 0) 0, false⟩), (2, ⟨.bit (.real 0) 1, false⟩), (4, ⟨.bit (.real 0) 2, false⟩)] ∧
    bitsEncodingFits (-(2 ^ 62)) (2 ^ 62) = .ok false ∧ bitsEncodingFits (-(2 ^ 62)) (2 ^ 62 - 1) = .ok true := by decide +kernel

/-- A clause with literals on a view, on values and on constants. -/
example : (addClause final.t [.lit (.cond ⟨.view 0 true 4, .greaterEqual, 2, 0⟩), .lit (.cond ⟨.simple 2, .notEqual, 4, 0⟩), .lit .ff, .lit (.cond ⟨.const 3, .less, 2, 0⟩)]) =
      .ok ⟨[(1, ⟨.ge (.aux 2) 2, false⟩), (1, ⟨.eq (.real 2) 4, true⟩)], 1⟩ := by decide +kernel

/-- A flag for an inequality. -/
example : (addTwoWay final.t ⟨[(1, .var (.simple 0))], 2⟩ 4 true).isOk = true ∧ (addEquality final.t [(1, .var (.simple 0)), (2, .aux 0)] 5 (some [.flag 1 false])).isOk = true ∧
    (emitReifiedInequality final.t ⟨[(1, .var (.simple 0))], 2⟩ [.flag 1 false]).isOk = true := by decide +kernel

end Demo

/-! ## What does not hold -/

/-- With the compact encoding, if a variable from 1 to 2 has no rows for its bounds, then `p = 1` is defined to be `not p >= 2`, which is true of the value 0: the literal does not mean its condition. -/
theorem compact_needs_bounds : ∃ s α, runAll 5 [.createFree 1 2, .needEq (.aux 0) 1] (.start true) = .ok s ∧ Sat s α ∧ ¬ ∃ w, Means s.t α w := by
  let α : Bools := fun | .eq _ _ => true | _ => false
  have e : (checked 5 [] (.start true)).isSome := by decide
  have hr : (runAll 5 [.createFree 1 2, .needEq (.aux 0) 1] (.start true)).isOk = true := by decide +kernel
  match hs : runAll 5 [.createFree 1 2, .needEq (.aux 0) 1] (.start true) with
  | .error _ => rw [hs] at hr; cases hr
  | .ok s =>
    have h1 : ∀ s, runAll 5 [.createFree 1 2, .needEq (.aux 0) 1] (.start true) = .ok s → s.rows.all (fun r => decide (r.Holds α)) = true ∧ s.t.eq (.aux 0) 1 = some ⟨.eq (.aux 0) 1, false⟩ ∧
        (s.t.bits (.aux 0)).map (sum α) = some 0 := by
      intro s hs
      cases hs
      decide +kernel
    obtain ⟨a1, a2, a3⟩ := h1 s hs
    refine ⟨s, α, rfl, fun r hr => by simpa using List.all_eq_true.1 a1 r hr, fun ⟨w, m⟩ => ?_⟩
    obtain ⟨b, hb, e⟩ := Option.map_eq_some_iff.1 a3
    have v := m.bits _ _ hb
    have := (m.eq _ _ _ a2).1 rfl
    omega

/-- The name of the variable standing for a view (gcs/innards/proofs/names_and_ids_tracker.cc:1467-1471), from which the labels of its rows are made (1480-1481). Text is a list of characters. -/
def viewName (name : List Char) (neg : Bool) (add : Int) : List Char :=
  (if neg then ['n', 'e', 'g', '_'] else []) ++ ['v', 'i', 'e', 'w', '_', 'o', 'f', '_'] ++ name ++
    (if add ≠ 0 then ['_', 'p', 'l', 'u', 's', '_'] ++ (if add < 0 then ['-'] else []) ++ Nat.toDigits 10 add.natAbs else [])

/-- The view `-x + 3` and the view `-y`, where `y` has been named `x_plus_3`: the problem takes both names, the rows have the same labels. Labels of views are not checked for clashes: only those made from a constraint
are (gcs/innards/proofs/proof_model.cc:208-217, 219). -/
theorem view_labels_clash : (Names.checkName [['x']] ['x', '_', 'p', 'l', 'u', 's', '_', '3']).isOk = true ∧ (Names.checkName [] ['x']).isOk = true ∧
    viewName ['x'] true 3 = viewName ['x', '_', 'p', 'l', 'u', 's', '_', '3'] true 0 := by decide +kernel

end Gcs.Pb
