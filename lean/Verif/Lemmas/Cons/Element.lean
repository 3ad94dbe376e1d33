import Verif.Spec.Element
import Verif.Lemmas.Cons.Inverse
import Verif.Lemmas.Cons.MinMax
import Verif.Lemmas.Cons.Table
import Verif.Lemmas.Cons.Equals
import Verif.Lemmas.Heuristics

/-!
# Element
-/

namespace Gcs.Element
open IntervalSet Arr

/-! Arrays -/

/-- Positions that exist. -/
def InRange : List Nat → List Int → Prop
  | [], [] => True
  | n :: ns, p :: ps => (0 ≤ p ∧ p < n) ∧ InRange ns ps
  | _, _ => False

theorem entry_ok : ∀ {k : Nat} {A : Arr k} {ns : List Nat} {ps : List Int}, Regular k A ns → InRange ns ps → ∃ v, entry k A ps = .ok v ∧ at? k A ps = some v ∧ v ∈ entries k A
  | 0, A, ns, ps, h, hp => by
    cases (show ns = [] from h)
    cases ps with
    | nil => exact ⟨A, rfl, rfl, List.mem_singleton.2 rfl⟩
    | cons p ps => exact hp.elim
  | k + 1, A, [], ps, h, hp => h.elim
  | k + 1, A, n :: ns, [], h, hp => hp.elim
  | k + 1, A, n :: ns, p :: ps, h, hp => by
    obtain ⟨⟨h1, h2⟩, h3⟩ := hp
    obtain ⟨r, e1, e2⟩ := atIndex_ok (xs := A.rows) h1 (by rw [h.1]; exact h2)
    have hr := List.mem_of_getElem? e2
    obtain ⟨v, f1, f2, f3⟩ := entry_ok (h.2 r hr) h3
    refine ⟨v, ?_, at?_cons.2 ⟨p.toNat, r, by omega, e2, f2⟩, List.mem_flatMap.2 ⟨r, hr, f3⟩⟩
    show (do entry k (← atIndex A.rows p) ps) = _
    rw [e1]; exact f1

theorem at_inRange : ∀ {k : Nat} {A : Arr k} {ns : List Nat} {ps : List Int} {v : VarId}, Regular k A ns → at? k A ps = some v → InRange ns ps
  | 0, A, ns, ps, v, h, hp => by
    cases (show ns = [] from h)
    cases ps with
    | nil => trivial
    | cons p ps => cases hp
  | k + 1, A, [], ps, v, h, hp => h.elim
  | k + 1, A, n :: ns, [], v, h, hp => by cases hp
  | k + 1, A, n :: ns, p :: ps, v, h, hp => by
    obtain ⟨i, r, rfl, h1, h2⟩ := at?_cons.1 hp
    refine ⟨⟨by omega, ?_⟩, at_inRange (h.2 r (List.mem_of_getElem? h1)) h2⟩
    have := (List.getElem?_eq_some_iff.1 h1).1
    rw [h.1] at this; omega

theorem sizes_spec : ∀ {k : Nat} {A : Arr k} {ns : List Nat}, Regular k A ns → (0 ∈ sizes k A → 0 ∈ ns) ∧ (0 ∉ sizes k A → sizes k A = ns)
  | 0, A, ns, h => by
    cases (show ns = [] from h)
    simp [sizes]
  | k + 1, A, [], h => h.elim
  | k + 1, A, n :: ns, h => by
    unfold sizes
    rw [h.1]
    cases hr : A.rows with
    | nil =>
      have : n = 0 := by rw [← h.1, hr]; rfl
      subst this
      simp
    | cons r rs =>
      obtain ⟨h1, h2⟩ := sizes_spec (h.2 r (by rw [hr]; simp))
      dsimp only
      simp only [List.mem_cons, not_or]
      exact ⟨fun h => h.imp id h1, fun h => by rw [h2 h.2]⟩

theorem inRange_pos {ns : List Nat} : ∀ {ps : List Int}, InRange ns ps → 0 ∉ ns := by
  induction ns with
  | nil => simp
  | cons n ns ih =>
    intro ps h
    cases ps with
    | nil => exact h.elim
    | cons p ps =>
      simp only [List.mem_cons, not_or]
      exact ⟨by have := h.1; omega, ih h.2⟩

theorem regular_length : ∀ {k : Nat} {A : Arr k} {ns : List Nat}, Regular k A ns → 0 ∉ ns → ns.length = k
  | 0, A, ns, h, _ => by cases (show ns = [] from h); rfl
  | k + 1, A, [], h, _ => h.elim
  | k + 1, A, n :: ns, h, h0 => by
    simp only [List.mem_cons, not_or] at h0
    cases hA : A.rows with
    | nil => exact absurd (by rw [← h.1, hA]; rfl) h0.1
    | cons r rs => rw [List.length_cons, regular_length (h.2 r (by rw [hA]; simp)) h0.2]

theorem check_succ {k n : Nat} {A : Arr (k + 1)} : check (k + 1) A n = (decide (A.rows.length = n) && A.rows.all fun r => check k r (match A.rows with | [] => 0 | r :: _ => len k r)) := rfl

theorem check_regular : ∀ {k : Nat} {A : Arr k} {ns : List Nat}, Regular k A ns → check k A (len k A) = true
  | 0, _, _, _ => rfl
  | k + 1, A, [], h => h.elim
  | k + 1, A, n :: ns, h => by
    unfold check
    rw [show len (k + 1) A = A.rows.length from rfl]
    simp only [decide_true, Bool.true_and, List.all_eq_true]
    intro r hr
    cases hA : A.rows with
    | nil => rw [hA] at hr; cases hr
    | cons r0 rs =>
      dsimp only
      have h0 := h.2 r0 (by rw [hA]; simp)
      have h1 := h.2 r hr
      have : len k r0 = len k r := by
        cases k with
        | zero => rfl
        | succ k =>
          cases ns with
          | nil => exact h0.elim
          | cons m ns => rw [show len (k + 1) r0 = m from h0.1, ← show len (k + 1) r = m from h1.1]
      rw [this]; exact check_regular h1

/-- In one and two dimensions it is checked that arrays are regular. -/
theorem regular_of_check : ∀ {k : Nat} {A : Arr k}, k ≤ 2 → check k A (len k A) = true → ∃ ns, Regular k A ns
  | 0, _, _, _ => ⟨[], rfl⟩
  | 1, A, _, _ => ⟨[A.rows.length], rfl, fun _ _ => rfl⟩
  | 2, A, _, h => by
    unfold check at h
    simp only [Bool.and_eq_true, List.all_eq_true] at h
    cases hA : A.rows with
    | nil => exact ⟨[A.rows.length, 0], rfl, fun r hr => by rw [hA] at hr; cases hr⟩
    | cons r0 rs =>
      rw [hA] at h
      refine ⟨[A.rows.length, r0.rows.length], rfl, fun r hr => ⟨?_, fun _ _ => rfl⟩⟩
      have := h.2 r (by rw [← hA]; exact hr)
      unfold check at this
      exact of_decide_eq_true (Bool.and_eq_true_iff.1 this).1
  | k + 3, _, h, _ => absurd h (by omega)

/-! Choices of positions -/

/-- A position for each index variable, that is one of its values. -/
def Pick (d : Doms) : List (VarId × Int) → List Int → Prop
  | [], [] => True
  | q :: idx, p :: ps => Poss d q.1 (p + q.2) ∧ Pick d idx ps
  | _, _ => False

/-- The same, with a given value for one of the index variables. -/
def PickAt (d : Doms) (dim : Nat) (val : Int) : Nat → List (VarId × Int) → List Int → Prop
  | _, [], [] => True
  | j, q :: idx, p :: ps => (if j = dim then p = val - q.2 else Poss d q.1 (p + q.2)) ∧ PickAt d dim val (j + 1) idx ps
  | _, _, _ => False

/-- All values of the index variables are positions. -/
def Inside (d : Doms) (idx : List (VarId × Int)) (ns : List Nat) : Prop := ∀ ps, Pick d idx ps → InRange ns ps

section
variable {d d' : Doms} {k : Nat} {A : Arr k} {result : VarId} {idx : List (VarId × Int)} {ints : Bool} {dim : Nat} {val : Int}

theorem Pick.sub (hs : ∀ a, Within d' a → Within d a) : ∀ {idx : List (VarId × Int)} {ps : List Int}, Pick d' idx ps → Pick d idx ps
  | [], [], _ => trivial
  | q :: idx, p :: ps, h => ⟨Inverse.Poss.mono hs h.1, Pick.sub hs h.2⟩
  | [], _ :: _, h => h.elim
  | _ :: _, [], h => h.elim

theorem PickAt.sub (hs : ∀ a, Within d' a → Within d a) : ∀ {idx : List (VarId × Int)} {ps : List Int} {j : Nat}, PickAt d' dim val j idx ps → PickAt d dim val j idx ps
  | [], [], _, _ => trivial
  | q :: idx, p :: ps, j, h => ⟨by have := h.1; split at this <;> rename_i hj <;> simp only [hj, if_true, if_false] <;> first | exact this | exact Inverse.Poss.mono hs this, PickAt.sub hs h.2⟩
  | [], _ :: _, _, h => h.elim
  | _ :: _, [], _, h => h.elim

/-- What an assignment picks. -/
theorem pick_eval {a : Asg} (ha : Within d a) : ∀ idx : List (VarId × Int), Pick d idx (idx.map fun q => q.1.eval a - q.2)
  | [] => trivial
  | q :: idx => ⟨by have := ha.poss q.1; rwa [show q.1.eval a - q.2 + q.2 = q.1.eval a by omega], pick_eval ha idx⟩

theorem pickAt_eval {a : Asg} (ha : Within d a) : ∀ (idx : List (VarId × Int)) (j : Nat), (∀ q, j ≤ dim → idx[dim - j]? = some q → q.1.eval a = val) → PickAt d dim val j idx (idx.map fun q => q.1.eval a - q.2)
  | [], _, _ => trivial
  | q :: idx, j, h => by
    refine ⟨?_, pickAt_eval ha idx (j + 1) fun q' hj hq => h q' (by omega) ?_⟩
    · split
      · rename_i e
        show q.1.eval a - q.2 = _
        rw [h q (by omega) (by simp [e])]
      · have := ha.poss q.1
        rwa [show q.1.eval a - q.2 + q.2 = q.1.eval a by omega]
    · rw [show dim - j = dim - (j + 1) + 1 by omega]; exact hq

/-- With a value that is possible, it is a choice like any other. -/
theorem PickAt.pick : ∀ {idx : List (VarId × Int)} {ps : List Int} {j : Nat}, (∀ q, j ≤ dim → idx[dim - j]? = some q → Poss d q.1 val) → PickAt d dim val j idx ps → Pick d idx ps
  | [], [], _, _, _ => trivial
  | q :: idx, p :: ps, j, hq, h => by
    refine ⟨?_, PickAt.pick (fun q' hj h' => hq q' (by omega) (by rw [show dim - j = dim - (j + 1) + 1 by omega]; exact h')) h.2⟩
    have := h.1
    split at this
    · rename_i e
      rw [this, show val - q.2 + q.2 = val by omega]
      exact hq q (by omega) (by simp [e])
    · exact this
  | [], _ :: _, _, _, h => h.elim
  | _ :: _, [], _, _, h => h.elim

/-- Nothing else can be picked if everything is known. -/
theorem pickAt_known {a : Asg} (ha : Within d a) : ∀ {idx : List (VarId × Int)} {ps : List Int} {j : Nat}, (∀ i q, idx[i]? = some q → (j + i = dim → q.1.eval a = val) ∧ (j + i ≠ dim → Known d q.1)) → PickAt d dim val j idx ps →
    ps = idx.map fun q => q.1.eval a - q.2
  | [], [], _, _, _ => rfl
  | q :: idx, p :: ps, j, hq, h => by
    rw [List.map_cons, pickAt_known ha (fun i q' hi => by have := hq (i + 1) q' hi; rwa [show j + 1 + i = j + (i + 1) by omega]) h.2]
    congr 1
    have := h.1
    have hk := hq 0 q rfl
    split at this
    · rename_i e; rw [this, hk.1 e]
    · rename_i e
      have := (hk.2 e).poss ha this
      omega
  | [], _ :: _, _, _, h => h.elim
  | _ :: _, [], _, _, h => h.elim

theorem supports_roo (hd : DomsOK d) (hr : result.Valid d.length) {v : VarId} (hv : v.Valid d.length) : RightOrOverflow (supports ints result d v) (fun b => b = true ↔ ∃ y, Poss d v y ∧ Poss d result y) := by
  unfold supports
  split
  · rename_i c
    refine (inDomain_spec hd hr c hv).mono fun b hb => hb.trans ⟨fun h => ⟨c, ?_, h⟩, fun ⟨y, ⟨a, _, e⟩, h2⟩ => (show c = y from e) ▸ h2⟩
    obtain ⟨a, ha⟩ := exists_within hd
    exact ha.poss (.const c)
  · exact domainsIntersect_spec hd hv hr

/-- Where the entry at some positions can have a value of the result. -/
def Meets (d : Doms) (k : Nat) (A : Arr k) (result : VarId) (ps : List Int) : Prop := ∃ v, at? k A ps = some v ∧ ∃ y, Poss d v y ∧ Poss d result y

theorem support_roo (hd : DomsOK d) (hr : result.Valid d.length) (hval : InI64 val) : ∀ (idx : List (VarId × Int)) (j : Nat) (elem : List Int), (∀ q ∈ idx, q.1.Valid d.length ∧ InI64 q.2) →
    (∀ ps, PickAt d dim val j idx ps → ∃ v, entry k A (elem ++ ps) = .ok v ∧ at? k A (elem ++ ps) = some v ∧ v.Valid d.length) →
    RightOrOverflow (support ints k A result d dim val j idx elem) (fun b => b = true ↔ ∃ ps, PickAt d dim val j idx ps ∧ Meets d k A result (elem ++ ps))
  | [], j, elem, hv, h => by
    obtain ⟨v, h1, h2, h3⟩ := h [] trivial
    rw [List.append_nil] at h1 h2
    unfold support
    rw [h1]
    refine (supports_roo hd hr h3).mono fun b hb => hb.trans ⟨fun ⟨y, hy⟩ => ⟨[], trivial, v, by rwa [List.append_nil], y, hy⟩, fun ⟨ps, hp, w, hw, hy⟩ => ?_⟩
    cases ps with
    | nil => rw [List.append_nil, h2] at hw; cases hw; exact hy
    | cons p ps => exact hp.elim
  | (v, s) :: rest, j, elem, hv, h => by
    obtain ⟨v1, v2⟩ := hv (v, s) (by simp)
    have hrest := fun q hq => hv q (List.mem_cons_of_mem _ hq)
    unfold support
    by_cases hj : j = dim
    · rw [if_pos hj]
      refine (sub_roo hval v2).bind fun p hp => ?_
      refine (support_roo hd hr hval rest (j + 1) (elem ++ [p]) hrest fun ps hps => ?_).mono fun b hb => hb.trans ⟨fun ⟨ps, h1, h2⟩ => ⟨p :: ps, ⟨?_, h1⟩, ?_⟩, fun ⟨ps, h1, h2⟩ => ?_⟩
      · have := h (p :: ps) ⟨by rw [if_pos hj]; exact hp.1, hps⟩
        simpa using this
      · rw [if_pos hj]; exact hp.1
      · simpa using h2
      · cases ps with
        | nil => exact h1.elim
        | cons p' ps =>
          have := h1.1
          rw [if_pos hj] at this
          rw [show p' = p by rw [this, hp.1]] at h2
          exact ⟨ps, h1.2, by simpa using h2⟩
    · rw [if_neg hj]
      refine (listed_roo hd v1).bind fun g hg => ?_
      refine (anyOfGen_roo (P := fun x => ∃ ps, PickAt d dim val (j + 1) rest ps ∧ Meets d k A result (elem ++ (x - s) :: ps)) hg fun x hx hp => ?_).mono fun b hb => hb.trans ⟨fun ⟨x, h0, ps, h1, h2⟩ => ⟨(x - s) :: ps, ⟨?_, h1⟩, h2⟩, fun ⟨ps, h1, h2⟩ => ?_⟩
      · refine (sub_roo hx v2).bind fun p hpp => ?_
        have hE : ∀ ps : List Int, elem ++ [p] ++ ps = elem ++ (x - s) :: ps := fun ps => by rw [hpp.1]; simp
        refine (support_roo hd hr hval rest (j + 1) (elem ++ [p]) hrest fun ps hps => ?_).mono fun b hb => by simpa only [hE] using hb
        rw [hE]
        exact h _ ⟨by rw [if_neg hj, show x - s + s = x by omega]; exact hp, hps⟩
      · rw [if_neg hj, show x - s + s = x by omega]; exact h0
      · cases ps with
        | nil => exact h1.elim
        | cons p ps =>
          have := h1.1
          rw [if_neg hj] at this
          exact ⟨p + s, this, ps, h1.2, by rwa [show p + s - s = p by omega]⟩

theorem foldGen_roo {β : Type} {stop : β → Bool} {f : β → Int → Chk β} {M : β → Prop} {Le : β → β → Prop} {Done : β → Int → Prop} (hrefl : ∀ b, Le b b) (htrans : ∀ a b c, Le a b → Le b c → Le a c)
    (hle : ∀ b c x, Le b c → Done b x → Done c x) (hstop : ∀ b x, M b → stop b = true → Done b x) {P : Int → Prop} (hf : ∀ b x, InI64 x → P x → M b → RightOrOverflow (f b x) (fun c => M c ∧ Le b c ∧ Done c x)) :
    ∀ (xs : List Int) (e : Option Err) (b : β), (∀ x ∈ xs, InI64 x ∧ P x) → (∀ e', e = some e' → e' = .overflow) → M b → RightOrOverflow (foldGen stop f b xs e) (fun c => M c ∧ Le b c ∧ ((∃ x ∈ xs, ∀ y, Done c y) ∨ e = none ∧ ∀ x ∈ xs, Done c x))
  | [], none, b, _, _, hm => .pure ⟨hm, hrefl b, .inr ⟨rfl, by simp⟩⟩
  | [], some e, b, _, he, hm => .inl (by rw [he e rfl]; rfl)
  | x :: xs, e, b, hx, he, hm => by
    unfold foldGen
    by_cases hs : stop b = true
    · rw [if_pos hs]
      exact .pure ⟨hm, hrefl b, .inl ⟨x, by simp, fun y => hstop b y hm hs⟩⟩
    · rw [if_neg hs]
      refine (hf b x (hx x (by simp)).1 (hx x (by simp)).2 hm).bind fun c hc => ?_
      refine (foldGen_roo hrefl htrans hle hstop hf xs e c (fun y hy => hx y (by simp [hy])) he hc.1).mono fun c' h => ⟨h.1, htrans _ _ _ hc.2.1 h.2.1, ?_⟩
      rcases h.2.2 with ⟨y, hy, h'⟩ | ⟨h1, h2⟩
      · exact .inl ⟨y, by simp [hy], h'⟩
      · refine .inr ⟨h1, fun y hy => ?_⟩
        rcases List.mem_cons.1 hy with rfl | hy
        · exact hle _ _ _ h.2.1 hc.2.2
        · exact h2 y hy

/-- After the nested loops all choices have been dealt with. -/
theorem visit_roo {β : Type} {stop : β → Bool} {leaf : β → List Int → Chk β} {M : β → Prop} {Le : β → β → Prop} {Done : β → List Int → Prop} (hd : DomsOK d) (hrefl : ∀ b, Le b b) (htrans : ∀ a b c, Le a b → Le b c → Le a c)
    (hle : ∀ b c ps, Le b c → Done b ps → Done c ps) (hstop : ∀ b ps, M b → stop b = true → Done b ps) :
    ∀ (idx : List (VarId × Int)) (elem : List Int) (b : β), (∀ q ∈ idx, q.1.Valid d.length ∧ InI64 q.2) → (∀ b ps, Pick d idx ps → M b → RightOrOverflow (leaf b (elem ++ ps)) (fun c => M c ∧ Le b c ∧ Done c (elem ++ ps))) → M b →
    RightOrOverflow (visit d stop leaf idx elem b) (fun c => M c ∧ Le b c ∧ ∀ ps, Pick d idx ps → Done c (elem ++ ps))
  | [], elem, b, _, h, hm => by
    unfold visit
    have := h b [] trivial hm
    rw [List.append_nil] at this
    refine this.mono fun c hc => ⟨hc.1, hc.2.1, fun ps hp => ?_⟩
    cases ps with
    | nil => rw [List.append_nil]; exact hc.2.2
    | cons p ps => exact hp.elim
  | (v, s) :: rest, elem, b, hv, h, hm => by
    obtain ⟨v1, v2⟩ := hv (v, s) (by simp)
    unfold visit
    refine (listed_roo hd v1).bind fun g hg => ?_
    refine (foldGen_roo (Le := Le) (M := M) (Done := fun c x => ∀ ps, Pick d rest ps → Done c (elem ++ (x - s) :: ps)) (P := Poss d v) hrefl htrans (fun b c x h1 h2 ps hp => hle b c _ h1 (h2 ps hp)) (fun b x hm hs ps _ => hstop b _ hm hs) ?_
      g.1 g.2 b hg.1 hg.2.2 hm).mono fun c hc => ⟨hc.1, hc.2.1, fun ps hp => ?_⟩
    · intro b x hx hp hm
      refine (sub_roo hx v2).bind fun p hpp => ?_
      have hE : ∀ ps : List Int, elem ++ [p] ++ ps = elem ++ (x - s) :: ps := fun ps => by rw [hpp.1]; simp
      refine (visit_roo hd hrefl htrans hle hstop rest (elem ++ [p]) b (fun q hq => hv q (List.mem_cons_of_mem _ hq)) (fun b ps hps hm => ?_) hm).mono fun c hc => ⟨hc.1, hc.2.1, fun ps hp => hE ps ▸ hc.2.2 ps hp⟩
      rw [hE]
      exact h b _ ⟨by show Poss d v (x - s + s); rw [show x - s + s = x by omega]; exact hp, hps⟩ hm
    · cases ps with
      | nil => exact hp.elim
      | cons p ps =>
        rcases hc.2.2 with ⟨x, _, h'⟩ | ⟨h1, h2⟩
        · have := h' (p + s) ps hp.2
          rwa [show p + s - s = p by omega] at this
        · have := h2 (p + s) (hg.2.1 h1 _ hp.1) ps hp.2
          rwa [show p + s - s = p by omega] at this

/-- If there are as many values as there are numbers between the bounds, all of them are values. -/
theorem all_between {P : Int → Prop} {lo hi : Int} {L : List Int} (nd : L.Nodup) (hL : ∀ y, y ∈ L ↔ P y) (hb : ∀ y, P y → lo ≤ y ∧ y ≤ hi) (hn : (L.length : Int) = hi - lo + 1) {y : Int} (h1 : lo ≤ y) (h2 : y ≤ hi) : P y := by
  refine Classical.byContradiction fun hy => ?_
  have := length_le_of_subset (y :: L) ((List.range (hi - lo + 1).toNat).map fun i => lo + (i : Nat)) (List.nodup_cons.2 ⟨fun h => hy ((hL y).1 h), nd⟩) (by
    intro x hx
    have hx' : lo ≤ x ∧ x ≤ hi := by
      rcases List.mem_cons.1 hx with rfl | hx
      · exact ⟨h1, h2⟩
      · exact hb x ((hL x).1 hx)
    exact List.mem_map.2 ⟨(x - lo).toNat, List.mem_range.2 (by omega), by omega⟩)
  simp only [List.length_cons, List.length_map, List.length_range] at this
  omega

theorem discount_roo (hd : DomsOK d) {v : VarId} (hv : v.Valid d.length) {elem : List Int} (he : entry k A elem = .ok v) {s : IntervalSet} (ws : WF s) :
    RightOrOverflow (discount ints k A d s elem) (fun t => WF t ∧ ∀ x, Mem x t ↔ Mem x s ∧ ¬ Poss d v x) := by
  unfold discount
  rw [he]
  show RightOrOverflow (match ints, v with | true, .const c => _ | _, _ => _) _
  split
  · rename_i c
    obtain ⟨w, h⟩ := erase_spec c s ws
    refine .pure ⟨w, fun x => (h x).trans ⟨fun h => ⟨h.1, fun ⟨a, _, e⟩ => h.2 (show c = x from e).symm⟩, fun h => ⟨h.1, fun e => h.2 ?_⟩⟩⟩
    obtain ⟨a, ha⟩ := exists_within hd
    exact ⟨a, ha, e.symm⟩
  · refine (bounds_roo hd hv).bind fun b hb => ?_
    refine (sub_roo hb.2.1 hb.1.1).bind fun w hw => (add_roo hw.2 (by decide)).bind fun n hn => ?_
    obtain ⟨L, nd, hL, hsz⟩ := domainSize_spec hd hv
    refine (size_roo hd hv).bind fun z hz => ?_
    split
    · rename_i e
      obtain ⟨w', h⟩ := eraseRange_spec b.1 b.2 s ws
      refine .pure ⟨w', fun x => (h x).trans ⟨fun h => ⟨h.1, fun hp => h.2 ⟨hb.1.2.2 x hp, hb.2.2.2 x hp⟩⟩, fun h => ⟨h.1, fun hp => h.2 ?_⟩⟩⟩
      have := hz.2.2.2 L nd hL
      exact all_between nd hL (fun y hy => ⟨hb.1.2.2 y hy, hb.2.2.2 y hy⟩) (by rw [← this, e, hn.1, hw.1]) hp.1 hp.2
    · refine (listed_roo hd hv).bind fun g hg => ?_
      refine (foldGen_roo (stop := fun _ => false) (f := fun s x => .ok (erase x s)) (M := fun c => WF c ∧ (∀ x, Mem x c → Mem x s) ∧ ∀ x, Mem x s → Mem x c ∨ Poss d v x) (Le := fun b c => ∀ x, Mem x c → Mem x b) (Done := fun c x => ¬ Mem x c) (P := Poss d v) (fun _ _ h => h) (fun _ _ _ h1 h2 x h => h1 x (h2 x h))
        (fun _ _ x h1 h2 h => h2 (h1 x h)) (fun _ _ _ h => nomatch h) (fun c x _ hp hm => ?_) g.1 g.2 s hg.1 hg.2.2 ⟨ws, fun _ h => h, fun _ h => .inl h⟩).mono fun t ht => ⟨ht.1.1, fun x => ⟨fun hx => ⟨ht.1.2.1 x hx, fun hp => ?_⟩, fun h => (ht.1.2.2 x h.1).resolve_right h.2⟩⟩
      · obtain ⟨w', h⟩ := erase_spec x c hm.1
        exact .pure ⟨⟨w', fun y hy => hm.2.1 y ((h y).1 hy).1, fun y hy => (hm.2.2 y hy).elim (fun h' => by
          by_cases e : y = x
          · exact .inr (e ▸ hp)
          · exact .inl ((h y).2 ⟨h', e⟩)) .inr⟩, fun y hy => ((h y).1 hy).1, fun hx => ((h x).1 hx).2 rfl⟩
      · rcases ht.2.2 with ⟨_, _, h'⟩ | ⟨h1, h2⟩
        · exact h' x hx
        · exact h2 x (hg.2.1 h1 x hp) hx

/-- Where the entry at some positions can have the value `y`. -/
def Has (d : Doms) (k : Nat) (A : Arr k) (y : Int) (ps : List Int) : Prop := ∃ v, at? k A ps = some v ∧ Poss d v y

theorem values_roo (hd : DomsOK d) (hi : ∀ q ∈ idx, q.1.Valid d.length ∧ InI64 q.2) (hent : ∀ ps, Pick d idx ps → ∃ v, entry k A ps = .ok v ∧ at? k A ps = some v ∧ v.Valid d.length) {s : IntervalSet} (ws : WF s) :
    RightOrOverflow (visit d IntervalSet.isEmpty (discount ints k A d) idx [] s) (fun t => WF t ∧ ∀ x, Mem x t ↔ Mem x s ∧ ¬ ∃ ps, Pick d idx ps ∧ Has d k A x ps) := by
  refine (visit_roo (M := fun c => WF c ∧ (∀ x, Mem x c → Mem x s) ∧ ∀ x, Mem x s → Mem x c ∨ ∃ ps, Pick d idx ps ∧ Has d k A x ps) (Le := fun b c => ∀ x, Mem x c → Mem x b) (Done := fun c ps => ∀ x, Has d k A x ps → ¬ Mem x c) hd (fun _ _ h => h) (fun _ _ _ h1 h2 x h => h1 x (h2 x h))
    (fun b c ps h1 h2 x hx hc => h2 x hx (h1 x hc)) (fun b ps hm hs x _ => (isEmpty_spec b hm.1).1 hs x) idx [] s hi (fun b ps hp hm => ?_) ⟨ws, fun _ h => h, fun _ h => .inl h⟩).mono fun t ht => ⟨ht.1.1, fun x => ⟨fun hx => ⟨ht.1.2.1 x hx, fun ⟨ps, hp, hh⟩ => ht.2.2 ps hp x hh hx⟩, fun h => (ht.1.2.2 x h.1).resolve_right h.2⟩⟩
  obtain ⟨v, h1, h2, h3⟩ := hent ps hp
  refine (discount_roo (ints := ints) hd h3 h1 hm.1).mono fun t ht => ⟨⟨ht.1, fun x hx => hm.2.1 x ((ht.2 x).1 hx).1, fun x hx => (hm.2.2 x hx).elim (fun hb => ?_) .inr⟩, fun x hx => ((ht.2 x).1 hx).1, fun x ⟨w, hw, hp⟩ hx => ?_⟩
  · by_cases h : Poss d v x
    · exact .inr ⟨ps, hp, v, h2, h⟩
    · exact .inl ((ht.2 x).2 ⟨hb, h⟩)
  · rw [List.nil_append, h2] at hw; cases hw
    exact ((ht.2 x).1 hx).2 hp

/-- All that can be chosen is between the bounds found, within the present bounds `cur`. -/
theorem widen_roo (hd : DomsOK d) (hi : ∀ q ∈ idx, q.1.Valid d.length ∧ InI64 q.2) (hent : ∀ ps, Pick d idx ps → ∃ v, entry k A ps = .ok v ∧ at? k A ps = some v ∧ v.Valid d.length) (cur : Int × Int) :
    RightOrOverflow (visit d (covered cur) (widen k A d cur) idx [] none) (fun r => (∀ f, r = some f → InI64 f.1 ∧ InI64 f.2) ∧ ∀ y, cur.1 ≤ y → y ≤ cur.2 → (∃ ps, Pick d idx ps ∧ Has d k A y ps) → ∃ f, r = some f ∧ f.1 ≤ y ∧ y ≤ f.2) := by
  refine (visit_roo (M := fun r => ∀ f, r = some f → InI64 f.1 ∧ InI64 f.2) (Le := fun b c => ∀ f, b = some f → ∃ g, c = some g ∧ g.1 ≤ f.1 ∧ f.2 ≤ g.2) (Done := fun r ps => ∀ y, cur.1 ≤ y → y ≤ cur.2 → Has d k A y ps → ∃ f, r = some f ∧ f.1 ≤ y ∧ y ≤ f.2) hd
    (fun _ f h => ⟨f, h, by omega, by omega⟩) (fun a b c h1 h2 f hf => ?_) (fun b c ps h1 h2 y l u hy => ?_) (fun b ps hm hs y l u hy => ?_) idx [] none hi (fun b ps hp hm => ?_) (fun f h => nomatch h)).mono fun t ht => ⟨ht.1, fun y l u ⟨ps, hp, hh⟩ => ht.2.2 ps hp y l u hh⟩
  · obtain ⟨g, e, k1, k2⟩ := h1 f hf
    obtain ⟨g', e', k3, k4⟩ := h2 g e
    exact ⟨g', e', by omega, by omega⟩
  · obtain ⟨f, e, k1, k2⟩ := h2 y l u hy
    obtain ⟨g, e', k3, k4⟩ := h1 f e
    exact ⟨g, e', by omega, by omega⟩
  · cases b with
    | none => cases hs
    | some f =>
      have := of_decide_eq_true (show decide (f.1 ≤ cur.1 ∧ f.2 ≥ cur.2) = true from hs)
      exact ⟨f, rfl, by omega, by omega⟩
  · obtain ⟨v, h1, h2, h3⟩ := hent ps hp
    rw [List.nil_append]
    unfold widen
    rw [h1]
    refine (bounds_roo hd h3).bind fun w hw => ?_
    have has : ∀ y, Has d k A y ps → w.1 ≤ y ∧ y ≤ w.2 := fun y ⟨u, hu, hp⟩ => by
      rw [h2] at hu; cases hu
      exact ⟨hw.1.2.2 y hp, hw.2.2.2 y hp⟩
    split
    · cases b with
      | none =>
        refine .pure ⟨fun f h => ?_, (fun f h => nomatch h), fun y _ _ hy => ⟨w, rfl, has y hy⟩⟩
        cases h; exact ⟨hw.1.1, hw.2.1⟩
      | some f =>
        obtain ⟨k1, k2⟩ := hm f rfl
        refine .pure ⟨fun f' h => ?_, fun f' h => ⟨_, rfl, ?_⟩, fun y _ _ hy => ⟨_, rfl, ?_⟩⟩
        · cases h; dsimp only
          refine ⟨?_, ?_⟩
          · split
            · exact hw.1.1
            · exact k1
          · split
            · exact hw.2.1
            · exact k2
        · cases h; dsimp only; constructor <;> split <;> omega
        · have := has y hy
          dsimp only; constructor <;> split <;> omega
    · rename_i hn
      refine .pure ⟨hm, fun f h => ⟨f, h, by omega, by omega⟩, fun y l u hy => ?_⟩
      have := has y hy
      exact absurd ⟨by omega, by omega⟩ hn

theorem fixedAt_roo (hd : DomsOK d) : ∀ idx : List (VarId × Int), (∀ q ∈ idx, q.1.Valid d.length ∧ InI64 q.2) → RightOrOverflow (fixedAt d idx) (fun r => ∀ ps, r = some ps → ∀ a, Within d a → ps = idx.map fun q => q.1.eval a - q.2)
  | [], _ => .pure fun ps h a _ => by cases h; rfl
  | (v, s) :: rest, hv => by
    obtain ⟨v1, v2⟩ := hv (v, s) (by simp)
    unfold fixedAt
    refine (single_roo hd v1).bind fun x hx => ?_
    cases x with
    | none => exact .pure (fun _ h => nomatch h)
    | some x =>
      obtain ⟨i1, e1⟩ := single_value hx
      refine (sub_roo i1 v2).bind fun p hp => ?_
      refine (fixedAt_roo hd rest fun q hq => hv q (List.mem_cons_of_mem _ hq)).bind fun r hr => ?_
      cases r with
      | none => exact .pure (fun _ h => nomatch h)
      | some ps =>
        refine .pure fun ps' h a ha => ?_
        cases h
        rw [List.map_cons, ← hr ps rfl a ha, hp.1]
        show (x - s) :: ps = (v.eval a - s) :: ps
        rw [e1 a ha]

end

section
variable {σ μ : Type} {J : Job} {d : Doms} {k : Nat} {A : Arr k} {result : VarId} {idx : List (VarId × Int)} {ints : Bool} {dim : Nat} {al : Bool}

theorem isElement_has {a : Asg} (ha : Within d a) (h : IsElement k A result idx a) : ∃ ps, Pick d idx ps ∧ Has d k A (result.eval a) ps := by
  obtain ⟨v, h1, h2⟩ := h
  exact ⟨_, pick_eval ha idx, v, h1, h2 ▸ ha.poss v⟩

theorem indexProp_ver (ho : J.R .overflow) (hr : result.Valid J.n) (hd : DomsOK d) (hl : d.length = J.n) (hi : ∀ q ∈ idx, q.1.Valid J.n ∧ InI64 q.2) {x : VarId} {s : Int} (hx : idx[dim]? = some (x, s))
    (hent : ∀ ps, Pick d idx ps → ∃ v, entry k A ps = .ok v ∧ at? k A ps = some v ∧ v.Valid J.n) (hC : ∀ a, J.C a → IsElement k A result idx a) :
    (indexProp ints k A result idx al dim x : Prog σ μ PState).Ver J (fun _ => True) (fun p d' => p = claim al ∧ (∀ val, Poss d' x val → ∃ ps, PickAt d dim val 0 idx ps ∧ Meets d k A result ps) ∧ ∃ P : Int → Prop, ∀ b, Within d' b ↔ Within d b ∧ P (x.eval b)) d := by
  have hxv := (hi _ (List.mem_of_getElem? hx)).1
  refine ver_ask (f := (eachValue · x)) ho (listed_roo hd (hl ▸ hxv)) fun g hg => ?_
  refine ver_bind (J := J) (S := fun _ => False) (fun _ h => h.elim) _ d hd hl (ver_mono (fun _ d' hq k1 k2 k3 => ⟨rfl, fun val hv => ?_, hq.1.2.1⟩) _ _ (ver_gen (J := J) (fun vs d1 => (∀ v ∈ vs, InI64 v ∧ Poss d x v) ∧ (∃ P : Int → Prop, ∀ b, Within d1 b ↔ Within d b ∧ P (x.eval b)) ∧
    (g.2 = none → ∀ v, Poss d1 x v → v ∈ vs ∨ ∃ ps, PickAt d dim v 0 idx ps ∧ Meets d k A result ps))
    hd hl (fun e he => by rw [hg.2.2 e he]; exact ho) ?_ ⟨fun v hv => hg.1 v hv, ⟨fun _ => True, fun _ => (and_true _).symm.to_iff⟩, fun hn v hv => .inl (hg.2.1 hn v hv)⟩))
  · intro v vs d1 hd1 hl1 ⟨hvs, ⟨P, hP⟩, hsup⟩
    obtain ⟨hv1, hv2⟩ := hvs v (by simp)
    have hsub : ∀ a, Within d1 a → Within d a := fun a ha => ((hP a).1 ha).1
    refine ver_ask (f := fun d => support ints k A result d dim v 0 idx []) ho (support_roo hd1 (hl1 ▸ hr) hv1 idx 0 [] (by rw [hl1]; exact hi) fun ps hps => ?_) fun b hb => ?_
    · rw [hl1, List.nil_append]
      exact hent ps (PickAt.pick (d := d) (fun q _ hq => by rw [Nat.sub_zero, hx] at hq; cases hq; exact hv2) (hps.sub hsub))
    · simp only [List.nil_append] at hb
      refine ver_onlyIf (fun hbf => ?_) fun hbt => ?_
      · refine ver_tell_last (.ne hxv hv1) (fun a ha hc => ?_) fun d2 _ _ h => ⟨fun u hu => hvs u (by simp [hu]), ⟨fun y => P y ∧ y ≠ v, fun b => ?_⟩, fun hn u hu => ?_⟩
        · rw [Lit.holds_ne]
          intro hE
          obtain ⟨w, e1, e2⟩ := hC a hc
          rw [hb.2 ⟨_, pickAt_eval ha idx 0 (fun q _ hq => by rw [Nat.sub_zero, hx] at hq; cases hq; exact hE), w, e1, _, ha.poss w, e2 ▸ ha.poss result⟩] at hbf
          cases hbf
        · rw [h b, hP b, Lit.holds_ne, and_assoc]
        · rcases hsup hn u (Inverse.Poss.mono (fun a ha => ((h a).1 ha).1) hu) with hm | hm
          · rcases List.mem_cons.1 hm with rfl | hm
            · obtain ⟨a, ha, e⟩ := hu
              have := ((h a).1 ha).2
              rw [Lit.holds_ne] at this
              exact absurd e this
            · exact .inl hm
          · exact .inr hm
      · refine ⟨fun u hu => hvs u (by simp [hu]), ⟨P, hP⟩, fun hn u hu => ?_⟩
        rcases hsup hn u hu with hm | hm
        · rcases List.mem_cons.1 hm with rfl | hm
          · obtain ⟨ps, h1, w, h2, y, h3, h4⟩ := hb.1 (by simpa using hbt)
            exact .inr ⟨ps, h1.sub hsub, w, h2, y, Inverse.Poss.mono hsub h3, Inverse.Poss.mono hsub h4⟩
          · exact .inl hm
        · exact .inr hm
  · exact (hq.1.2.2 hq.2 val hv).resolve_left (by simp)

theorem boundsProp_ver (ho : J.R .overflow) (hr : result.Valid J.n) (hd : DomsOK d) (hl : d.length = J.n) (hi : ∀ q ∈ idx, q.1.Valid J.n ∧ InI64 q.2)
    (hent : ∀ ps, Pick d idx ps → ∃ v, entry k A ps = .ok v ∧ at? k A ps = some v ∧ v.Valid J.n) (hC : ∀ a, J.C a → IsElement k A result idx a) :
    (boundsProp k A result idx : Prog σ μ PState).Ver J (fun _ => True) (fun p _ => p = .enable) d := by
  refine ver_ask (f := (bounds · result)) ho (bounds_roo hd (hl ▸ hr)) fun cur hcur => ?_
  refine ver_ask (f := fun d => visit d (covered cur) (widen k A d cur) idx [] none) ho (widen_roo hd (by rw [hl]; exact hi) (by rw [hl]; exact hent) cur) fun r hrr => ?_
  have key : ∀ a, Within d a → J.C a → ∃ f, r = some f ∧ f.1 ≤ result.eval a ∧ result.eval a ≤ f.2 := fun a ha hc => hrr.2 _ (hcur.1.2.2 _ (ha.poss _)) (hcur.2.2.2 _ (ha.poss _)) (isElement_has ha (hC a hc))
  cases r with
  | none => exact (rfl : PState.enable = .enable)
  | some f =>
    obtain ⟨i1, i2⟩ := hrr.1 f rfl
    have key' : ∀ a, Within d a → J.C a → f.1 ≤ result.eval a ∧ result.eval a ≤ f.2 := fun a ha hc => by obtain ⟨f', e, h⟩ := key a ha hc; cases e; exact h
    refine ver_seq (J := J) (S := fun _ => False) (Q' := fun _ _ => True) hd hl (fun _ h => h) (ver_onlyIf (fun _ => ver_tell_last (.ge hr i1) (fun a ha hc => by rw [Lit.holds_ge]; exact (key' a ha hc).1) fun _ _ _ _ => trivial) fun _ => trivial) fun _ d1 hd1 hl1 hs1 _ => ?_
    refine ver_seq (J := J) (S := fun _ => False) (Q' := fun _ _ => True) hd1 hl1 (fun _ h => h) (ver_onlyIf (fun _ => ver_lift ho (le_roo i2) fun c hc => ?_) fun _ => trivial) fun _ d2 hd2 hl2 hs2 _ => rfl
    rw [hc.1]
    refine ver_tell_last (.lt hr hc.2) (fun a ha hc => ?_) fun _ _ _ _ => trivial
    rw [Lit.holds_lt]; have := (key' a (hs1 a ha) hc).2; omega

theorem valuesProp_ver (ho : J.R .overflow) (hr : result.Valid J.n) (hd : DomsOK d) (hl : d.length = J.n) (hi : ∀ q ∈ idx, q.1.Valid J.n ∧ InI64 q.2)
    (hent : ∀ ps, Pick d idx ps → ∃ v, entry k A ps = .ok v ∧ at? k A ps = some v ∧ v.Valid J.n) (hC : ∀ a, J.C a → IsElement k A result idx a) :
    (valuesProp ints k A result idx al : Prog σ μ PState).Ver J (fun _ => True) (fun p d' => p = claim al ∧ (∀ y, Poss d' result y → ∃ ps, Pick d idx ps ∧ Has d k A y ps) ∧ ∃ P : Int → Prop, ∀ b, Within d' b ↔ Within d b ∧ P (result.eval b)) d := by
  refine ver_ask (f := (copyOfValues · result)) ho (copyOfValues_spec hd (hl ▸ hr)).drop fun s0 hs0 => ?_
  refine ver_ask (f := fun d => visit d IntervalSet.isEmpty (discount ints k A d) idx [] s0) ho (values_roo hd (by rw [hl]; exact hi) (by rw [hl]; exact hent) hs0.1) fun t ht => ?_
  have rt : IntervalSet.InRange t := IntervalSet.inRange_of_mem ht.1 fun x hx => IntervalSet.mem_of_inRange hs0.2.1 ((ht.2 x).1 hx).1
  obtain ⟨es1, es2, es3⟩ := each_spec t ht.1 rt
  refine ver_bind (J := J) (S := fun _ => False) (fun _ h => h.elim) _ d hd hl (ver_mono (fun _ d' hq k1 k2 k3 => ⟨rfl, fun y hy => ?_, hq.1.2.1⟩) _ _ (ver_gen (J := J) (fun vs d1 => (∀ v ∈ vs, Mem v t) ∧ (∃ P : Int → Prop, ∀ b, Within d1 b ↔ Within d b ∧ P (result.eval b)) ∧ (∀ v, Poss d1 result v → Mem v t → v ∈ vs))
    hd hl (fun e he => ?_) ?_ ⟨fun v hv => (es1.2 v).1 hv, ⟨fun _ => True, fun _ => (and_true _).symm.to_iff⟩, fun v _ hv => (es1.2 v).2 hv⟩))
  · by_cases h : Mem i64Max t
    · rw [es2 h] at he; cases he; exact ho
    · rw [es3 h] at he; cases he
  · intro v vs d1 hd1 hl1 ⟨hvs, ⟨P, hP⟩, hsup⟩
    have hsub : ∀ a, Within d1 a → Within d a := fun a ha => ((hP a).1 ha).1
    have hv := hvs v (by simp)
    refine ver_tell_last (.ne hr (IntervalSet.mem_of_inRange rt hv)) (fun a ha hc => ?_) fun d2 _ _ h => ⟨fun u hu => hvs u (by simp [hu]), ⟨fun y => P y ∧ y ≠ v, fun b => by rw [h b, hP b, Lit.holds_ne, and_assoc]⟩, fun u hu hm => ?_⟩
    · rw [Lit.holds_ne]
      rintro rfl
      exact ((ht.2 _).1 hv).2 (isElement_has (hsub a ha) (hC a hc))
    · rcases List.mem_cons.1 (hsup u (Inverse.Poss.mono (fun a ha => ((h a).1 ha).1) hu) hm) with rfl | h'
      · obtain ⟨a, ha, e⟩ := hu
        have := ((h a).1 ha).2
        rw [Lit.holds_ne] at this
        exact absurd e this
      · exact h'
  · exact Classical.byContradiction fun hn => by have := hq.1.2.2 y hy ((ht.2 y).2 ⟨(hs0.2.2 y).2 (Inverse.Poss.mono k3 hy), hn⟩); cases this

theorem equalityProp_ver {n m : Nat} {R : Err → Prop} {root : Doms} (ho : R .overflow) (hr : result.Valid n) (hd : DomsOK d) (hl : d.length = n) (hi : ∀ q ∈ idx, q.1.Valid n ∧ InI64 q.2)
    (hent : ∀ ps, Pick d idx ps → ∃ v, entry k A ps = .ok v ∧ at? k A ps = some v ∧ v.Valid n) :
    (equalityProp k A result idx al : Prog σ μ PState).Ver { n, m, R, C := fun a => Within root a ∧ IsElement k A result idx a } (fun _ => True) (fun p _ => p = claim al) d := by
  let J : Job := { n, m, R, C := fun a => Within root a ∧ IsElement k A result idx a }
  refine ver_ask (J := J) (f := (fixedAt · idx)) ho (fixedAt_roo hd idx (by rw [hl]; exact hi)) fun r hrr => ?_
  cases r with
  | none => exact (rfl : claim al = claim al)
  | some ps =>
    have hps := hrr ps rfl
    obtain ⟨w, hw⟩ := exists_within hd
    obtain ⟨v, h1, h2, h3⟩ := hent ps (hps w hw ▸ pick_eval hw idx)
    refine ver_lift (J := J) ho (P := fun u => u = v) (.inr ⟨v, h1, rfl⟩) fun u hu => ?_
    subst hu
    refine ver_bind (J := J) (S := fun _ => True) (T := fun _ => True) (f := fun _ => .ret (claim al)) (fun _ _ => trivial) _ d hd hl (ver_mono (fun _ d' _ _ _ _ => (rfl : claim al = claim al)) _ _
      (ver_weaken (J := { n, m, R, C := fun a => Within root a ∧ result.eval a = u.eval a }) _ d (fun a ha hc => ⟨hc.1, ?_⟩) (Equals.enforce_enforces (root := root) ho hr h3 d hd hl)))
    obtain ⟨v', e1, e2⟩ := hc.2
    rw [← hps a ha, h2] at e1; cases e1
    exact e2

end

section
variable {σ μ : Type} {n m : Nat} {R : Err → Prop} {root : Doms} {C : Asg → Prop}

/-- Initialisers and propagators that rely on them. -/
theorem _root_.Gcs.Inits.served_all {z0 : List σ} {e : Asg → Prop} {I : Doms → Prop} {items : List (Item σ μ)} {ps : List (Item σ μ × (Asg → Prop))} {xs : List VarId} (h : Inits n m R root C e items)
    (hs : ∀ p ∈ ps, (∀ q f, p.1 ≠ .init q f) ∧ p.1.Served n m R root (fun d _ => I d) (fun _ => False) C xs p.2) (hC : ∀ a, Within root a → (C a ↔ e a ∧ ∀ p ∈ ps, p.2 a)) (h1 : ∀ d d', (∀ a, Within d' a → Within d a) → I d → I d')
    (h2 : ∀ d, DomsOK d → d.length = n → (∀ a, Within d a → Within root a ∧ e a) → I d) :
    ∃ I es, es.map (·.1) = items ++ ps.map (·.1) ∧ Served n m R root z0 I (fun _ => False) C xs es := by
  obtain ⟨es, e1, e2, e3⟩ := h.out
  refine ⟨fun d _ => I d, es ++ ps, by simp [e1], ⟨?_, fun a ha => ?_, fun d d' _ _ _ hs => h1 d d' hs, fun _ _ _ _ hi => hi, fun d hd hl hq => ?_⟩⟩
  · rw [List.forall_mem_append]
    exact ⟨fun p hp => (e2 p hp).2 _ _ _, fun p hp => (hs p hp).2⟩
  · rw [List.forall_mem_append, e3 a ha]; exact hC a ha
  · refine h2 d hd hl fun a ha => ⟨(hq a ha).1, (e3 a (hq a ha).1).1 fun p hp => (hq a ha).2 p (List.mem_append_left _ hp) (e2 p hp).1⟩

theorem defineIndices_inits (ho : R .overflow) (hd : DomsOK root) : ∀ (idx : List (VarId × Int)) (ns : List Nat), idx.length = ns.length → (∀ q ∈ idx, q.1.Valid root.length ∧ InI64 q.2) → (∀ a, Within root a → C a → InRange ns (idx.map fun q => q.1.eval a - q.2)) →
    RightOrOverflow (defineIndices (σ := σ) (μ := μ) root idx ns) (Inits root.length m R root C (fun a => InRange ns (idx.map fun q => q.1.eval a - q.2)))
  | [], [], _, _, _ => .pure (.nil fun _ _ => trivial)
  | (v, s) :: rest, n :: ns, hl, hi, hC => by
    obtain ⟨v1, v2⟩ := hi (v, s) (by simp)
    unfold defineIndices
    refine (range_inits (m := m) (C := C) ho hd v2 [v] (by simpa using v1) fun a ha hc w hw => ?_).bind fun is his => ?_
    · rw [List.mem_singleton.1 hw]
      have := (hC a ha hc).1
      dsimp only at this
      omega
    · refine (defineIndices_inits ho hd rest ns (by simpa using hl) (fun q hq => hi q (List.mem_cons_of_mem _ hq)) fun a ha hc => (hC a ha hc).2).bind fun js hjs => .pure ?_
      refine his.append hjs fun a ha => ⟨fun h => ⟨?_, h.2⟩, fun h => ⟨?_, h.2⟩⟩
      · rw [List.forall_mem_singleton]
        have := h.1; dsimp only at this; omega
      · have := h.1 v (by simp); dsimp only; omega
  | [], _ :: _, hl, _, _ => by cases hl
  | _ :: _, [], hl, _, _ => by cases hl

theorem inside_of {d : Doms} (hd : DomsOK d) : ∀ {idx : List (VarId × Int)} {ns : List Nat}, (∀ a, Within d a → InRange ns (idx.map fun q => q.1.eval a - q.2)) → Inside d idx ns
  | [], [], _, [], _ => trivial
  | [], [], _, _ :: _, h => h.elim
  | [], n :: ns, h, _, _ => by obtain ⟨a, ha⟩ := exists_within hd; exact (h a ha).elim
  | q :: idx, [], h, _, _ => by obtain ⟨a, ha⟩ := exists_within hd; exact (h a ha).elim
  | q :: idx, n :: ns, h, [], hp => hp.elim
  | q :: idx, n :: ns, h, p :: ps, hp => by
    obtain ⟨a, ha, e⟩ := hp.1
    refine ⟨?_, inside_of hd (fun a ha => (h a ha).2) ps hp.2⟩
    have := (h a ha).1
    dsimp only at this
    omega

theorem apart_of {vs : List VarId} (h : aliased vs = false) (p q : Nat) (v w : VarId) (hp : vs[p]? = some v) (hq : vs[q]? = some w) (hne : p ≠ q) : Apart v w := by
  have nd : (vs.filterMap VarId.underlyingIndex).Nodup := by simpa [aliased] using h
  rcases Nat.lt_or_gt_of_ne hne with h' | h'
  · exact Table.nodup_apart nd p q v w hp hq h'
  · exact Table.apart_symm (Table.nodup_apart nd q p w v hq hp h')

end

section
variable {σ μ : Type} {n m : Nat} {R : Err → Prop} {root : Doms} {k : Nat} {A : Arr k} {result : VarId} {idx : List (VarId × Int)} {ints : Bool} {dim : Nat} {ns : List Nat} {watched : List VarId}

/-- What propagation relies on. -/
def Ready (root : Doms) (idx : List (VarId × Int)) (ns : List Nat) (d : Doms) : Prop := (∀ a, Within d a → Within root a) ∧ Inside d idx ns

theorem Ready.sub {d d' : Doms} (hs : ∀ a, Within d' a → Within d a) (h : Ready root idx ns d) : Ready root idx ns d' := ⟨fun a ha => h.1 a (hs a ha), fun ps hp => h.2 ps (hp.sub hs)⟩

/-- The variables that are not removed from. -/
def others (result : VarId) (idx : List (VarId × Int)) (watched : List VarId) (dim : Nat) : List VarId := watched ++ [result] ++ ((idx.take dim).map (·.1) ++ (idx.drop (dim + 1)).map (·.1))

theorem mem_others {i : Nat} {q : VarId × Int} (h : idx[i]? = some q) (hne : i ≠ dim) : q.1 ∈ others result idx watched dim := by
  simp only [others, List.mem_append, List.mem_map]
  refine .inr ?_
  rcases Nat.lt_or_gt_of_ne hne with h' | h'
  · exact .inl ⟨q, List.mem_of_getElem? (i := i) (by rw [List.getElem?_take_of_lt h']; exact h), rfl⟩
  · exact .inr ⟨q, List.mem_of_getElem? (i := i - (dim + 1)) (by rw [List.getElem?_drop, show dim + 1 + (i - (dim + 1)) = i by omega]; exact h), rfl⟩

/-- What holds once everything but one of the index variables is known. -/
theorem isElement_of_known {d d' : Doms} {a : Asg} {x : VarId} {s : Int} (hreg : Regular k A ns) (hin : Inside d idx ns) (hx : idx[dim]? = some (x, s)) (hxd : ∀ y, Poss d' x y → Poss d x y) (hk : ∀ y ∈ result :: entries k A, Known d y) (hk2 : ∀ i q, idx[i]? = some q → i ≠ dim → Known d q.1)
    (h : ∀ val, Poss d' x val → ∃ ps, PickAt d dim val 0 idx ps ∧ Meets d k A result ps) (hs : ∀ a, Within d' a → Within d a) (ha : Within d' a) : IsElement k A result idx a := by
  obtain ⟨ps, h1, v, h2, y, h3, h4⟩ := h _ (ha.poss x)
  have e := pickAt_known (hs a ha) (fun i q hi => ⟨fun e => by rw [Nat.zero_add] at e; rw [e, hx] at hi; cases hi; rfl, fun e => hk2 i q hi (by omega)⟩) h1
  have hp : Pick d idx ps := PickAt.pick (fun q _ hq => by rw [Nat.sub_zero, hx] at hq; cases hq; exact hxd _ (ha.poss x)) h1
  obtain ⟨v', _, f2, f3⟩ := entry_ok hreg (hin ps hp)
  rw [h2] at f2; cases f2
  refine ⟨v, e ▸ h2, ?_⟩
  rw [(hk result (by simp)).poss (hs a ha) h4, (hk v (by simp [f3])).poss (hs a ha) h3]

theorem Known.of_apart {d d' : Doms} {P : Int → Prop} {v w : VarId} (hd' : DomsOK d') (h : ∀ b, Within d' b ↔ Within d b ∧ P (w.eval b)) (hv : Apart v w) (hk : Known d' v) : Known d v := by
  intro a b ha hb
  obtain ⟨c, hc⟩ := exists_within hd'
  exact (hk.poss hc (poss_apart hd' h hv (ha.poss v))).symm.trans (hk.poss hc (poss_apart hd' h hv (hb.poss v)))

theorem known_const {d : Doms} {c : Int} : Known d (.const c) := fun _ _ _ _ => rfl

/-- An index propagator does all there is to do once the rest is known. -/
theorem index_serves (ho : R .overflow) (hr : result.Valid n) (hi : ∀ q ∈ idx, q.1.Valid n ∧ InI64 q.2) (hv : ∀ v ∈ entries k A, v.Valid n) (hreg : Regular k A ns) (hints : ints = true → ∀ v ∈ entries k A, ∃ c, v = .const c) {x : VarId} {s : Int} (hx : idx[dim]? = some (x, s))
    (hw : ∀ v ∈ entries k A, v ∈ watched ∨ Known root v) :
    Serves n m R root (fun d _ => Ready root idx ns d) (fun _ => False) (indexProp (σ := σ) (μ := μ) ints k A result idx (aliased (result :: idx.map (·.1) ++ if ints then [] else entries k A)) dim x)
      { onChange := others result idx watched dim } (IsElement k A result idx) (IsElement k A result idx) (others result idx watched dim) := by
  refine Inverse.serves_of_ver (I := Ready root idx ns) (wakes_mem fun z hz => .inl hz) rfl (fun d d' hs hi => hi.sub hs) fun d hd hl hR => ?_
  have hent : ∀ ps, Pick d idx ps → ∃ v, entry k A ps = .ok v ∧ at? k A ps = some v ∧ v.Valid n := fun ps hp => by
    obtain ⟨v, h1, h2, h3⟩ := entry_ok hreg (hR.2 ps hp)
    exact ⟨v, h1, h2, hv v h3⟩
  refine ver_mono (fun p d' ⟨⟨hd', hl', hs'⟩, hp, hsup, P, hP⟩ => ?_) _ _ (ver_facts (J := { n, m, R, C := fun a => Within root a ∧ IsElement k A result idx a }) _ _ hd hl (indexProp_ver ho hr hd hl hi hx hent fun a hc => hc.2))
  have key : (∀ y ∈ others result idx watched dim, Known d y) → ∀ a, Within d' a → IsElement k A result idx a := fun hk a ha =>
    isElement_of_known hreg hR.2 hx (fun y hy => Inverse.Poss.mono hs' hy) (by
      rw [List.forall_mem_cons]
      exact ⟨hk _ (by simp [others]), fun v hv => (hw v hv).elim (fun h => hk v (by simp [others, h])) fun h => h.sub hR.1⟩) (fun i q hq hne => hk _ (mem_others hq hne)) hsup hs' ha
  refine ⟨fun hk a ha _ => key (known_all hk) a ha, fun _ hid hk a ha _ => ?_, fun e => ?_⟩
  · rw [hp] at hid
    have hal : aliased (result :: idx.map (·.1) ++ if ints then [] else entries k A) = false := by
      revert hid
      cases aliased (result :: idx.map (·.1) ++ if ints then [] else entries k A) with
      | false => exact fun _ => rfl
      | true => exact fun h => nomatch h
    have hk' := known_all hk
    have hxp : (result :: idx.map (·.1) ++ if ints then [] else entries k A)[dim + 1]? = some x := by
      rw [List.cons_append, List.getElem?_cons_succ, List.getElem?_append_left (by have := (List.getElem?_eq_some_iff.1 hx).1; simpa using this)]
      simp [hx]
    have up : ∀ y ∈ others result idx watched dim, Apart y x → Known d y := fun y hy hap => Known.of_apart hd' hP hap (hk' y hy)
    refine isElement_of_known hreg hR.2 hx (fun y hy => Inverse.Poss.mono hs' hy) ?_ (fun i q hq hne => up _ (mem_others hq hne) ?_) hsup hs' ha
    · rw [List.forall_mem_cons]
      refine ⟨up _ (by simp [others]) (apart_of hal 0 (dim + 1) _ _ rfl hxp (by omega)), fun v hv => ?_⟩
      rcases hw v hv with h | h
      · cases hI : ints with
        | true =>
          obtain ⟨c, rfl⟩ := hints hI v hv
          exact known_const
        | false =>
          refine up v (by simp [others, h]) ?_
          obtain ⟨j, hj⟩ := List.mem_iff_getElem?.1 hv
          refine apart_of hal (idx.length + 1 + j) (dim + 1) _ _ ?_ hxp (by have := (List.getElem?_eq_some_iff.1 hx).1; omega)
          rw [hI, show idx.length + 1 + j = (idx.length + j) + 1 by omega, List.cons_append, List.getElem?_cons_succ, List.getElem?_append_right (by simp)]
          simpa using hj
      · exact h.sub hR.1
    · refine apart_of hal (i + 1) (dim + 1) _ _ ?_ hxp (by omega)
      rw [List.cons_append, List.getElem?_cons_succ, List.getElem?_append_left (by have := (List.getElem?_eq_some_iff.1 hq).1; simpa using this)]
      simp [hq]
  · rw [hp] at e
    exact absurd e (by unfold claim; intro e; revert e; cases aliased (result :: idx.map (·.1) ++ if ints then [] else entries k A) <;> exact fun h => nomatch h)

theorem indexProps_mem {al : Bool} {it : Item σ μ} : ∀ (rest : List (VarId × Int)) (dim : Nat), idx.drop dim = rest → it ∈ indexProps ints k A result idx al watched dim ((idx.take dim).map (·.1)) rest →
    ∃ dim x s, idx[dim]? = some (x, s) ∧ it = .prop (indexProp ints k A result idx al dim x) { onChange := others result idx watched dim }
  | [], _, _, h => by cases h
  | (x, s) :: rest, dim, hr, h => by
    have hx : idx[dim]? = some (x, s) := by
      have := List.getElem?_drop (xs := idx) (i := dim) (j := 0)
      rw [hr] at this
      simpa using this.symm
    have hd : idx.drop (dim + 1) = rest := by
      have := List.drop_drop (l := idx) (i := 1) (j := dim)
      rw [hr] at this
      simpa [Nat.add_comm] using this.symm
    rcases List.mem_cons.1 h with h | h
    · exact ⟨dim, x, s, hx, by rw [h, others, hd]⟩
    · refine indexProps_mem rest (dim + 1) hd ?_
      rw [List.take_succ, hx]
      simpa using h

theorem nonconstants_roo {d : Doms} (hd : DomsOK d) {vs : List VarId} (hv : ∀ v ∈ vs, v.Valid d.length) : RightOrOverflow (nonconstants d vs) (fun b => b = true ↔ ∃ v ∈ vs, ¬ Known d v) := by
  refine anyOf_roo vs fun v hvs => ?_
  obtain ⟨b, h1, h2⟩ := hasSingleValue_spec hd (hv v hvs)
  rw [h1]
  refine .pure ?_
  have : b = true ↔ Known d v := h2.trans ⟨fun ⟨y, hy⟩ a c ha hc => ((hy _).1 (ha.poss v)).trans ((hy _).1 (hc.poss v)).symm, fun hk => by
    obtain ⟨a, ha⟩ := exists_within hd
    exact ⟨v.eval a, fun z => ⟨fun hz => (hk.poss ha hz).symm, fun e => e ▸ ha.poss v⟩⟩⟩
  rw [← this]
  cases b <;> simp

theorem sound_serves {f : Prog σ μ PState} {t : Triggers} {C : Asg → Prop} (ht : t.refined = []) (h : ∀ d, DomsOK d → d.length = n → Ready root idx ns d → f.Ver { n, m, R, C := fun a => Within root a ∧ C a } (fun _ => True) (fun _ _ => True) d) :
    Serves n m R root (fun d _ => Ready root idx ns d) (fun _ => False) f t C (fun _ => True) [] :=
  Inverse.serves_of_ver (I := Ready root idx ns) (wakes_mem fun z hz => by cases hz) ht (fun d d' hs hi => hi.sub hs) fun d hd hl hi => ver_mono (fun _ _ _ => ⟨fun _ _ _ _ => trivial, fun _ _ _ _ _ _ => trivial, fun _ _ _ _ => trivial⟩) _ _ (h d hd hl hi)

theorem install_ok {bc : Bool} {z0 : List σ} (ho : R .overflow) (hd : DomsOK root) (hr : result.Valid root.length) (hi : ∀ q ∈ idx, q.1.Valid root.length ∧ InI64 q.2) (hv : ∀ v ∈ entries k A, v.Valid root.length) (hreg : Regular k A ns)
    (hints : ints = true → ∀ v ∈ entries k A, ∃ c, v = .const c) (h0 : idx ≠ []) (hk : idx.length = k) :
    RightOrOverflow (install (σ := σ) (μ := μ) ints k A result idx bc root) (fun items => ∃ I es, es.map (·.1) = items ∧ Served root.length m R root z0 I (fun _ => False) (IsElement k A result idx) (result :: idx.map (·.1) ++ entries k A) es) := by
  unfold install
  rw [if_neg (by rw [check_regular hreg]; simp)]
  by_cases hz : 0 ∈ sizes k A
  · rw [if_pos hz]
    have no : ∀ a, ¬ IsElement k A result idx a := fun a ⟨v, hv, _⟩ => inRange_pos (at_inRange hreg hv) ((sizes_spec hreg).1 hz)
    refine .pure ⟨fun _ _ => True, [(AllDifferent.refuse, fun _ => False)], rfl, ⟨?_, ?_, fun _ _ _ _ _ _ _ => trivial, fun _ _ _ _ _ => trivial, fun _ _ _ _ => trivial⟩⟩
    · intro p hp
      rw [List.mem_singleton.1 hp]
      exact fun d _ _ a _ hc => no a hc.2
    · intro a _
      rw [List.forall_mem_singleton]
      exact ⟨no a, False.elim⟩
  · rw [if_neg hz, (sizes_spec hreg).2 hz]
    rw [(sizes_spec hreg).2 hz] at hz
    refine (defineIndices_inits (m := m) (C := IsElement k A result idx) ho hd idx ns (hk.trans (regular_length hreg hz).symm) hi fun a _ ⟨v, hv, _⟩ => at_inRange hreg hv).bind fun defs hdefs => ?_
    refine (nonconstants_roo hd hv).bind fun non hnon => .pure ?_
    have hw : ∀ v ∈ entries k A, v ∈ (if non = true then entries k A else []) ∨ Known root v := fun v hv => by
      cases non with
      | true => exact .inl hv
      | false => exact .inr (Classical.byContradiction fun h => by have := hnon.2 ⟨v, hv, h⟩; cases this)
    have hent : ∀ d, d.length = root.length → Ready root idx ns d → ∀ ps, Pick d idx ps → ∃ v, entry k A ps = .ok v ∧ at? k A ps = some v ∧ v.Valid root.length := fun d _ hR ps hp => by
      obtain ⟨v, h1, h2, h3⟩ := entry_ok hreg (hR.2 ps hp)
      exact ⟨v, h1, h2, hv v h3⟩
    let al := aliased (result :: idx.map (·.1) ++ if ints then [] else entries k A)
    let watched := if non = true then entries k A else []
    let e1 : List (Item σ μ × (Asg → Prop)) := (indexProps ints k A result idx al watched 0 [] idx).map fun i => (i, IsElement k A result idx)
    let e2 : List (Item σ μ × (Asg → Prop)) := [(if bc then .prop (boundsProp k A result idx) { onChange := idx.map (·.1), onBounds := watched ++ [result] } else .prop (valuesProp ints k A result idx al) { onChange := watched ++ idx.map (·.1) }, fun _ => True)]
    let e3 : List (Item σ μ × (Asg → Prop)) := if non then [(.prop (equalityProp k A result idx al) { onChange := idx.map (·.1) ++ [result] }, fun _ => True)] else []
    have sub : ∀ dim, ∀ y ∈ others result idx watched dim, y ∈ result :: idx.map (·.1) ++ entries k A := by
      intro dim y hy
      simp only [others, List.mem_append, List.mem_singleton, List.mem_map] at hy
      simp only [List.cons_append, List.mem_cons, List.mem_append, List.mem_map]
      rcases hy with (hy | hy) | (⟨q, hq, e⟩ | ⟨q, hq, e⟩)
      · refine .inr (.inr ?_)
        dsimp only [watched] at hy
        split at hy
        · exact hy
        · cases hy
      · exact .inl hy
      · exact .inr (.inl ⟨q, List.mem_of_mem_take hq, e⟩)
      · exact .inr (.inl ⟨q, List.mem_of_mem_drop hq, e⟩)
    have hlist : ∃ I es, es.map (·.1) = defs ++ (e1 ++ e2 ++ e3).map (·.1) ∧ Served root.length m R root z0 I (fun _ => False) (IsElement k A result idx) (result :: idx.map (·.1) ++ entries k A) es := by
      refine hdefs.served_all (I := Ready root idx ns) ?_ (fun a ha => ?_) (fun d d' hs hi => hi.sub hs) fun d hd hl hq => ⟨fun a ha => (hq a ha).1, inside_of hd fun a ha => (hq a ha).2⟩
      · rw [List.forall_mem_append, List.forall_mem_append]
        refine ⟨⟨fun p hp => ?_, fun p hp => ?_⟩, fun p hp => ?_⟩
        · obtain ⟨it, h1, rfl⟩ := List.mem_map.1 hp
          obtain ⟨dim, x, s, hx, rfl⟩ := indexProps_mem (ints := ints) (watched := watched) idx 0 rfl (by simpa using h1)
          exact ⟨(fun _ _ h => nomatch h), _, sub dim, index_serves ho hr hi hv hreg hints hx hw⟩
        · rw [List.mem_singleton.1 hp]
          cases bc with
          | true =>
            exact ⟨(fun _ _ h => nomatch h), [], by simp, sound_serves rfl fun d hd hl hR => ver_mono (fun _ _ _ => trivial) _ _ (boundsProp_ver (J := { n := root.length, m, R, C := fun a => Within root a ∧ IsElement k A result idx a }) ho hr hd hl hi (hent d hl hR) fun a hc => hc.2)⟩
          | false =>
            exact ⟨(fun _ _ h => nomatch h), [], by simp, sound_serves rfl fun d hd hl hR => ver_mono (fun _ _ _ => trivial) _ _ (valuesProp_ver (J := { n := root.length, m, R, C := fun a => Within root a ∧ IsElement k A result idx a }) ho hr hd hl hi (hent d hl hR) fun a hc => hc.2)⟩
        · dsimp only [e3] at hp
          split at hp
          · rw [List.mem_singleton.1 hp]
            exact ⟨(fun _ _ h => nomatch h), [], by simp, sound_serves rfl fun d hd hl hR => ver_mono (fun _ _ _ => trivial) _ _ (equalityProp_ver ho hr hd hl hi (hent d hl hR))⟩
          · cases hp
      · rw [List.forall_mem_append, List.forall_mem_append]
        refine ⟨fun h => ⟨?_, ⟨fun p hp => ?_, fun p hp => ?_⟩, fun p hp => ?_⟩, fun h => ?_⟩
        · obtain ⟨v, hv, _⟩ := h; exact at_inRange hreg hv
        · obtain ⟨it, h1, rfl⟩ := List.mem_map.1 hp; exact h
        · rw [List.mem_singleton.1 hp]; trivial
        · dsimp only [e3] at hp
          split at hp
          · rw [List.mem_singleton.1 hp]; trivial
          · cases hp
        · cases idx with
          | nil => exact absurd rfl h0
          | cons q rest => exact h.2.1.1 _ (List.mem_map.2 ⟨_, List.mem_cons_self .., rfl⟩)
    have e : (e1 ++ e2 ++ e3).map (·.1) = indexProps ints k A result idx al watched 0 [] idx ++
      [if bc then .prop (boundsProp k A result idx) { onChange := idx.map (·.1), onBounds := watched ++ [result] } else .prop (valuesProp ints k A result idx al) { onChange := watched ++ idx.map (·.1) }] ++
      if non then [.prop (equalityProp k A result idx al) { onChange := idx.map (·.1) ++ [result] }] else [] := by
      simp only [e1, e2, e3, List.map_append, List.map_map, List.map_cons, List.map_nil]
      congr 1
      · congr 1
        exact List.map_id _
      · cases non <;> rfl
    rw [e] at hlist
    simpa only [List.append_assoc] using hlist

/-! Consistency -/

theorem pick_iff {d : Doms} : ∀ {idx : List (VarId × Int)} {ps : List Int}, Pick d idx ps ↔ ps.length = idx.length ∧ ∀ (j : Nat) q p, idx[j]? = some q → ps[j]? = some p → Poss d q.1 (p + q.2)
  | [], [] => by simp [Pick]
  | [], _ :: _ => by simp [Pick]
  | _ :: _, [] => by simp [Pick]
  | q :: idx, p :: ps => by
    show _ ∧ Pick d idx ps ↔ _
    rw [pick_iff]
    constructor
    · rintro ⟨h1, h2, h3⟩
      refine ⟨by simp [h2], fun j q' p' hq hp => ?_⟩
      cases j with
      | zero => cases hq; cases hp; exact h1
      | succ j => exact h3 j q' p' hq hp
    · rintro ⟨h1, h2⟩
      exact ⟨h2 0 q p rfl rfl, by simpa using h1, fun j q' p' hq hp => h2 (j + 1) q' p' hq hp⟩

theorem pickAt_at {d : Doms} {val : Int} : ∀ {idx : List (VarId × Int)} {ps : List Int} {j0 : Nat}, PickAt d dim val j0 idx ps → ∀ (j : Nat) q p, idx[j]? = some q → ps[j]? = some p → if j0 + j = dim then p = val - q.2 else Poss d q.1 (p + q.2)
  | [], [], _, _, j, q, p, hq, _ => by simp at hq
  | q :: idx, p :: ps, j0, h, j, q', p', hq, hp => by
    cases j with
    | zero => cases hq; cases hp; exact h.1
    | succ j =>
      have := pickAt_at h.2 j q' p' hq hp
      rwa [show j0 + 1 + j = j0 + (j + 1) by omega] at this
  | [], _ :: _, _, h, _, _, _, _, _ => h.elim
  | _ :: _, [], _, h, _, _, _, _, _ => h.elim

/-- Possible values of different variables go together. -/
theorem together {d : Doms} (hd : DomsOK d) (hn : ((result :: idx.map (·.1) ++ entries k A).filterMap VarId.underlyingIndex).Nodup) {ps : List Int} {y : Int} {v : VarId} (hr : Poss d result y) (hp : Pick d idx ps) (hv : at? k A ps = some v) (hm : v ∈ entries k A) (hy : Poss d v y) :
    ∃ a, Within d a ∧ result.eval a = y ∧ (idx.map fun q => q.1.eval a - q.2) = ps ∧ IsElement k A result idx a := by
  obtain ⟨w, hw⟩ := exists_within hd
  obtain ⟨hlen, hps⟩ := pick_iff.1 hp
  let vs := result :: idx.map (·.1) ++ entries k A
  let f : Nat → Int := fun p => if p = 0 then y else if p ≤ idx.length then (match ps[p - 1]?, idx[p - 1]? with | some p, some q => p + q.2 | _, _ => 0) else if vs[p]? = some v then y else (vs[p]?.map (·.eval w)).getD 0
  have hl : ∀ j, j < idx.length → vs[j + 1]? = (idx[j]?).map (·.1) := fun j hj => by
    show (result :: idx.map (·.1) ++ entries k A)[j + 1]? = _
    rw [List.cons_append, List.getElem?_cons_succ, List.getElem?_append_left (by simpa using hj), List.getElem?_map]
  have hf : ∀ (j : Nat) q p, idx[j]? = some q → ps[j]? = some p → f (j + 1) = p + q.2 := fun j q p hq hp => by
    have := (List.getElem?_eq_some_iff.1 hq).1
    simp only [f, if_neg (show ¬ j + 1 = 0 by omega), if_pos (show j + 1 ≤ idx.length by omega), Nat.add_sub_cancel, hq, hp]
  obtain ⟨a, ha, hae⟩ := exists_values hd vs hn f (by
    intro p u hu
    by_cases h0 : p = 0
    · subst h0; cases hu; exact hr
    · by_cases h1 : p ≤ idx.length
      · obtain ⟨j, rfl⟩ : ∃ j, p = j + 1 := ⟨p - 1, by omega⟩
        rw [hl j (by omega), List.getElem?_eq_getElem (by omega)] at hu
        cases hu
        have e1 : idx[j]? = some idx[j] := List.getElem?_eq_getElem (by omega)
        have e2 : ps[j]? = some ps[j] := List.getElem?_eq_getElem (by omega)
        rw [hf j _ _ e1 e2]
        exact hps j _ _ e1 e2
      · simp only [f, if_neg h0, if_neg h1]
        split
        · rename_i e; rw [hu] at e; cases e; exact hy
        · rw [hu]; exact hw.poss u)
  have e0 : result.eval a = y := hae 0 result rfl
  have e1 : (idx.map fun q => q.1.eval a - q.2) = ps := by
    refine List.ext_getElem? fun j => ?_
    rw [List.getElem?_map]
    by_cases hj : j < idx.length
    · have k1 : idx[j]? = some idx[j] := List.getElem?_eq_getElem (by omega)
      have k2 : ps[j]? = some ps[j] := List.getElem?_eq_getElem (by omega)
      rw [k1, k2]
      have := hae (j + 1) idx[j].1 (by rw [hl j hj, k1]; rfl)
      rw [hf j _ _ k1 k2] at this
      simp only [Option.map_some, Option.some.injEq]
      omega
    · rw [List.getElem?_eq_none (by omega), List.getElem?_eq_none (by omega)]; rfl
  obtain ⟨j, hj⟩ := List.mem_iff_getElem?.1 hm
  have hvj : vs[idx.length + 1 + j]? = some v := by
    show (result :: idx.map (·.1) ++ entries k A)[idx.length + 1 + j]? = _
    rw [show idx.length + 1 + j = (idx.length + j) + 1 by omega, List.cons_append, List.getElem?_cons_succ, List.getElem?_append_right (by simp)]
    simpa using hj
  refine ⟨a, ha, e0, e1, v, e1.symm ▸ hv, ?_⟩
  rw [hae _ v hvj, e0]
  simp only [f, if_neg (show ¬ idx.length + 1 + j = 0 by omega), if_neg (show ¬ idx.length + 1 + j ≤ idx.length by omega), hvj, if_true]

end

end Gcs.Element
