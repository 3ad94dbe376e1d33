import Verif.Model.Cons.Tabulation
import Verif.Lemmas.Cons.Multiply
import Verif.Lemmas.Cons.Table
import Verif.Lemmas.Heuristics
import Verif.Spec.Table

/-!
# Tabulation
-/

namespace Gcs
open IntervalSet

namespace Tabulation

section
variable {d : Doms} {vars : List VarId} {accept : List Int → Chk Bool} {A H : List Int → Prop}

/-- The values of the variables. -/
abbrev valsOf (vars : List VarId) (a : Asg) : List Int := vars.map (·.eval a)

/-- Values that an acceptance test may be asked about. -/
def Whole (vars : List VarId) (vals : List Int) : Prop := vals.length = vars.length ∧ ∀ x ∈ vals, InI64 x

/-- The same values except where something is left to do. -/
def Agree (todo : List Nat) (asg vals : List Int) : Prop := ∀ i, i ∉ todo → asg[i]? = vals[i]?

/-- The acceptance test computes `A`. -/
def Accepts (vars : List VarId) (accept : List Int → Chk Bool) (A : List Int → Prop) : Prop := ∀ vals, Whole vars vals → RightOrOverflow (accept vals) (fun b => b = true ↔ A vals)

/-- Position `p` is determined by the others, where `H` holds. -/
def Determines (vars : List VarId) (A H : List Int → Prop) (p : Nat) (f : List Int → Chk (Option Int)) : Prop := (∃ i, vars[p]? = some (.simple i)) ∧
  ∀ vals, Whole vars vals → RightOrOverflow (f vals) (fun o => (∀ x, o = some x → InI64 x) ∧ ∀ x, InI64 x → H (vals.set p x) → A (vals.set p x) → o = some x)

/-- A table for `C`. -/
def Lists (d : Doms) (vars : List VarId) (C : List Int → Prop) (ts : List (List (Option Int))) : Prop :=
  (∀ t ∈ ts, t.length = vars.length ∧ ∀ x, some x ∈ t → InI64 x) ∧ ∀ a, Within d a → (InTable ts vars a ↔ C (valsOf vars a))

theorem Whole.set {vals : List Int} (h : Whole vars vals) {p : Nat} {x : Int} (hx : InI64 x) : Whole vars (vals.set p x) :=
  ⟨by rw [List.length_set]; exact h.1, fun y hy => by
    rcases List.mem_or_eq_of_mem_set hy with h' | rfl
    · exact h.2 y h'
    · exact hx⟩

theorem matches_full {vals : List Int} {a : Asg} (h : vals.length = vars.length) : Matches (vals.map some) vars a ↔ vals = valsOf vars a := by
  constructor
  · intro hm
    refine List.ext_getElem? fun i => ?_
    by_cases hi : i < vars.length
    · have h1 : vars[i]? = some vars[i] := List.getElem?_eq_getElem hi
      have h2 : vals[i]? = some (vals[i]'(h ▸ hi)) := List.getElem?_eq_getElem (h ▸ hi)
      have := hm i vars[i] (some (vals[i]'(h ▸ hi))) h1 (by simp [h2])
      rcases this with e | e
      · cases e
      · rw [h2, List.getElem?_map, h1]; simpa using e
    · rw [List.getElem?_eq_none (by omega), List.getElem?_eq_none (by simp; omega)]
  · rintro rfl p v e hp he
    rw [List.getElem?_map, List.getElem?_map, hp] at he
    simp at he
    exact .inr he.symm

theorem collect_roo {α β : Type} {f : α → Chk (List β)} {P : α → List β → Prop} : ∀ xs : List α, (∀ x ∈ xs, RightOrOverflow (f x) (P x)) →
    RightOrOverflow (collect f xs) (fun r => (∀ t ∈ r, ∃ x ∈ xs, ∃ rx, P x rx ∧ t ∈ rx) ∧ ∀ x ∈ xs, ∃ rx, P x rx ∧ ∀ t ∈ rx, t ∈ r)
  | [], _ => .pure ⟨by simp, by simp⟩
  | x :: xs, h => by
    refine (h x (by simp)).bind fun r hr => (collect_roo xs fun y hy => h y (by simp [hy])).bind fun rs hrs => .pure ⟨fun t ht => ?_, fun y hy => ?_⟩
    · rcases List.mem_append.1 ht with ht | ht
      · exact ⟨x, by simp, r, hr, ht⟩
      · obtain ⟨y, hy, ry, h1, h2⟩ := hrs.1 t ht
        exact ⟨y, by simp [hy], ry, h1, h2⟩
    · rcases List.mem_cons.1 hy with rfl | hy
      · exact ⟨r, hr, fun t ht => List.mem_append_left _ ht⟩
      · obtain ⟨ry, h1, h2⟩ := hrs.2 y hy
        exact ⟨ry, h1, fun t ht => List.mem_append_right _ (h2 t ht)⟩

/-- Tables put together. -/
theorem lists_collect {α : Type} {f : α → Chk (List (List (Option Int)))} {P : α → List Int → Prop} {xs : List α} (h : ∀ x ∈ xs, RightOrOverflow (f x) (Lists d vars (P x))) :
    RightOrOverflow (collect f xs) (Lists d vars (fun vals => ∃ x ∈ xs, P x vals)) := by
  refine (collect_roo xs h).mono fun r hr => ⟨fun t ht => ?_, fun a ha => ?_⟩
  · obtain ⟨x, _, rx, h1, h2⟩ := hr.1 t ht
    exact h1.1 t h2
  · constructor
    · rintro ⟨t, ht, hm⟩
      obtain ⟨x, hx, rx, h1, h2⟩ := hr.1 t ht
      exact ⟨x, hx, (h1.2 a ha).1 ⟨t, h2, hm⟩⟩
    · rintro ⟨x, hx, hp⟩
      obtain ⟨rx, h1, h2⟩ := hr.2 x hx
      obtain ⟨t, ht, hm⟩ := (h1.2 a ha).2 hp
      exact ⟨t, h2 t ht, hm⟩

theorem Lists.congr {C D : List Int → Prop} {ts : List (List (Option Int))} (h : Lists d vars C ts) (hc : ∀ a, Within d a → (C (valsOf vars a) ↔ D (valsOf vars a))) : Lists d vars D ts :=
  ⟨h.1, fun a ha => (h.2 a ha).trans (hc a ha)⟩

theorem lists_one {vals : List Int} (h : Whole vars vals) {b : Bool} {C : List Int → Prop} (hc : ∀ a, Within d a → (C (valsOf vars a) ↔ b = true ∧ vals = valsOf vars a)) :
    Lists d vars C (if b then [vals.map some] else []) := by
  refine ⟨fun t ht => ?_, fun a ha => ?_⟩
  · cases b
    · simp at ht
    · simp at ht; subst ht
      exact ⟨by simp [h.1], fun x hx => h.2 x (by simpa using hx)⟩
  · rw [hc a ha]
    cases b
    · simp [InTable]
    · simp [InTable, matches_full h.1]

/-- Filling in the next value. -/
theorem agree_set {p : Nat} {rest : List Nat} {asg vals : List Int} {x : Int} (hl : asg.length = vals.length) (hp : p < vals.length) (hn : p ∉ rest) :
    Agree rest (asg.set p x) vals ↔ Agree (p :: rest) asg vals ∧ vals[p]? = some x := by
  constructor
  · intro h
    refine ⟨fun i hi => ?_, ?_⟩
    · have := h i fun h' => hi (List.mem_cons_of_mem _ h')
      rwa [List.getElem?_set_ne (fun e => hi (by simp [e]))] at this
    · have := h p hn
      rw [List.getElem?_set_self (by omega)] at this
      exact this.symm
  · rintro ⟨h, hx⟩ i hi
    by_cases e : p = i
    · subst e
      rw [List.getElem?_set_self (by omega), hx]
    · rw [List.getElem?_set_ne e]
      exact h i fun h' => by rcases List.mem_cons.1 h' with rfl | h' <;> simp_all

theorem agree_nil {asg vals : List Int} : Agree [] asg vals ↔ asg = vals :=
  ⟨fun h => List.ext_getElem? fun i => h i (by simp), by rintro rfl i _; rfl⟩

theorem within_inI64 {a : Asg} {i : Nat} (hd : DomsOK d) (ha : Within d a) (hi : i < d.length) : InI64 (a i) := by
  have hm := ha i _ (List.getElem?_eq_getElem hi)
  have hr := (hd _ (List.getElem_mem hi)).inRange
  obtain ⟨q, hq, h1, h2⟩ := hm
  have := hr q hq
  simp only [InI64] at this ⊢
  omega

theorem search_roo (hd : DomsOK d) (hv : ∀ v ∈ vars, v.Valid d.length) (hacc : Accepts vars accept A) {value : Option (List Int → Chk (Option Int))} :
    ∀ (b : Branch) (todo : List Nat) (asg : List Int), Whole vars asg → todo.Nodup → (∀ p ∈ todo, p < vars.length) →
      (todo ≠ [] → ∀ f, value = some f → ∃ p, todo.getLast? = some p ∧ Determines vars A H p f) →
      (b = .holds → ∀ a, Within d a → Agree todo asg (valsOf vars a) → H (valsOf vars a)) →
      RightOrOverflow (search d vars accept value b todo asg) (Lists d vars fun vals => Agree todo asg vals ∧ A vals)
  | b, [], asg, hw, _, _, hdet, _ => by
    refine (hacc asg hw).bind fun r hr => .pure (lists_one hw fun a _ => ?_)
    rw [agree_nil, hr]
    exact ⟨fun ⟨h1, h2⟩ => ⟨h1 ▸ h2, h1⟩, fun ⟨h1, h2⟩ => ⟨h2, h2 ▸ h1⟩⟩
  | b, p :: rest, asg, hw, hn, hlt, hdet, hH => by
    have hp := hlt p (by simp)
    obtain ⟨hpn, hrn⟩ := List.nodup_cons.1 hn
    have hvp : vecAt vars p = .ok vars[p] := by simp [vecAt, List.getElem?_eq_getElem hp]
    have hval : vars[p].Valid d.length := hv _ (List.getElem_mem hp)
    have hgen : RightOrOverflow (do let vals ← valuesOf d (← vecAt vars p); collect (fun x => search d vars accept value b rest (asg.set p x)) vals) (Lists d vars fun vals => Agree (p :: rest) asg vals ∧ A vals) := by
      rw [hvp]
      refine (values_roo hd hval).bind fun L hL => ?_
      refine (lists_collect (P := fun x vals => Agree rest (asg.set p x) vals ∧ A vals) fun x hx => search_roo hd hv hacc b rest (asg.set p x) (hw.set (hL.2.2.2 x hx)) hrn (fun q hq => hlt q (by simp [hq])) ?_ ?_).mono fun ts h => h.congr fun a ha => ?_
      · intro hne f hf
        obtain ⟨q, hq, hD⟩ := hdet (by simp) f hf
        refine ⟨q, ?_, hD⟩
        rw [List.getLast?_cons] at hq
        cases h : rest.getLast? with
        | none => exact absurd (List.getLast?_eq_none_iff.1 h) hne
        | some w => rw [h] at hq; exact hq
      · intro hb a ha hag
        have hlen : (valsOf vars a).length = vars.length := by simp
        exact hH hb a ha ((agree_set (by rw [hw.1, hlen]) (by omega) hpn).1 hag).1
      · have hlen : (valsOf vars a).length = vars.length := by simp
        have e : (valsOf vars a)[p]? = some (vars[p].eval a) := by simp [List.getElem?_eq_getElem hp]
        constructor
        · rintro ⟨x, hx, h1, h2⟩
          exact ⟨((agree_set (by rw [hw.1, hlen]) (by omega) hpn).1 h1).1, h2⟩
        · rintro ⟨h1, h2⟩
          exact ⟨vars[p].eval a, (hL.2.2.1 _).2 ⟨a, ha, rfl⟩, (agree_set (by rw [hw.1, hlen]) (by omega) hpn).2 ⟨h1, e⟩, h2⟩
    unfold search
    split
    · rename_i f hdec
      obtain ⟨hr, hb⟩ := of_decide_eq_true hdec
      subst hr
      obtain ⟨q, hq, hD⟩ := hdet (by simp) f rfl
      simp at hq; subst hq
      refine (hD.2 asg hw).bind fun o ho => ?_
      have key : ∀ a, Within d a → (Agree [p] asg (valsOf vars a) ∧ A (valsOf vars a) → o = some (vars[p].eval a)) ∧ (∀ x, Agree [p] asg (valsOf vars a) ∧ x = vars[p].eval a ↔ asg.set p x = valsOf vars a) := by
        intro a ha
        have hlen : (valsOf vars a).length = vars.length := by simp
        have e : (valsOf vars a)[p]? = some (vars[p].eval a) := by simp [List.getElem?_eq_getElem hp]
        have h2 : ∀ x, Agree [p] asg (valsOf vars a) ∧ x = vars[p].eval a ↔ asg.set p x = valsOf vars a := by
          intro x
          rw [← agree_nil, agree_set (by rw [hw.1, hlen]) (by omega) (by simp), e]
          simp only [Option.some.injEq, eq_comm]
        refine ⟨fun ⟨h3, h4⟩ => ?_, h2⟩
        have e3 := (h2 (vars[p].eval a)).1 ⟨h3, rfl⟩
        have hx : InI64 (vars[p].eval a) := by
          obtain ⟨i, hi⟩ := hD.1
          rw [List.getElem?_eq_getElem hp] at hi
          simp only [Option.some.injEq] at hi
          rw [hi] at hval ⊢
          exact within_inI64 hd ha hval
        refine ho.2 _ hx ?_ ?_
        · rw [e3]; exact hH hb a ha h3
        · rw [e3]; exact h4
      cases o with
      | none =>
        refine .pure ⟨by simp, fun a ha => ?_⟩
        constructor
        · rintro ⟨t, ht, _⟩; simp at ht
        · intro h; exact nomatch (key a ha).1 h
      | some x =>
        dsimp only
        have hx := ho.1 x rfl
        rw [hvp]
        refine (inDomain_spec hd hval x hx).bind fun c hc => ?_
        have hag : ∀ a, Within d a → (Agree [p] asg (valsOf vars a) ∧ A (valsOf vars a) ↔ A (asg.set p x) ∧ asg.set p x = valsOf vars a) := by
          intro a ha
          have k := key a ha
          constructor
          · intro h
            have e := Option.some.inj (k.1 h)
            have e2 := (k.2 x).1 ⟨h.1, e⟩
            exact ⟨e2 ▸ h.2, e2⟩
          · rintro ⟨h1, h2⟩
            exact ⟨((k.2 x).2 h2).1, h2 ▸ h1⟩
        cases c with
        | false =>
          refine .pure ⟨by simp, fun a ha => ?_⟩
          constructor
          · rintro ⟨t, ht, _⟩; simp at ht
          · intro h
            have e := Option.some.inj ((key a ha).1 h)
            exact absurd (hc.2 ⟨a, ha, e.symm⟩) (by simp)
        | true =>
          refine (hacc _ (hw.set hx)).bind fun r hr => .pure (lists_one (hw.set hx) fun a ha => ?_)
          rw [hr]; exact hag a ha
    · exact hgen

theorem insertSize_perm (q : Int × Nat) : ∀ l, (insertSize q l).Perm (q :: l)
  | [] => List.Perm.refl _
  | r :: l => by
    unfold insertSize
    split
    · exact List.Perm.refl _
    · exact ((insertSize_perm q l).cons r).trans (List.Perm.swap q r l)

theorem domainSize_roo {v : VarId} (hd : DomsOK d) (hv : v.Valid d.length) : RightOrOverflow (domainSize d v) (fun _ => True) := by
  obtain ⟨L, _, _, h⟩ := domainSize_spec hd hv
  rw [h]; exact (exact_roo _).mono fun _ _ => trivial

theorem vecAt_ok {α : Type} {l : List α} {i : Nat} (h : i < l.length) : vecAt l i = .ok l[i] := by simp [vecAt, List.getElem?_eq_getElem h]

theorem sortBySize_roo (hd : DomsOK d) (hv : ∀ v ∈ vars, v.Valid d.length) : ∀ (is : List Nat) (acc : List (Int × Nat)), (∀ i ∈ is, i < vars.length) →
    RightOrOverflow (sortBySize d vars acc is) (fun r => r.Perm (acc.map (·.2) ++ is))
  | [], acc, _ => .pure (by simp)
  | i :: is, acc, h => by
    unfold sortBySize
    rw [vecAt_ok (h i (by simp))]
    refine (domainSize_roo hd (hv _ (List.getElem_mem _))).bind fun s _ => (sortBySize_roo hd hv is _ fun j hj => h j (by simp [hj])).mono fun r hr => ?_
    refine hr.trans ?_
    have := ((insertSize_perm (s, i) acc).map (·.2)).append_right is
    exact this.trans (by simpa using List.perm_middle.symm)

/-- The order lists every position once, the reification variable's first and the determined variable's last. -/
theorem order_roo (hd : DomsOK d) (hv : ∀ v ∈ vars, v.Valid d.length) {rp dp : Option Nat} (hr : ∀ i, rp = some i → i < vars.length) (hp : ∀ i, dp = some i → i < vars.length) (hne : ∀ i, dp = some i → rp ≠ some i) :
    RightOrOverflow (order d vars rp dp) (fun o => ∃ mid, o = rp.toList ++ mid ++ dp.toList ∧ o.Nodup ∧ ∀ i, i ∈ o ↔ i < vars.length) := by
  refine (sortBySize_roo hd hv _ [] fun i hi => by simpa using (List.mem_filter.1 hi).1).bind fun mid hm => .pure ⟨mid, rfl, ?_, fun i => ?_⟩
  all_goals
    have hmem : ∀ i, i ∈ mid ↔ i < vars.length ∧ some i ≠ dp ∧ some i ≠ rp := fun i => by rw [hm.mem_iff]; simp
  · have hmn : mid.Nodup := hm.nodup_iff.2 (List.nodup_range.filter _)
    have h1 : (mid ++ dp.toList).Nodup := by
      cases dp with
      | none => simpa using hmn
      | some i =>
        rw [Option.toList_some, List.nodup_append]
        refine ⟨hmn, by simp, fun a ha b hb => ?_⟩
        rw [List.mem_singleton] at hb; subst hb
        rintro rfl
        exact ((hmem _).1 ha).2.1 rfl
    cases rp with
    | none => simpa using h1
    | some i =>
      show (i :: (mid ++ dp.toList)).Nodup
      refine List.nodup_cons.2 ⟨fun h => ?_, h1⟩
      rcases List.mem_append.1 h with h | h
      · exact ((hmem _).1 h).2.2 rfl
      · cases dp with
        | none => simp at h
        | some j => simp at h; subst h; exact hne _ rfl rfl
  · simp only [List.mem_append, Option.mem_toList, hmem]
    constructor
    · rintro ((h | h) | h)
      · exact hr i h
      · exact h.1
      · exact hp i h
    · intro h
      by_cases h1 : rp = some i
      · exact .inl (.inl h1)
      · by_cases h2 : dp = some i
        · exact .inr h2
        · exact .inl (.inr ⟨h, fun e => h2 e.symm, fun e => h1 e.symm⟩)

theorem findPos_eq {v : VarId} {i : Nat} (h : vars.idxOf? v = some i) : findPos vars v = .ok i := by simp [findPos, h]

theorem idxOf?_lt {v : VarId} {i : Nat} (h : vars.idxOf? v = some i) : vars[i]? = some v := by
  rw [List.idxOf?, List.findIdx?_eq_some_iff_getElem] at h
  obtain ⟨h1, h2, _⟩ := h
  rw [List.getElem?_eq_getElem h1]
  simpa using h2

theorem choose_roo (hd : DomsOK d) (hv : ∀ v ∈ vars, v.Valid d.length) {rp : Option Nat} {P : Nat → Determined → Prop} : ∀ (xs : List Determined) (best : Option (Nat × Determined)),
    (∀ b, best = some b → b.1 < vars.length ∧ P b.1 b.2) → (∀ x ∈ xs, ∃ pos, vars.idxOf? x.var = some pos ∧ rp ≠ some pos ∧ P pos x) →
    RightOrOverflow (choose d vars rp best xs) (fun r => ∀ b, r = some b → b.1 < vars.length ∧ P b.1 b.2)
  | [], best, hb, _ => .pure hb
  | x :: xs, best, hb, hx => by
    obtain ⟨pos, h1, h2, h3⟩ := hx x (by simp)
    have hlt : pos < vars.length := (List.getElem?_eq_some_iff.1 (idxOf?_lt h1)).1
    unfold choose
    rw [findPos_eq h1]
    show RightOrOverflow (if some pos = rp then _ else _) _
    rw [if_neg fun e => h2 e.symm]
    refine RightOrOverflow.bind (R := fun _ => True) ?_ fun c _ => ?_
    · cases best with
      | none => exact .pure trivial
      | some b =>
        unfold larger
        dsimp only
        rw [vecAt_ok hlt, vecAt_ok (hb b rfl).1]
        exact (domainSize_roo hd (hv _ (List.getElem_mem _))).bind fun _ _ => (domainSize_roo hd (hv _ (List.getElem_mem _))).bind fun _ _ => .pure trivial
    · cases c
      · exact choose_roo hd hv xs best hb fun y hy => hx y (by simp [hy])
      · exact choose_roo hd hv xs _ (by rintro b ⟨⟩; exact ⟨hlt, h3⟩) fun y hy => hx y (by simp [hy])

/-- What is asked of the determined variables and the reification variable. -/
structure Setting (d : Doms) (vars : List VarId) (dets : List Determined) (reif : Option Reification) (A H : List Int → Prop) : Prop where
  dets : ∀ x ∈ dets, ∃ pos, vars.idxOf? x.var = some pos ∧ (∀ r, reif = some r → vars.idxOf? r.var ≠ some pos) ∧ Determines vars A H pos x.value
  always : reif = none → ∀ a, Within d a → H (valsOf vars a)
  reif : ∀ r, reif = some r → ∃ pos, vars.idxOf? r.var = some pos ∧ ∀ (vals : List Int) x, vals.length = vars.length → vals[pos]? = some x → (r.branch x = .holds → H vals) ∧ (r.branch x = .free → A vals)

theorem build_roo (hd : DomsOK d) (hv : ∀ v ∈ vars, v.Valid d.length) {dets : List Determined} {reif : Option Reification} (hacc : Accepts vars accept A) (hs : Setting d vars dets reif A H) :
    RightOrOverflow (build d vars dets reif accept) (Lists d vars A) := by
  have hzero : Whole vars (List.replicate vars.length 0) := ⟨by simp, fun x hx => by rw [(List.mem_replicate.1 hx).2]; decide⟩
  unfold build
  refine RightOrOverflow.bind (R := fun rp => (reif = none ∧ rp = none) ∨ ∃ r pos, reif = some r ∧ rp = some pos ∧ vars.idxOf? r.var = some pos) ?_ fun rp hrp => ?_
  · cases reif with
    | none => exact .pure (.inl ⟨rfl, rfl⟩)
    | some r =>
      obtain ⟨pos, h1, _⟩ := hs.reif r rfl
      unfold reifPos
      dsimp only
      rw [findPos_eq h1]
      exact .pure (.inr ⟨r, pos, rfl, rfl, h1⟩)
  have hrlt : ∀ i, rp = some i → i < vars.length := by
    rintro i rfl
    rcases hrp with ⟨_, h⟩ | ⟨r, pos, _, h, h2⟩
    · cases h
    · cases h; exact (List.getElem?_eq_some_iff.1 (idxOf?_lt h2)).1
  refine (choose_roo hd hv (rp := rp) (P := fun pos x => rp ≠ some pos ∧ Determines vars A H pos x.value) dets none nofun fun x hx => ?_).bind fun c hc => ?_
  · obtain ⟨pos, h1, h2, h3⟩ := hs.dets x hx
    have : rp ≠ some pos := by
      rintro rfl
      rcases hrp with ⟨_, h⟩ | ⟨r, q, e1, e2, e3⟩
      · cases h
      · cases e2; exact h2 r e1 e3
    exact ⟨pos, h1, this, this, h3⟩
  refine (order_roo hd hv (dp := c.map (·.1)) hrlt ?_ ?_).bind fun ord ho => ?_
  · intro i hi
    cases c with
    | none => cases hi
    | some b => cases hi; exact (hc b rfl).1
  · intro i hi
    cases c with
    | none => cases hi
    | some b => cases hi; exact (hc b rfl).2.1
  obtain ⟨mid, e, hn, hm⟩ := ho
  have hlast : ∀ f, c.map (·.2.value) = some f → ∃ p, (c.map (·.1)).toList.getLast? = some p ∧ Determines vars A H p f := by
    intro f hf
    cases c with
    | none => cases hf
    | some b => cases hf; exact ⟨b.1, rfl, (hc b rfl).2.2⟩
  rcases hrp with ⟨h1, h2⟩ | ⟨r, pos, h1, h2, h3⟩
  · subst h1 h2
    unfold searchTop
    dsimp only
    refine (search_roo (H := H) hd hv hacc .holds ord _ hzero hn (fun p hp => (hm p).1 hp) (fun _ f hf => ?_) fun _ a ha _ => hs.always rfl a ha).mono fun ts h => h.congr fun a ha => ?_
    · obtain ⟨p, h1, h2⟩ := hlast f hf
      refine ⟨p, ?_, h2⟩
      rw [e, List.getLast?_append, h1]; rfl
    · exact ⟨fun h => h.2, fun h => ⟨fun i hi => by
        have : ¬ i < vars.length := fun h => hi ((hm i).2 h)
        rw [List.getElem?_eq_none (by simp; omega), List.getElem?_eq_none (by simp; omega)], h⟩⟩
  · subst h1 h2
    obtain ⟨pos', e1, hrf⟩ := hs.reif r rfl
    rw [h3] at e1; cases e1
    have hlt := hrlt pos rfl
    have hval : vars[pos].Valid d.length := hv _ (List.getElem_mem hlt)
    rw [show (some pos).toList ++ mid ++ (c.map (·.1)).toList = pos :: (mid ++ (c.map (·.1)).toList) from rfl] at e
    subst e
    unfold searchTop
    dsimp only
    rw [vecAt_ok hlt]
    obtain ⟨hpn, hrn⟩ := List.nodup_cons.1 hn
    refine (values_roo hd hval).bind fun L hL => ?_
    have hlen : ∀ a, (valsOf vars a).length = vars.length := fun a => by simp
    have hget : ∀ a, (valsOf vars a)[pos]? = some (vars[pos].eval a) := fun a => by simp [List.getElem?_eq_getElem hlt]
    refine (lists_collect (P := fun x vals => vals[pos]? = some x ∧ A vals) fun x hx => ?_).mono fun ts h => h.congr fun a ha => ?_
    · have hx' := hL.2.2.2 x hx
      have hsearch : ∀ b, r.branch x = b → RightOrOverflow (search d vars accept (c.map (·.2.value)) b (mid ++ (c.map (·.1)).toList) ((List.replicate vars.length 0).set pos x)) (Lists d vars fun vals => vals[pos]? = some x ∧ A vals) := by
        intro b hb
        refine (search_roo (H := H) hd hv hacc b _ _ (hzero.set hx') hrn (fun p hp => (hm p).1 (List.mem_cons_of_mem _ hp)) (fun _ f hf => ?_) ?_).mono fun ts h => h.congr fun a ha => ?_
        · obtain ⟨p, h1, h2⟩ := hlast f hf
          refine ⟨p, ?_, h2⟩
          rw [List.getLast?_append, h1]; rfl
        · rintro rfl a ha hag
          have := hag pos hpn
          rw [List.getElem?_set_self (by simpa using hlt)] at this
          exact (hrf _ x (hlen a) this.symm).1 hb
        · refine and_congr_left' ?_
          constructor
          · intro hag
            have := hag pos hpn
            rw [List.getElem?_set_self (by simpa using hlt)] at this
            exact this.symm
          · intro hp i hi
            by_cases hip : i = pos
            · subst hip
              rw [List.getElem?_set_self (by simpa using hlt), hp]
            · have : ¬ i < vars.length := fun h => hi (by
                rcases List.mem_cons.1 ((hm i).2 h) with e | h
                · exact absurd e hip
                · exact h)
              rw [List.getElem?_eq_none (by simp; omega), List.getElem?_eq_none (by simp; omega)]
      cases hb : r.branch x with
      | holds => exact hsearch _ hb
      | negated => exact hsearch _ hb
      | free =>
        refine .pure ⟨fun t ht => ?_, fun a ha => ?_⟩
        · rw [List.mem_singleton] at ht; subst ht
          refine ⟨by simp, fun y hy => ?_⟩
          rcases List.mem_or_eq_of_mem_set hy with h | h
          · have := (List.mem_replicate.1 h).2; cases this
          · cases h; exact hx'
        · simp only [InTable, List.mem_singleton, exists_eq_left]
          constructor
          · intro hmt
            have := hmt pos vars[pos] (some x) (List.getElem?_eq_getElem hlt) (List.getElem?_set_self (by simpa using hlt))
            rcases this with h | h
            · cases h
            · have e : (valsOf vars a)[pos]? = some x := by rw [hget]; exact h.symm
              exact ⟨e, (hrf _ x (hlen a) e).2 hb⟩
          · rintro ⟨h1, _⟩ p v en hp hen
            by_cases hpp : p = pos
            · subst hpp
              rw [List.getElem?_set_self (by simpa using hlt)] at hen; cases hen
              rw [List.getElem?_eq_getElem hlt] at hp
              cases hp
              rw [hget] at h1
              exact .inr h1.symm
            · rw [List.getElem?_set_ne (Ne.symm hpp), List.getElem?_replicate] at hen
              split at hen
              · cases hen; exact .inl rfl
              · cases hen
    · constructor
      · rintro ⟨x, _, _, h⟩; exact h
      · intro h; exact ⟨vars[pos].eval a, (hL.2.2.1 _).2 ⟨a, ha, rfl⟩, hget a, h⟩

end
end Tabulation
end Gcs
