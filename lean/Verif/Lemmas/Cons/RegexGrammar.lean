import Verif.Lemmas.Cons.RegexParse

/-!
# The parser of regular expressions reads what the grammar says
-/

namespace Gcs.Regex
open IntervalSet

section
variable {A : List Int}

/-- What a part of the parser does: it reads an expression of the level, or throws for a fair reason. -/
def Parses (A : List Int) (l : Level) (ts : List Tok) (x : Chk (Core × List Tok)) : Prop :=
  (∃ e, x = .error e ∧ Err.Fair ts e) ∨ ∃ c rest e used, x = .ok (c, rest) ∧ ts = used ++ rest ∧ Reads l e used ∧ Means A c e

theorem Reads.length_pos {l : Level} {e : Expr} {ts : List Tok} (h : Reads l e ts) : 0 < ts.length := by
  induction h <;> simp_all <;> omega

theorem fairInvalid {ts : List Tok} {x : Chk (Core × List Tok)} {l : Level} (h : x = .error .invalidProblem) : Parses A l ts x := .inl ⟨_, h, .inl rfl⟩

theorem closeClass_spec (ts us : List Tok) (neg : Bool) (hsub : ∀ t ∈ us, t ∈ ts)
    (hread : ∀ its used rest, us = used ++ .classClose :: rest → Items its used → ∃ v, ts = v ++ rest ∧ Reads .atom (.cls neg its) v) :
    Parses A .atom ts (parseItems us >>= fun r => closeClass A neg r.1 r.2) := by
  rcases parseItems_spec us with ⟨e, h, hf⟩ | ⟨xs, its, used, rest, h, hu, hi, hx⟩
  · rw [h]; exact .inl ⟨e, rfl, hf.mono hsub⟩
  · rw [h, Knapsack.chk_ok_bind]
    unfold closeClass
    dsimp only
    split
    · rename_i rest'
      obtain ⟨v, hv, hr⟩ := hread its used rest' hu hi
      refine .inr ⟨_, rest', _, v, rfl, hv, hr, ?_⟩
      cases neg
      · exact means_cls hx
      · exact means_notCls hx
    · exact fairInvalid rfl

theorem parseClass_spec (ts : List Tok) : Parses A .atom (.classOpen :: ts) (parseClass A ts) := by
  unfold parseClass
  split
  · rename_i us
    exact closeClass_spec _ us true (fun t ht => .tail _ (.tail _ ht)) fun its used rest hu hi => ⟨_, by rw [hu]; simp, .notCls hi⟩
  · exact closeClass_spec _ ts false (fun t ht => .tail _ ht) fun its used rest hu hi => ⟨_, by rw [hu]; simp, .cls hi⟩

/-- What follows an atom. -/
theorem parseSuffix_spec {c : Core} {e : Expr} {used ts : List Tok} (hr : Reads .atom e used) (hm : Means A c e) : Parses A .factor (used ++ ts) (parseSuffix c ts) := by
  unfold parseSuffix
  split
  · exact .inr ⟨_, _, _, used ++ [.star], rfl, by simp, .star hr, hm.star⟩
  · exact .inr ⟨_, _, _, used ++ [.plus], rfl, by simp, .plus hr, hm.plus⟩
  · exact .inr ⟨_, _, _, used ++ [.opt], rfl, by simp, .opt hr, hm.opt⟩
  · unfold parseQuantifier
    split
    · exact .inr ⟨_, _, _, _, rfl, by simp, .exactly _ hr, hm.exactly _⟩
    · exact .inr ⟨_, _, _, _, rfl, by simp, .atLeast _ hr, hm.atLeast _⟩
    · rename_i n m ts
      by_cases h : m < n
      · rw [if_pos h]; exact fairInvalid rfl
      · rw [if_neg h]
        exact .inr ⟨_, _, _, _, rfl, by simp, .between (Nat.le_of_not_lt h) hr, hm.between (Nat.le_of_not_lt h)⟩
    · exact fairInvalid rfl
  · exact .inr ⟨_, _, _, used, rfl, rfl, .atom hr, hm⟩

/-- All parts of the parser, with enough fuel. -/
theorem parser_spec : ∀ f : Nat,
    (∀ ts, 4 * ts.length + 4 ≤ f → Parses A .expr ts (parseExpr A f ts)) ∧ (∀ ts, 4 * ts.length + 3 ≤ f → Parses A .term ts (parseTerm A f ts)) ∧
    (∀ ts, 4 * ts.length + 2 ≤ f → Parses A .factor ts (parseFactor A f ts)) ∧ (∀ ts, 4 * ts.length + 1 ≤ f → Parses A .atom ts (parseAtom A f ts))
  | 0 => ⟨fun _ _ => by omega, fun _ _ => by omega, fun _ _ => by omega, fun _ _ => by omega⟩
  | f + 1 => by
    obtain ⟨ih1, ih2, ih3, ih4⟩ := parser_spec f
    refine ⟨fun ts hf => ?_, fun ts hf => ?_, fun ts hf => ?_, fun ts hf => ?_⟩
    · rw [parseExpr]
      rcases ih2 ts (by omega) with ⟨e, h, hr⟩ | ⟨c, rest, e, used, h, hu, hr, hm⟩
      · rw [h]; exact .inl ⟨e, rfl, hr⟩
      · rw [h, Knapsack.chk_ok_bind]
        dsimp only
        split
        · rename_i rest'
          have hl := congrArg List.length hu
          rw [List.length_append, List.length_cons] at hl
          rcases ih1 rest' (by omega) with ⟨e', h', hr'⟩ | ⟨c', rest'', e', used', h', hu', hr', hm'⟩
          · rw [h']; exact .inl ⟨e', rfl, hr'.mono fun t ht => by rw [hu]; exact List.mem_append_right _ (.tail _ ht)⟩
          · rw [h', Knapsack.chk_ok_bind]
            exact .inr ⟨_, _, _, _, rfl, by rw [hu, hu']; simp, .alt hr hr', hm.alt hm'⟩
        · exact .inr ⟨_, _, _, _, rfl, hu, .term hr, hm⟩
    · rw [parseTerm]
      rcases ih3 ts (by omega) with ⟨e, h, hr⟩ | ⟨c, rest, e, used, h, hu, hr, hm⟩
      · rw [h]; exact .inl ⟨e, rfl, hr⟩
      · rw [h, Knapsack.chk_ok_bind]
        dsimp only
        split
        · have hl := congrArg List.length hu
          rw [List.length_append] at hl
          have := hr.length_pos
          rcases ih2 rest (by omega) with ⟨e', h', hr'⟩ | ⟨c', rest'', e', used', h', hu', hr', hm'⟩
          · rw [h']; exact .inl ⟨e', rfl, hr'.mono fun t ht => by rw [hu]; exact List.mem_append_right _ ht⟩
          · rw [h', Knapsack.chk_ok_bind]
            exact .inr ⟨_, _, _, _, rfl, by rw [hu, hu', List.append_assoc], .seq hr hr', hm.seq hm'⟩
        · exact .inr ⟨_, _, _, _, rfl, hu, .factor hr, hm⟩
    · rw [parseFactor]
      rcases ih4 ts (by omega) with ⟨e, h, hr⟩ | ⟨c, rest, e, used, h, hu, hr, hm⟩
      · rw [h]; exact .inl ⟨e, rfl, hr⟩
      · rw [h, Knapsack.chk_ok_bind]
        dsimp only
        rw [hu]
        exact parseSuffix_spec hr hm
    · unfold parseAtom
      split
      · omega
      · exact .inr ⟨_, _, _, [_], rfl, rfl, .lit _, means_lit _⟩
      · exact .inr ⟨_, _, _, [_], rfl, rfl, .any, means_any⟩
      · exact parseClass_spec _
      · rename_i f' ts' hf'
        cases hf'
        rcases ih1 ts' (by simp at hf; omega) with ⟨e, h, hr⟩ | ⟨c, rest, e, used, h, hu, hr, hm⟩
        · rw [h]; exact .inl ⟨e, rfl, hr.mono fun t ht => .tail _ ht⟩
        · rw [h, Knapsack.chk_ok_bind]
          dsimp only
          split
          · exact .inr ⟨_, _, _, _, rfl, by rw [hu]; simp, .group hr, hm⟩
          · exact fairInvalid rfl
      · exact fairInvalid rfl

/-! ## Everything that is written as it should be is read -/

/-- The part of the parser for a level. -/
def parseLevel (A : List Int) : Level → Nat → List Tok → Chk (Core × List Tok)
  | .expr => parseExpr A
  | .term => parseTerm A
  | .factor => parseFactor A
  | .atom => parseAtom A

/-- How much fuel a level needs. -/
def Level.rank : Level → Nat
  | .expr => 4
  | .term => 3
  | .factor => 2
  | .atom => 1

/-- What may follow an expression of the level. -/
def Follow : Level → List Tok → Prop
  | .atom, _ => True
  | .factor, ts => ∀ c, parseSuffix c ts = .ok (c, ts)
  | .term, ts => (∀ c, parseSuffix c ts = .ok (c, ts)) ∧ startsAtom ts = false
  | .expr, ts => (∀ c, parseSuffix c ts = .ok (c, ts)) ∧ startsAtom ts = false ∧ ts.head? ≠ some .bar

theorem Reads.starts {l : Level} {e : Expr} {ts : List Tok} (h : Reads l e ts) : ∀ rest, startsAtom (ts ++ rest) = true := by
  induction h with
  | term _ ih => exact ih
  | alt _ _ ih _ => intro rest; rw [List.append_assoc]; exact ih _
  | factor _ ih => exact ih
  | seq _ _ ih _ => intro rest; rw [List.append_assoc]; exact ih _
  | atom _ ih => exact ih
  | star _ ih => intro rest; rw [List.append_assoc]; exact ih _
  | plus _ ih => intro rest; rw [List.append_assoc]; exact ih _
  | opt _ ih => intro rest; rw [List.append_assoc]; exact ih _
  | exactly _ _ ih => intro rest; rw [List.append_assoc]; exact ih _
  | atLeast _ _ ih => intro rest; rw [List.append_assoc]; exact ih _
  | between _ _ ih => intro rest; rw [List.append_assoc]; exact ih _
  | lit _ => intro _; rfl
  | any => intro _; rfl
  | cls _ => intro _; rfl
  | notCls _ => intro _; rfl
  | group _ _ => intro _; rfl

theorem follow_of_starts {ts : List Tok} (h : startsAtom ts = true) : Follow .factor ts := by
  unfold startsAtom at h
  intro c
  split at h <;> first | rfl | cases h

theorem parseItems_ok {its : List (Nat × Nat)} {used rest : List Tok} (h : Items its used) :
    RightOrOverflow (parseItems (used ++ .classClose :: rest)) (fun r => r.2 = .classClose :: rest ∧ ∀ x, x ∈ r.1 ↔ InClass its x) := by
  have e : parseItems (used ++ .classClose :: rest) = setItems [] (used ++ .classClose :: rest) := by cases h <;> rfl
  rw [e]
  exact (setItems_ok h.weak []).mono fun r hr => ⟨hr.1, fun x => by rw [hr.2]; simp⟩

theorem Items.notCaret {its : List (Nat × Nat)} {ts rest : List Tok} (h : Items its ts) : (ts ++ rest).head? ≠ some .caret := by
  cases h <;> simp

/-- An expression that is written like this is read, and what follows is left, unless there is a range that goes up to the largest number. -/
theorem parser_complete {l : Level} {e : Expr} {ts : List Tok} (h : Reads l e ts) : ∀ (f : Nat) (rest : List Tok), 4 * ts.length + l.rank ≤ f → Follow l rest →
    RightOrOverflow (parseLevel A l f (ts ++ rest)) (fun r => r.2 = rest ∧ Means A r.1 e) := by
  have suffix : ∀ {a : Expr} {ts : List Tok} (us : List Tok), (∀ (f : Nat) (rest : List Tok), 4 * ts.length + Level.atom.rank ≤ f → Follow .atom rest →
      RightOrOverflow (parseLevel A .atom f (ts ++ rest)) (fun r => r.2 = rest ∧ Means A r.1 a)) → ∀ (e' : Expr) (f : Nat) (rest : List Tok), 4 * (ts ++ us).length + Level.factor.rank ≤ f →
      (∀ c, Means A c a → ∃ c', parseSuffix c (us ++ rest) = .ok (c', rest) ∧ Means A c' e') → RightOrOverflow (parseLevel A .factor f (ts ++ us ++ rest)) (fun r => r.2 = rest ∧ Means A r.1 e') := by
    intro a ts us ih e' f rest hf hs
    cases f with
    | zero => simp only [Level.rank] at hf; omega
    | succ f =>
      show RightOrOverflow (parseFactor A (f + 1) _) _
      rw [parseFactor, List.append_assoc]
      refine (ih f (us ++ rest) (by simp only [Level.rank, List.length_append] at hf ⊢; omega) trivial).bind fun r hr => ?_
      obtain ⟨c', h1, h2⟩ := hs r.1 hr.2
      obtain ⟨c, rest'⟩ := r
      cases hr.1
      exact .inr ⟨_, h1, rfl, h2⟩
  induction h with
  | term h ih =>
    intro f rest hf hF
    cases f with
    | zero => simp only [Level.rank] at hf; omega
    | succ f =>
      show RightOrOverflow (parseExpr A (f + 1) _) _
      rw [parseExpr]
      refine (ih f rest (by simp only [Level.rank] at hf ⊢; omega) ⟨hF.1, hF.2.1⟩).bind fun r hr => ?_
      obtain ⟨c, rest'⟩ := r
      cases hr.1
      dsimp only
      split
      · exact absurd rfl hF.2.2
      · exact .inr ⟨_, rfl, rfl, hr.2⟩
  | alt h1 h2 ih1 ih2 =>
    intro f rest hf hF
    cases f with
    | zero => simp only [Level.rank] at hf; omega
    | succ f =>
      show RightOrOverflow (parseExpr A (f + 1) _) _
      rw [parseExpr, List.append_assoc, List.cons_append]
      simp only [Level.rank, List.length_append, List.length_cons] at hf
      refine (ih1 f _ (by simp only [Level.rank]; omega) ⟨fun _ => rfl, rfl⟩).bind fun r hr => ?_
      obtain ⟨c, rest'⟩ := r
      cases hr.1
      dsimp only
      refine (ih2 f rest (by simp only [Level.rank]; omega) hF).bind fun r' hr' => ?_
      obtain ⟨c', rest''⟩ := r'
      cases hr'.1
      exact .inr ⟨_, rfl, rfl, hr.2.alt hr'.2⟩
  | factor h ih =>
    intro f rest hf hF
    cases f with
    | zero => simp only [Level.rank] at hf; omega
    | succ f =>
      show RightOrOverflow (parseTerm A (f + 1) _) _
      rw [parseTerm]
      refine (ih f rest (by simp only [Level.rank] at hf ⊢; omega) hF.1).bind fun r hr => ?_
      obtain ⟨c, rest'⟩ := r
      cases hr.1
      dsimp only
      rw [if_neg (by rw [hF.2]; exact Bool.false_ne_true)]
      exact .inr ⟨_, rfl, rfl, hr.2⟩
  | @seq _ _ ts us h1 h2 ih1 ih2 =>
    intro f rest hf hF
    cases f with
    | zero => simp only [Level.rank] at hf; omega
    | succ f =>
      show RightOrOverflow (parseTerm A (f + 1) _) _
      have := h1.length_pos
      rw [parseTerm, List.append_assoc]
      simp only [Level.rank, List.length_append] at hf
      refine (ih1 f _ (by simp only [Level.rank]; omega) (follow_of_starts (h2.starts rest))).bind fun r hr => ?_
      obtain ⟨c, rest'⟩ := r
      cases hr.1
      show RightOrOverflow (if startsAtom (us ++ rest) = true then do
        let (b, ts) ← parseTerm A f (us ++ rest)
        .ok (.concat c b, ts) else .ok (c, us ++ rest)) _
      rw [if_pos (h2.starts rest)]
      refine (ih2 f rest (by simp only [Level.rank]; omega) hF).bind fun r' hr' => ?_
      obtain ⟨c', rest''⟩ := r'
      cases hr'.1
      exact .inr ⟨_, rfl, rfl, hr.2.seq hr'.2⟩
  | atom h ih =>
    intro f rest hf hF
    have := suffix [] ih _ f rest (by simpa using hf) (fun c hc => ⟨c, hF c, hc⟩)
    simpa using this
  | star h ih => exact fun f rest hf _ => suffix [.star] ih _ f rest hf fun c hc => ⟨_, rfl, hc.star⟩
  | plus h ih => exact fun f rest hf _ => suffix [.plus] ih _ f rest hf fun c hc => ⟨_, rfl, hc.plus⟩
  | opt h ih => exact fun f rest hf _ => suffix [.opt] ih _ f rest hf fun c hc => ⟨_, rfl, hc.opt⟩
  | exactly n h ih => exact fun f rest hf _ => suffix [.quantOpen, .num n, .quantClose] ih _ f rest hf fun c hc => ⟨_, rfl, hc.exactly n⟩
  | atLeast n h ih => exact fun f rest hf _ => suffix [.quantOpen, .num n, .comma, .quantClose] ih _ f rest hf fun c hc => ⟨_, rfl, hc.atLeast n⟩
  | @between _ _ n m hnm h ih =>
    exact fun f rest hf _ => suffix [.quantOpen, .num n, .comma, .num m, .quantClose] ih _ f rest hf fun c hc => ⟨_, if_neg (Nat.not_lt.2 hnm), hc.between hnm⟩
  | lit n =>
    intro f rest hf _
    cases f with
    | zero => simp only [Level.rank] at hf; omega
    | succ f => exact .inr ⟨_, rfl, rfl, means_lit n⟩
  | any =>
    intro f rest hf _
    cases f with
    | zero => simp only [Level.rank] at hf; omega
    | succ f => exact .inr ⟨_, rfl, rfl, means_any⟩
  | @cls its ts h =>
    intro f rest hf _
    cases f with
    | zero => simp only [Level.rank] at hf; omega
    | succ f =>
      show RightOrOverflow (parseAtom A (f + 1) (.classOpen :: (ts ++ [.classClose] ++ rest))) _
      rw [parseAtom, List.append_assoc, parseClass]
      · refine (parseItems_ok h).bind fun r hr => ?_
        obtain ⟨xs, rest'⟩ := r
        cases hr.1
        exact .inr ⟨_, rfl, rfl, means_cls hr.2⟩
      · exact fun t e => h.notCaret (rest := [.classClose] ++ rest) (by rw [e]; rfl)
  | @notCls its ts h =>
    intro f rest hf _
    cases f with
    | zero => simp only [Level.rank] at hf; omega
    | succ f =>
      show RightOrOverflow (parseAtom A (f + 1) (.classOpen :: .caret :: (ts ++ [.classClose] ++ rest))) _
      rw [parseAtom, List.append_assoc, parseClass]
      refine (parseItems_ok h).bind fun r hr => ?_
      obtain ⟨xs, rest'⟩ := r
      cases hr.1
      exact .inr ⟨_, rfl, rfl, means_notCls hr.2⟩
  | @group a ts h ih =>
    intro f rest hf _
    cases f with
    | zero => simp only [Level.rank] at hf; omega
    | succ f =>
      show RightOrOverflow (parseAtom A (f + 1) (.groupOpen :: (ts ++ [.groupClose] ++ rest))) _
      rw [parseAtom, List.append_assoc]
      simp only [Level.rank, List.length_append, List.length_cons, List.length_nil] at hf
      refine (ih f _ (by simp only [Level.rank]; omega) ⟨fun _ => rfl, rfl, by simp⟩).bind fun r hr => ?_
      obtain ⟨c, rest'⟩ := r
      cases hr.1
      exact .inr ⟨_, rfl, rfl, hr.2⟩

end

end Gcs.Regex
