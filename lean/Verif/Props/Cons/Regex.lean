import Verif.Lemmas.Cons.RegexLex
import Verif.Lemmas.Cons.RegexMatch
import Verif.Props.Cons.Layered

/-!
# C60: regular expressions

`Spec/Regex.lean` says, without the parser, how an expression is written and which words it matches. Here is what `regex_to_nfa`, `regex_reference_accepts` and a `Regular` that is given an expression have to do with it.
-/

namespace Gcs
open IntervalSet Layered Regex

/-! Helpers. -/

namespace Regex

theorem times_congr {L M : List Int → Prop} : ∀ {k : Nat} {w : List Int}, (∀ u, (∀ x ∈ u, x ∈ w) → (L u ↔ M u)) → (Times L k w ↔ Times M k w)
  | 0, _, _ => Iff.rfl
  | k + 1, w, h => by
    constructor
    · rintro ⟨u, v, rfl, h1, h2⟩
      exact ⟨u, v, rfl, (h u fun x hx => List.mem_append_left _ hx).1 h1, (times_congr fun t ht => h t fun x hx => List.mem_append_right _ (ht x hx)).1 h2⟩
    · rintro ⟨u, v, rfl, h1, h2⟩
      exact ⟨u, v, rfl, (h u fun x hx => List.mem_append_left _ hx).2 h1, (times_congr fun t ht => h t fun x hx => List.mem_append_right _ (ht x hx)).2 h2⟩

/-- What `.` stands for only matters for the letters of the word. -/
theorem matches_congr {A B : Int → Prop} : ∀ (e : Expr) {w : List Int}, (∀ x ∈ w, A x ↔ B x) → (e.Matches A w ↔ e.Matches B w)
  | .lit _, _, _ => Iff.rfl
  | .any, w, h => by
    constructor
    · rintro ⟨x, rfl, hx⟩; exact ⟨x, rfl, (h x (.head _)).1 hx⟩
    · rintro ⟨x, rfl, hx⟩; exact ⟨x, rfl, (h x (.head _)).2 hx⟩
  | .cls false _, _, _ => Iff.rfl
  | .cls true _, w, h => by
    constructor
    · rintro ⟨x, rfl, hx, hn⟩; exact ⟨x, rfl, (h x (.head _)).1 hx, hn⟩
    · rintro ⟨x, rfl, hx, hn⟩; exact ⟨x, rfl, (h x (.head _)).2 hx, hn⟩
  | .seq a b, w, h => by
    constructor
    · rintro ⟨u, v, rfl, h1, h2⟩
      exact ⟨u, v, rfl, (matches_congr a fun x hx => h x (List.mem_append_left _ hx)).1 h1, (matches_congr b fun x hx => h x (List.mem_append_right _ hx)).1 h2⟩
    · rintro ⟨u, v, rfl, h1, h2⟩
      exact ⟨u, v, rfl, (matches_congr a fun x hx => h x (List.mem_append_left _ hx)).2 h1, (matches_congr b fun x hx => h x (List.mem_append_right _ hx)).2 h2⟩
  | .alt a b, w, h => or_congr (matches_congr a h) (matches_congr b h)
  | .star a, w, h => exists_congr fun _ => times_congr fun _ hu => matches_congr a fun x hx => h x (hu x hx)
  | .plus a, w, h => exists_congr fun _ => and_congr_right fun _ => times_congr fun _ hu => matches_congr a fun x hx => h x (hu x hx)
  | .opt a, w, h => or_congr Iff.rfl (matches_congr a h)
  | .exactly a _, w, h => times_congr fun _ hu => matches_congr a fun x hx => h x (hu x hx)
  | .atLeast a _, w, h => exists_congr fun _ => and_congr_right fun _ => times_congr fun _ hu => matches_congr a fun x hx => h x (hu x hx)
  | .between a _ _, w, h => exists_congr fun _ => and_congr_right fun _ => and_congr_right fun _ => times_congr fun _ hu => matches_congr a fun x hx => h x (hu x hx)

theorem mem_letters {xs : List Int} {x : Int} : x ∈ insertAll xs [] ↔ x ∈ xs := by simp [mem_insertAll]

theorem toNfa_ok {s : List Char} {A : List Int} {nfa : Nfa} (h : toNfa s A = .ok nfa) :
    ∃ c, parse s (insertAll A []) = .ok c ∧ Regular.inRange nfa.numStates nfa.transitions = true ∧ (∀ m ∈ nfa.transitions, IsMap m) ∧ (∀ k ∈ nfa.final, 0 ≤ k ∧ k < nfa.numStates) ∧
      ∀ w, Accepts (Regular.Moves nfa.transitions) nfa.final 0 0 w ↔ Lang c w := by
  obtain ⟨c, hc, h⟩ := bind_ok h
  obtain ⟨n, hn, h1⟩ := buildNfa_right c
  rw [hn] at h
  cases h
  exact ⟨c, hc, h1⟩

end Regex

/-! ## From expressions to automata -/

/-- C60: an automaton that is made accepts exactly the words that the expression matches, however it is read; and what was given is a regular expression. -/
theorem regex_language {s : List Char} {alphabet : List Int} {nfa : Nfa} (h : toNfa s alphabet = .ok nfa) :
    (∃ e, Writes e s) ∧ ∀ e, Writes e s → ∀ w, Accepts (Regular.Moves nfa.transitions) nfa.final 0 0 w ↔ e.Matches (· ∈ alphabet) w := by
  obtain ⟨c, hc, _, _, _, hl⟩ := toNfa_ok h
  obtain ⟨e, he, _⟩ := parse_spec hc
  refine ⟨⟨e, he⟩, fun e he w => (hl w).trans ((parse_means hc he w).trans ?_)⟩
  exact matches_congr e fun x _ => mem_letters

/-- C60: two ways to read the same text mean the same. -/
theorem regex_unambiguous {s : List Char} (hs : Regex.Small s) {e e' : Expr} (he : Writes e s) (he' : Writes e' s) {A : Int → Prop} (w : List Int) : e.Matches A w ↔ e'.Matches A w := by
  rcases Classical.em (∃ L : List Int, ∀ x, x ∈ L ↔ (x ∈ w ∧ A x)) with ⟨L, hL⟩ | hn
  · rcases parse_total (A := insertAll L []) hs with ⟨⟨c, hc⟩, _⟩ | ⟨_, h⟩
    · have h1 := parse_means hc he w
      have h2 := parse_means hc he' w
      have hA : ∀ x ∈ w, A x ↔ x ∈ insertAll L [] := fun x hx => by rw [mem_letters, hL]; exact ⟨fun h => ⟨hx, h⟩, And.right⟩
      rw [matches_congr e hA, matches_congr e' hA, ← h1, ← h2]
    · exact absurd he (h e)
  · refine absurd ?_ hn
    clear he he' hs hn
    induction w with
    | nil => exact ⟨[], by simp⟩
    | cons y w ih =>
      obtain ⟨L, hL⟩ := ih
      rcases Classical.em (A y) with hy | hy
      · refine ⟨y :: L, fun x => ?_⟩
        rw [List.mem_cons, List.mem_cons, hL]
        constructor
        · rintro (rfl | h)
          · exact ⟨.inl rfl, hy⟩
          · exact ⟨.inr h.1, h.2⟩
        · rintro ⟨rfl | h, h'⟩
          · exact .inl rfl
          · exact .inr ⟨h, h'⟩
      · refine ⟨L, fun x => ?_⟩
        rw [List.mem_cons, hL]
        constructor
        · exact fun h => ⟨.inr h.1, h.2⟩
        · rintro ⟨rfl | h, h'⟩
          · exact absurd h' hy
          · exact ⟨h, h'⟩

/-- C60: an automaton is made from every text that is a regular expression, and every other one is rejected. Missing: texts with numbers of 2^63 - 1 and above. For those this is false: see `regex_large` and `regex_largest`. -/
theorem regex_total_partial {s : List Char} (hs : Regex.Small s) (alphabet : List Int) :
    ((∃ nfa, toNfa s alphabet = .ok nfa) ∧ ∃ e, Writes e s) ∨ (toNfa s alphabet = .error .invalidProblem ∧ ∀ e, ¬ Writes e s) := by
  unfold toNfa
  rcases parse_total (A := insertAll alphabet []) hs with ⟨⟨c, hc⟩, he⟩ | ⟨hc, he⟩
  · rw [hc, Knapsack.chk_ok_bind]
    obtain ⟨nfa, hn, _⟩ := buildNfa_right c
    exact .inl ⟨⟨nfa, hn⟩, he⟩
  · rw [hc]
    exact .inr ⟨rfl, he⟩

/-- C60: all states of the automaton exist, and no state has two entries for the same value. So posting it never throws, by `regular_posts`, and the theorems for `Regular` are about it. -/
theorem regex_wellFormed {s : List Char} {alphabet : List Int} {nfa : Nfa} (h : toNfa s alphabet = .ok nfa) :
    0 < nfa.numStates ∧ nfa.numStates ≤ nfa.transitions.length ∧ (∀ m ∈ nfa.transitions, IsMap m) ∧ (∀ m ∈ nfa.transitions, ∀ p ∈ m, ∀ q ∈ p.2, 0 ≤ q ∧ q < nfa.numStates) ∧ ∀ q ∈ nfa.final, 0 ≤ q ∧ q < nfa.numStates := by
  obtain ⟨c, _, h1, h2, h3, _⟩ := toNfa_ok h
  simp only [Regular.inRange, Bool.and_eq_true, List.all_eq_true, decide_eq_true_eq] at h1
  exact ⟨h1.1.1, h1.1.2, h2, h1.2, h3⟩

/-- C60: the matcher that works on the expression itself agrees with the automaton, and throws exactly if none is made. -/
theorem regex_reference (s : List Char) (alphabet w : List Int) :
    (∃ nfa b, toNfa s alphabet = .ok nfa ∧ referenceAccepts s alphabet w = .ok b ∧ (b = true ↔ Accepts (Regular.Moves nfa.transitions) nfa.final 0 0 w)) ∨
    ∃ e, toNfa s alphabet = .error e ∧ referenceAccepts s alphabet w = .error e := by
  unfold toNfa referenceAccepts
  cases hc : parse s (insertAll alphabet []) with
  | error e => exact .inr ⟨e, rfl, rfl⟩
  | ok c =>
    rw [Knapsack.chk_ok_bind, Knapsack.chk_ok_bind]
    obtain ⟨nfa, hn, _, _, _, hl⟩ := buildNfa_right c
    obtain ⟨r, hr, hw⟩ := matchEnds_whole c w
    rw [hr, Knapsack.chk_ok_bind]
    exact .inl ⟨nfa, _, hn, rfl, by rw [decide_eq_true_eq, hw, hl]⟩

/-! ## Regular, given an expression -/

namespace Regular

theorem extreme_spec : ∀ (xs : List Int) (r : Int × Int), let r' := xs.foldl (fun r x => (if x < r.1 then x else r.1, if x > r.2 then x else r.2)) r
    r'.1 ≤ r.1 ∧ r.2 ≤ r'.2 ∧ (∀ x ∈ xs, r'.1 ≤ x ∧ x ≤ r'.2) ∧ (r'.1 = r.1 ∨ r'.1 ∈ xs) ∧ (r'.2 = r.2 ∨ r'.2 ∈ xs)
  | [], r => by simp
  | y :: xs, r => by
    obtain ⟨h1, h2, h3, h4, h5⟩ := extreme_spec xs (if y < r.1 then y else r.1, if y > r.2 then y else r.2)
    rw [List.foldl_cons]
    generalize List.foldl (fun r x => (if x < r.1 then x else r.1, if x > r.2 then x else r.2)) (if y < r.1 then y else r.1, if y > r.2 then y else r.2) xs = r' at h1 h2 h3 h4 h5 ⊢
    dsimp only at h1 h2 h4 h5
    refine ⟨by split at h1 <;> omega, by split at h2 <;> omega, fun x hx => ?_, ?_, ?_⟩
    · rcases List.mem_cons.1 hx with rfl | hx
      · exact ⟨by split at h1 <;> omega, by split at h2 <;> omega⟩
      · exact h3 x hx
    · rcases h4 with h4 | h4
      · split at h4
        · exact .inr (by rw [h4]; exact .head _)
        · exact .inl h4
      · exact .inr (.tail _ h4)
    · rcases h5 with h5 | h5
      · split at h5
        · exact .inr (by rw [h5]; exact .head _)
        · exact .inl h5
      · exact .inr (.tail _ h5)

/-- The range that is found has all values in it, and its ends are values. -/
theorem extremes_roo {d : Doms} (hd : DomsOK d) : ∀ (vars : List VarId) (r : Int × Int), (∀ v ∈ vars, v.Valid d.length) → InI64 r.1 → InI64 r.2 →
    RightOrOverflow (extremes d vars r) fun r' => InI64 r'.1 ∧ InI64 r'.2 ∧ r'.1 ≤ r.1 ∧ r.2 ≤ r'.2 ∧ (∀ v ∈ vars, ∀ x, Poss d v x → r'.1 ≤ x ∧ x ≤ r'.2) ∧ (r'.2 = r.2 ∨ ∃ v ∈ vars, Poss d v r'.2)
  | [], r, _, h1, h2 => .inr ⟨r, rfl, h1, h2, Int.le_refl _, Int.le_refl _, (fun _ h => nomatch h), .inl rfl⟩
  | v :: vs, r, hv, h1, h2 => by
    rw [extremes]
    refine (listed_roo hd (hv v (.head _))).bind fun g hg => (Gcs.collect_roo hg).bind fun xs hxs => ?_
    obtain ⟨e1, e2, e3, e4, e5⟩ := extreme_spec xs r
    generalize List.foldl (fun r x => (if x < r.1 then x else r.1, if x > r.2 then x else r.2)) r xs = r' at e1 e2 e3 e4 e5 ⊢
    refine (extremes_roo hd vs r' (fun u hu => hv u (.tail _ hu)) ?_ ?_).mono fun r'' hr => ?_
    · rcases e4 with e | e
      · rw [e]; exact h1
      · exact hxs.1 _ e
    · rcases e5 with e | e
      · rw [e]; exact h2
      · exact hxs.1 _ e
    · obtain ⟨k1, k2, k3, k4, k5, k6⟩ := hr
      refine ⟨k1, k2, by omega, by omega, fun u hu x hx => ?_, ?_⟩
      · rcases List.mem_cons.1 hu with rfl | hu
        · have := e3 x ((hxs.2 x).2 hx); omega
        · exact k5 u hu x hx
      · rcases k6 with k6 | ⟨u, hu, hp⟩
        · rcases e5 with e | e
          · exact .inl (k6.trans e)
          · exact .inr ⟨v, .head _, by rw [k6]; exact (hxs.2 _).1 e⟩
        · exact .inr ⟨u, .tail _ hu, hp⟩

/-- The alphabet has all values of the variables. -/
theorem alphabet_roo {d : Doms} (hd : DomsOK d) {vars : List VarId} (hv : ∀ v ∈ vars, v.Valid d.length) : RightOrOverflow (alphabet d vars) fun xs => ∀ v ∈ vars, ∀ x, Poss d v x → x ∈ xs := by
  unfold alphabet
  refine (extremes_roo hd vars (i64Max, i64Min) hv (by decide) (by decide)).bind fun r hr => ?_
  rcases countUp_spec (r.2 - r.1 + 1).toNat r.1 r.2 hr.1.1 (Nat.le_refl _) with ⟨e, _⟩ | ⟨xs, e, h⟩
  · exact .inl e
  · exact .inr ⟨xs, e, fun v hm x hx => (h x).2 (hr.2.2.2.2.1 v hm x hx)⟩

end Regular

section
variable {σ μ : Type} {n m : Nat} {R : Err → Prop} {root : Doms} {vars : List VarId} {st : Store σ} {z0 : List σ} {s : List Char} {e : Expr}

/-- For values in the alphabet, `.` is any value. -/
theorem Regex.matches_all {d : Doms} (hd : DomsOK d) (hv : ∀ v ∈ vars, v.Valid d.length) {xs : List Int} (hx : Regular.alphabet d vars = .ok xs) {a : Asg} (ha : Within d a) :
    e.Matches (· ∈ xs) (vars.map (·.eval a)) ↔ e.Matches (fun _ => True) (vars.map (·.eval a)) := by
  refine matches_congr e fun x hm => ?_
  obtain ⟨v, hvm, rfl⟩ := List.mem_map.1 hm
  rcases Regular.alphabet_roo hd hv with h | ⟨ys, h, hys⟩
  · rw [hx] at h; cases h
  · rw [hx] at h; cases h
    exact ⟨fun _ => trivial, fun _ => hys v hvm _ (ha.poss v)⟩

/-- C60: `Regular`, given a regular expression: what is installed is right. The word that the variables make has to be matched, where `.` is any value at all. -/
theorem regularRegex_right (hroot : DomsOK root) (hlen : root.length = n) (ho : R .overflow) (hv : ∀ v ∈ vars, v.Valid n) (hst : st.OK) (hz : z0[st.handle]? = some (st.kind.put .fresh)) (he : Writes e s) :
    (Posted.mk (fun d => Regular.installRegex (μ := μ) s st vars d) (fun a => e.Matches (fun _ => True) (vars.map (·.eval a))) vars).Serves n m R root z0 (· = st.handle) := by
  intro items h
  obtain ⟨xs, hx, h⟩ := bind_ok h
  obtain ⟨nfa, hn, h⟩ := bind_ok h
  obtain ⟨I, es, h1, h2⟩ := Regular.serves (root := root) (m := m) ho hv (regex_wellFormed hn).2.2.1 hst hz h
  refine ⟨I, es, h1, h2.congr fun a ha => ?_⟩
  rw [(regex_language hn).2 e he, Regex.matches_all hroot (by rw [hlen]; exact hv) hx ha]

/-- C60: what happens when it is posted. An expression is accepted, anything else is rejected, unless a value cannot be represented. Missing: texts with numbers of 2^63 - 1 and above. -/
theorem regularRegex_posts_partial (hroot : DomsOK root) (hlen : root.length = n) (hv : ∀ v ∈ vars, v.Valid n) (hs : Regex.Small s) :
    Regular.installRegex (μ := μ) s st vars root = .error .overflow ∨
    ((∃ items, Regular.installRegex (μ := μ) s st vars root = .ok items) ∧ ∃ e, Writes e s) ∨
    (Regular.installRegex (μ := μ) s st vars root = .error .invalidProblem ∧ ∀ e, ¬ Writes e s) := by
  unfold Regular.installRegex
  rcases Regular.alphabet_roo hroot (vars := vars) (by rw [hlen]; exact hv) with hx | ⟨xs, hx, _⟩
  · rw [hx]; exact .inl rfl
  · rw [hx, Knapsack.chk_ok_bind]
    rcases regex_total_partial hs xs with ⟨⟨nfa, hn⟩, he⟩ | ⟨hn, he⟩
    · rw [hn, Knapsack.chk_ok_bind]
      obtain ⟨h1, h2, _, h3, _⟩ := regex_wellFormed hn
      exact .inr (.inl ⟨regular_posts h1 h2 h3, he⟩)
    · rw [hn]; exact .inr (.inr ⟨rfl, he⟩)

/-- C49, C60: generalised arc consistency of `Regular`, given a regular expression. `nfa` is the automaton that is made when the constraint is posted. When the propagator has run without failing, every value that is left of
one of the variables is part of an assignment within the domains that is matched, if no two of the variables are views of the same. If it fails, there is none. -/
theorem regularRegex_consistent {xs : List Int} {nfa : Nfa} {c : Ctx} {t t' : Sys σ μ} {r : Res PState} (hroot : DomsOK root) (hlen : root.length = n) (hx : Regular.alphabet root vars = .ok xs) (hn : toNfa s xs = .ok nfa) (he : Writes e s)
    (hst : st.OK) (hv : ∀ v ∈ vars, v.Valid n) (hs : Runnable n m t) (hsub : ∀ a, Within t.doms a → Within root a)
    (hg : GraphOK (Regular.auto nfa.transitions nfa.final) vars st t.doms t.top) (hr : runProg c (Regular.prop (Regular.auto nfa.transitions nfa.final) st vars) t = .ok (r, t')) :
    (Failed r t' → ∀ a, Within t.doms a → ¬ e.Matches (fun _ => True) (vars.map (·.eval a))) ∧
    (¬ Failed r t' → (vars.filterMap VarId.underlyingIndex).Nodup → ∀ v ∈ vars, ∀ y, Poss t'.doms v y → ∃ a, Within t'.doms a ∧ v.eval a = y ∧ e.Matches (fun _ => True) (vars.map (·.eval a))) := by
  obtain ⟨_, _, hrange, hmap, _⟩ := toNfa_ok hn
  have hl := fun a (ha : Within root a) => ((regex_language hn).2 e he (vars.map (·.eval a))).trans (Regex.matches_all hroot (by rw [hlen]; exact hv) hx ha)
  obtain ⟨h1, h2⟩ := regular_consistent hrange hmap hst hv hs hg hr
  refine ⟨fun hf a ha hm => h1 hf a ha ((hl a (hsub a ha)).2 hm), fun hf hnd v hvm y hy => ?_⟩
  obtain ⟨a, a1, a2, a3⟩ := h2 hf hnd v hvm y hy
  have hne : vars ≠ [] := fun e => by rw [e] at hvm; cases hvm
  unfold Regular.prop at hr
  rw [if_neg hne] at hr
  obtain ⟨_, _, g, hD⟩ := (layered_run (Regular.next_nodup _ _) (.inl rfl) hst hv hs hg hr).2 hf
  exact ⟨a, a1, a2, (hl a (hsub a (hD.sub a a1))).1 a3⟩

end

/-! ## What is missing above -/

/-- C60, a finding: a number that is too large is not rejected; reading it is an overflow of a signed number, for which C++ says nothing. -/
theorem regex_large : toNfa "99999999999999999999".toList [] = .error .ub := by decide +kernel

/-- C60, a finding: the largest number is fine, but a class with it as the end of a range is not. The same goes for a variable that may be that large. -/
theorem regex_largest : (toNfa "9223372036854775807".toList [] = .ok ⟨2, [[(9223372036854775807, [1])], []], [1]⟩) ∧ toNfa "[9223372036854775806-9223372036854775807]".toList [] = .error .overflow ∧
    Regular.alphabet [[(9223372036854775806, 9223372036854775807)]] [.simple 0] = .error .overflow := by decide +kernel

/-! ## Concrete cases -/

namespace Regex.Demo

/-- Some zeros, then a one or not, then two or three of 2 and 3. -/
def text : List Char := "0* 1? [2-3]{2,3}".toList
def expr : Expr := .seq (.star (.lit 0)) (.seq (.opt (.lit 1)) (.between (.cls false [(2, 3)]) 2 3))

theorem lexes : Lexes text [.num 0, .star, .num 1, .opt, .classOpen, .num 2, .dash, .num 3, .classClose, .quantOpen, .num 2, .comma, .num 3, .quantClose] :=
  .number (ds := ['0']) (by decide) (by decide) (by decide) <| .sign (by decide) <| .space (by decide) <| .number (ds := ['1']) (by decide) (by decide) (by decide) <| .sign (by decide) <| .space (by decide) <| .sign (by decide) <|
  .number (ds := ['2']) (by decide) (by decide) (by decide) <| .sign (by decide) <| .number (ds := ['3']) (by decide) (by decide) (by decide) <| .sign (by decide) <| .sign (by decide) <|
  .number (ds := ['2']) (by decide) (by decide) (by decide) <| .sign (by decide) <| .number (ds := ['3']) (by decide) (by decide) (by decide) <| .sign (by decide) .nil

theorem writes : Writes expr text :=
  ⟨_, lexes, .term <| .seq (ts := [.num 0, .star]) (.star (ts := [.num 0]) (.lit 0)) <| .seq (ts := [.num 1, .opt]) (.opt (ts := [.num 1]) (.lit 1)) <| .factor <|
    .between (ts := [.classOpen, .num 2, .dash, .num 3, .classClose]) (by decide) (.cls (ts := [.num 2, .dash, .num 3]) (.range 2 3))⟩

/-- It is small: there are no two digits in a row. -/
theorem small : Regex.Small text := by
  have h : ∀ n, n ≤ text.length → ∀ k, k ≤ text.length → (∀ c ∈ (text.drop n).take k, c ∈ digits) → value ((text.drop n).take k) < 2 ^ 63 - 1 := by decide +kernel
  rintro ds ⟨p, q, e⟩ hd
  have hl := congrArg List.length e
  simp only [List.length_append] at hl
  have := h p.length (by omega) ds.length (by omega)
  rw [← e, List.append_assoc, List.drop_left, List.take_left] at this
  exact this hd

def nfa : Nfa := (toNfa text [0, 1, 2, 3, 4]).toOption.getD ⟨0, [], []⟩
theorem made : toNfa text [0, 1, 2, 3, 4] = .ok nfa := by
  obtain ⟨⟨n, h⟩, _⟩ | ⟨_, h⟩ := regex_total_partial small [0, 1, 2, 3, 4]
  · unfold nfa; rw [h]; rfl
  · exact absurd writes (h _)

example : expr.Matches (· ∈ [0, 1, 2, 3, 4]) [0, 0, 2, 3] := ⟨[0, 0], [2, 3], rfl, ⟨2, [0], [0], rfl, rfl, [0], [], rfl, rfl, rfl⟩, [], [2, 3], rfl, .inl rfl, 2, by decide, by decide,
  [2], [3], rfl, ⟨2, rfl, (2, 3), .head _, .inl ⟨by decide, by decide⟩⟩, [3], [], rfl, ⟨3, rfl, (2, 3), .head _, .inl ⟨by decide, by decide⟩⟩, rfl⟩

/-- The matcher says the same. -/
example : referenceAccepts text [0, 1, 2, 3, 4] [0, 0, 2, 3] = .ok true ∧ referenceAccepts text [0, 1, 2, 3, 4] [0, 1, 1, 2, 3] = .ok false ∧ referenceAccepts text [0, 1, 2, 3, 4] [2] = .ok false := by decide +kernel
/-- Texts that are not expressions. -/
example : toNfa "0**".toList [] = .error .invalidProblem ∧ toNfa "".toList [] = .error .invalidProblem ∧ toNfa "(0|)".toList [] = .error .invalidProblem ∧ toNfa "0{3,2}".toList [] = .error .invalidProblem ∧
  toNfa "[]".toList [] = .error .invalidProblem ∧ toNfa "a".toList [] = .error .invalidProblem := by decide +kernel

/-- A problem: the first of three variables is 0 or 3, and the last is a view. -/
def root : Doms := [[(0, 0), (3, 3)], [(0, 4)], [(-2, 0)]]
def word : List VarId := [.simple 0, .simple 1, .view 2 true 1]

/-- The hypotheses of `regularRegex_right` are met. -/
example : (Posted.mk (fun d => Regular.installRegex (μ := Unit) text (Layered.Demo.store 0) word d) (fun a => expr.Matches (fun _ => True) (word.map (·.eval a))) word).Serves 3 1 (· = .overflow) root [.fresh] (· = 0) :=
  regularRegex_right (by decide +kernel) rfl rfl (by decide) (Layered.Demo.store_ok 0) rfl writes

/-- It is posted, and what is left is what can be matched: 0 or 3, then 2 or 3, then 2 or 3. -/
example : (Regular.installRegex (μ := Unit) text (Layered.Demo.store 0) word root).map List.length = .ok 1 ∧ Regular.alphabet root word = .ok [0, 1, 2, 3, 4] ∧
    (runProg ⟨0, []⟩ (Regular.prop (μ := Unit) (Regular.auto nfa.transitions nfa.final) (Layered.Demo.store 0) word) (Sys.start root [.fresh] () (Run.setup root []).watches)).toOption.map (fun p => (p.1, p.2.doms)) =
      some (.val .enable, [[(0, 0), (3, 3)], [(2, 3)], [(-2, -1)]]) := by decide +kernel

/-- The hypotheses of `regularRegex_consistent` are met at the start. -/
example {w : Watches} {r : Res PState} {t' : Sys Layered.Graph Unit}
    (hr : runProg ⟨0, []⟩ (Regular.prop (Regular.auto nfa.transitions nfa.final) (Layered.Demo.store 0) word) (Sys.start root [.fresh] () w) = .ok (r, t')) (hf : ¬ Failed r t') {y : Int} (hy : Poss t'.doms (.simple 1) y) :
    ∃ a, Within t'.doms a ∧ a 1 = y ∧ expr.Matches (fun _ => True) (word.map (·.eval a)) :=
  (regularRegex_consistent (n := 3) (m := 1) (root := root) (t := Sys.start root [.fresh] () w) (xs := [0, 1, 2, 3, 4]) (by decide +kernel) rfl (by decide +kernel) made writes (Layered.Demo.store_ok 0) (by decide)
    ⟨(by decide +kernel : DomsOK root), rfl, by simp [Sys.start], rfl, rfl⟩ (fun _ h => h) (stored_fresh rfl) hr).2 hf (by decide) (.simple 1) (by decide) y hy

end Regex.Demo


end Gcs
