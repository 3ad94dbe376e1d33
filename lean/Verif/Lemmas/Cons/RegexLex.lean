import Verif.Lemmas.Cons.RegexGrammar

/-!
# Splitting a text into tokens
-/

namespace Gcs.Regex
open IntervalSet

theorem digit_mem {c : Char} (h : c ∈ digits) : digit c = some (digits.idxOf c : Int) := by
  simp only [digits, List.mem_cons, List.not_mem_nil, or_false] at h
  rcases h with h | h | h | h | h | h | h | h | h | h <;> subst h <;> decide

theorem digit_none {c : Char} (h : c ∉ digits) : digit c = none := by
  unfold digit
  refine if_neg fun hc => h ?_
  have h1 : 48 ≤ c.toNat := UInt32.le_iff_toNat_le.1 hc.1
  have h2 : c.toNat ≤ 57 := UInt32.le_iff_toNat_le.1 hc.2
  have e : c = Char.ofNat c.toNat := (Char.ofNat_toNat c).symm
  rw [e]
  generalize c.toNat = n at h1 h2
  have : n = 48 ∨ n = 49 ∨ n = 50 ∨ n = 51 ∨ n = 52 ∨ n = 53 ∨ n = 54 ∨ n = 55 ∨ n = 56 ∨ n = 57 := by omega
  rcases this with h | h | h | h | h | h | h | h | h | h <;> subst h <;> decide

theorem mem_signs {c : Char} {t : Tok} : (c, t) ∈ signs ↔ sign c = some t := by
  constructor
  · intro h
    simp only [signs, List.mem_cons, Prod.mk.injEq, List.not_mem_nil, or_false] at h
    rcases h with h | h | h | h | h | h | h | h | h | h | h | h | h | h <;> (obtain ⟨rfl, rfl⟩ := h; rfl)
  · intro h
    unfold sign at h
    split at h <;> first | (cases h; done) | (injection h with h; subst h; decide)

theorem sign_digit {c : Char} {t : Tok} (h : sign c = some t) : c ∉ digits ∧ ¬ (c = ' ' ∨ c = '\t' ∨ c = '\n') := by
  have h := mem_signs.2 h
  simp only [signs, List.mem_cons, Prod.mk.injEq, List.not_mem_nil, or_false] at h
  rcases h with h | h | h | h | h | h | h | h | h | h | h | h | h | h <;> (obtain ⟨rfl, rfl⟩ := h; decide)

theorem space_digit {c : Char} (h : c = ' ' ∨ c = '\t' ∨ c = '\n') : c ∉ digits := by
  rcases h with rfl | rfl | rfl <;> decide

theorem value_snoc (ds : List Char) (c : Char) : value (ds ++ [c]) = 10 * value ds + digits.idxOf c := by
  simp [value, List.foldl_append]

theorem value_mono_snoc (ds : List Char) (c : Char) : value ds ≤ value (ds ++ [c]) := by
  rw [value_snoc]; omega

theorem value_append_le (ds : List Char) : ∀ es : List Char, value ds ≤ value (ds ++ es)
  | [] => by simp
  | c :: es => by
    have h1 := value_mono_snoc ds c
    have h2 := value_append_le (ds ++ [c]) es
    rw [List.append_assoc] at h2
    exact Nat.le_trans h1 h2

/-- One more digit. -/
theorem lex_digit {c : Char} (hc : c ∈ digits) {p : Option Int} {v : Nat} (hp : p.getD 0 = v) (s : List Char) :
    lex p (c :: s) = if ((10 * v + digits.idxOf c : Nat) : Int) ≤ i64Max then lex (some ((10 * v + digits.idxOf c : Nat) : Int)) s else .error .ub := by
  rw [lex, digit_mem hc]
  dsimp only
  rw [hp]
  have hm : -i64Max - 1 ≤ 0 := by decide
  by_cases h : ((10 * v + digits.idxOf c : Nat) : Int) ≤ i64Max
  · rw [if_pos h]
    have e1 : rawMul i64Max v 10 = .ok ((v : Int) * 10) := by
      unfold rawMul rawOut
      exact if_pos ⟨by omega, by omega⟩
    have e2 : rawAdd i64Max ((v : Int) * 10) (digits.idxOf c : Int) = .ok ((10 * v + digits.idxOf c : Nat) : Int) := by
      unfold rawAdd rawOut
      rw [if_pos ⟨by omega, by omega⟩]
      congr 1; omega
    rw [e1, Knapsack.chk_ok_bind, e2, Knapsack.chk_ok_bind]
  · rw [if_neg h]
    unfold rawMul rawOut
    by_cases h1 : InW i64Max ((v : Int) * 10)
    · rw [if_pos h1, Knapsack.chk_ok_bind]
      unfold rawAdd rawOut
      rw [if_neg fun hh => by omega]
      rfl
    · rw [if_neg h1]; rfl

/-- A number ends before something that is not a digit. -/
theorem lex_flush {s : List Char} (hs : ∀ c, s.head? = some c → c ∉ digits) (p : Option Int) : lex p s = (lex none s).map (flush p) := by
  cases s with
  | nil => rw [lex, lex]; rfl
  | cons c s =>
    rw [lex, lex, digit_none (hs c rfl)]
    dsimp only
    split
    · cases lex none s <;> rfl
    · split
      · cases lex none s <;> rfl
      · rfl

/-- The number that the digits `ds` have been read of. -/
def pend (ds : List Char) : Option Int := if ds = [] then none else some (value ds : Int)

theorem pend_getD (ds : List Char) : (pend ds).getD 0 = value ds := by
  unfold pend
  split
  · rename_i h; subst h; rfl
  · rfl

theorem pend_snoc (ds : List Char) (c : Char) : pend (ds ++ [c]) = some ((10 * value ds + digits.idxOf c : Nat) : Int) := by
  unfold pend
  rw [if_neg (by simp), value_snoc]

theorem Lexes.pend {ds s : List Char} {ts : List Tok} (hd : ∀ c ∈ ds, c ∈ digits) (hs : ∀ c, s.head? = some c → c ∉ digits) (h : Lexes s ts) : Lexes (ds ++ s) (flush (pend ds) ts) := by
  unfold Regex.pend
  split
  · rename_i e; subst e; exact h
  · rename_i e; exact .number e hd hs h

/-- A character that has no meaning. -/
def Illegal (c : Char) : Prop := c ∉ digits ∧ ¬ (c = ' ' ∨ c = '\t' ∨ c = '\n') ∧ sign c = none

/-- What splitting a text does: the digits `ds` have been read already. -/
theorem lex_spec : ∀ (s ds : List Char), (∀ c ∈ ds, c ∈ digits) →
    (∃ ts, lex (pend ds) s = .ok ts ∧ Lexes (ds ++ s) ts) ∨
    (lex (pend ds) s = .error .ub ∧ ∃ es, es <:+: ds ++ s ∧ (∀ c ∈ es, c ∈ digits) ∧ i64Max < value es) ∨
    (lex (pend ds) s = .error .invalidProblem ∧ ∃ c ∈ s, Illegal c)
  | [], ds, hd => by
    refine .inl ⟨flush (pend ds) [], by rw [lex], Lexes.pend hd (fun c h => nomatch h) .nil⟩
  | c :: s, ds, hd => by
    by_cases hc : c ∈ digits
    · rw [lex_digit hc (pend_getD ds)]
      have hd' : ∀ x ∈ ds ++ [c], x ∈ digits := fun x hx => by
        rcases List.mem_append.1 hx with hx | hx
        · exact hd x hx
        · cases List.mem_singleton.1 hx; exact hc
      have e : ds ++ c :: s = ds ++ [c] ++ s := by simp
      split
      · rw [← pend_snoc]
        rcases lex_spec s (ds ++ [c]) hd' with ⟨ts, h1, h2⟩ | ⟨h1, h2⟩ | ⟨h1, x, h2, h3⟩
        · exact .inl ⟨ts, h1, e ▸ h2⟩
        · exact .inr (.inl ⟨h1, e ▸ h2⟩)
        · exact .inr (.inr ⟨h1, x, .tail _ h2, h3⟩)
      · rename_i h
        refine .inr (.inl ⟨rfl, ds ++ [c], ⟨[], s, by simp⟩, hd', ?_⟩)
        rw [value_snoc]; omega
    · have hs : ∀ x, (c :: s).head? = some x → x ∉ digits := fun x hx => by cases hx; exact hc
      rw [lex_flush hs]
      have ih := lex_spec s [] (fun _ h => nomatch h)
      rw [show pend [] = none from rfl, List.nil_append] at ih
      have cases' : (∃ g : List Tok → List Tok, lex none (c :: s) = (lex none s).map g ∧ ∀ ts, Lexes s ts → Lexes (c :: s) (g ts)) ∨ (lex none (c :: s) = .error .invalidProblem ∧ Illegal c) := by
        rw [lex, digit_none hc]
        dsimp only
        split
        · rename_i h
          refine .inl ⟨id, by cases lex none s <;> rfl, fun ts ht => .space (by simpa using h) ht⟩
        · rename_i h
          split
          · rename_i t ht
            refine .inl ⟨(t :: ·), by cases lex none s <;> rfl, fun ts h => .sign (mem_signs.2 ht) h⟩
          · rename_i ht
            exact .inr ⟨rfl, hc, h, ht⟩
      rcases cases' with ⟨g, hg, hl⟩ | ⟨hg, hi⟩
      · rw [hg]
        rcases ih with ⟨ts, h1, h2⟩ | ⟨h1, es, h2, h3⟩ | ⟨h1, x, h2, h3⟩
        · rw [h1]
          exact .inl ⟨_, rfl, Lexes.pend hd hs (hl ts h2)⟩
        · rw [h1]
          exact .inr (.inl ⟨rfl, es, h2.trans ⟨ds ++ [c], [], by simp⟩, h3⟩)
        · rw [h1]
          exact .inr (.inr ⟨rfl, x, .tail _ h2, h3⟩)
      · rw [hg]
        exact .inr (.inr ⟨rfl, c, .head _, hi⟩)

theorem Lexes.legal {s : List Char} {ts : List Tok} (h : Lexes s ts) : ∀ c ∈ s, ¬ Illegal c := by
  induction h with
  | nil => exact fun _ h => nomatch h
  | space hc _ ih =>
    intro x hx
    rcases List.mem_cons.1 hx with rfl | hx
    · exact fun h => h.2.1 (by simpa using hc)
    · exact ih x hx
  | sign hc _ ih =>
    intro x hx
    rcases List.mem_cons.1 hx with rfl | hx
    · exact fun h => by have := mem_signs.1 hc; rw [h.2.2] at this; cases this
    · exact ih x hx
  | number _ hd _ _ ih =>
    intro x hx
    rcases List.mem_append.1 hx with hx | hx
    · exact fun h => h.1 (hd x hx)
    · exact ih x hx

theorem lex_digits {s : List Char} : ∀ (es ds : List Char), (∀ c ∈ es, c ∈ digits) → lex (pend ds) (es ++ s) = .error .ub ∨ lex (pend ds) (es ++ s) = lex (pend (ds ++ es)) s
  | [], ds, _ => .inr (by simp)
  | c :: es, ds, h => by
    rw [List.cons_append, lex_digit (h c (.head _)) (pend_getD ds)]
    split
    · rw [← pend_snoc]
      have := lex_digits (s := s) es (ds ++ [c]) fun x hx => h x (.tail _ hx)
      rwa [List.append_assoc] at this
    · exact .inl rfl

/-- There is only one way to split a text. -/
theorem lex_complete {s : List Char} {ts : List Tok} (h : Lexes s ts) : lex none s = .error .ub ∨ lex none s = .ok ts := by
  induction h with
  | nil => exact .inr (by rw [lex]; rfl)
  | @space c s ts hc _ ih =>
    have hc : c = ' ' ∨ c = '\t' ∨ c = '\n' := by simpa using hc
    rw [lex, digit_none (space_digit hc)]
    dsimp only
    rw [if_pos hc]
    rcases ih with h | h <;> rw [h]
    · exact .inl rfl
    · exact .inr rfl
  | @sign c t s ts hc _ ih =>
    have hc := mem_signs.1 hc
    rw [lex, digit_none (sign_digit hc).1]
    dsimp only
    rw [if_neg (sign_digit hc).2, hc]
    rcases ih with h | h <;> rw [h]
    · exact .inl rfl
    · exact .inr rfl
  | @number ds s ts hne hd hs _ ih =>
    rcases lex_digits (s := s) ds [] hd with h | h
    · exact .inl h
    · rw [show pend [] = none from rfl, List.nil_append] at h
      rw [h, lex_flush hs]
      rcases ih with h | h <;> rw [h]
      · exact .inl rfl
      · refine .inr ?_
        unfold pend
        rw [if_neg hne]
        show Except.ok (Tok.num (Int.toNat (value ds : Int)) :: ts) = _
        rw [Int.toNat_natCast]

theorem Lexes.nums {s : List Char} {ts : List Tok} (h : Lexes s ts) : ∀ n, .num n ∈ ts → ∃ es, es <:+: s ∧ (∀ c ∈ es, c ∈ digits) ∧ value es = n := by
  induction h with
  | nil => exact fun _ h => nomatch h
  | @space c s ts _ _ ih =>
    intro n hn
    obtain ⟨es, h1, h2⟩ := ih n hn
    exact ⟨es, h1.trans ⟨[c], [], by simp⟩, h2⟩
  | @sign c t s ts hc _ ih =>
    intro n hn
    rcases List.mem_cons.1 hn with rfl | hn
    · exfalso
      simp [signs] at hc
    · obtain ⟨es, h1, h2⟩ := ih n hn
      exact ⟨es, h1.trans ⟨[c], [], by simp⟩, h2⟩
  | @number ds s ts _ hd _ _ ih =>
    intro n hn
    rcases List.mem_cons.1 hn with h | hn
    · cases h
      exact ⟨ds, ⟨[], s, by simp⟩, hd, rfl⟩
    · obtain ⟨es, h1, h2⟩ := ih n hn
      exact ⟨es, h1.trans ⟨ds, [], by simp⟩, h2⟩

/-! ## Parsing a text -/

theorem follow_end : Follow .expr [] := ⟨fun _ => rfl, rfl, by simp⟩

/-- What parsing does. -/
theorem parse_spec {A : List Int} {s : List Char} {c : Core} (h : parse s A = .ok c) : ∃ e, Writes e s ∧ Means A c e := by
  unfold parse at h
  obtain ⟨ts, h1, h⟩ := bind_ok h
  obtain ⟨⟨c', rest⟩, h2, h⟩ := bind_ok h
  dsimp only at h
  split at h
  · rename_i hr
    subst hr
    cases h
    rcases (parser_spec (A := A) _).1 ts (Nat.le_refl _) with ⟨e, he, _⟩ | ⟨c', rest, e, used, he, hu, hr, hm⟩
    · rw [h2] at he; cases he
    · rw [h2] at he; cases he
      rw [List.append_nil] at hu
      subst hu
      rcases lex_spec s [] (fun _ h => nomatch h) with ⟨ts', h3, h4⟩ | ⟨h3, _⟩ | ⟨h3, _⟩
      · rw [show pend [] = none from rfl, h1] at h3; cases h3
        exact ⟨e, ⟨_, h4, hr⟩, hm⟩
      · rw [show pend [] = none from rfl, h1] at h3; cases h3
      · rw [show pend [] = none from rfl, h1] at h3; cases h3
  · cases h

/-- However a text is understood, parsing it gives that. -/
theorem parse_means {A : List Int} {s : List Char} {c : Core} {e : Expr} (h : parse s A = .ok c) (hw : Writes e s) : Means A c e := by
  obtain ⟨ts, hl, hr⟩ := hw
  unfold parse at h
  obtain ⟨ts', h1, h⟩ := bind_ok h
  rcases lex_complete hl with e' | e'
  · rw [h1] at e'; cases e'
  · rw [h1] at e'; cases e'
    obtain ⟨⟨c', rest⟩, h2, h⟩ := bind_ok h
    dsimp only at h
    split at h
    · cases h
      rcases parser_complete (A := A) hr (4 * ts.length + 4) [] (Nat.le_refl _) follow_end with e' | ⟨r, e', _, hm⟩
      · rw [List.append_nil] at e'
        rw [show parseLevel A .expr = parseExpr A from rfl, h2] at e'; cases e'
      · rw [List.append_nil] at e'
        rw [show parseLevel A .expr = parseExpr A from rfl, h2] at e'; cases e'
        exact hm
    · cases h

/-- If numbers are not too large, parsing a text gives a tree exactly if it is an expression that is written out. Otherwise, the problem is refused. -/
theorem parse_total {A : List Int} {s : List Char} (hs : Small s) : ((∃ c, parse s A = .ok c) ∧ ∃ e, Writes e s) ∨ (parse s A = .error .invalidProblem ∧ ∀ e, ¬ Writes e s) := by
  by_cases hw : ∃ e, Writes e s
  · refine .inl ⟨?_, hw⟩
    obtain ⟨e, ts, hl, hr⟩ := hw
    unfold parse
    rcases lex_spec s [] (fun _ h => nomatch h) with ⟨ts', h3, h4⟩ | ⟨h3, es, h4, h5, h6⟩ | ⟨h3, x, h4, h5⟩
    · rcases lex_complete hl with e' | e'
      · rw [show pend [] = none from rfl, e'] at h3; cases h3
      · rw [e', Knapsack.chk_ok_bind]
        rcases parser_complete (A := A) hr (4 * ts.length + 4) [] (Nat.le_refl _) follow_end with e' | ⟨⟨c, rest⟩, e', rfl, hm⟩
        · exfalso
          rw [List.append_nil] at e'
          rcases (parser_spec (A := A) _).1 ts (Nat.le_refl _) with ⟨e, he, hf⟩ | ⟨c', rest, e, used, he, _⟩
          · rw [show parseExpr A = parseLevel A .expr from rfl, e'] at he; cases he
            rcases hf with hf | ⟨_, n, hn, hn'⟩
            · cases hf
            · obtain ⟨es, g1, g2, g3⟩ := hl.nums n hn
              have := hs es g1 g2
              have e9 : i64Max = 2 ^ 63 - 1 := by decide
              omega
          · rw [show parseExpr A = parseLevel A .expr from rfl, e'] at he; cases he
        · rw [List.append_nil, show parseLevel A .expr = parseExpr A from rfl] at e'
          rw [e', Knapsack.chk_ok_bind]
          exact ⟨c, rfl⟩
    · have := hs es (by simpa using h4) h5
      have e9 : i64Max = 2 ^ 63 - 1 := by decide
      omega
    · exact absurd h5 (hl.legal x h4)
  · refine .inr ⟨?_, fun e h => hw ⟨e, h⟩⟩
    unfold parse
    rcases lex_spec s [] (fun _ h => nomatch h) with ⟨ts', h3, h4⟩ | ⟨h3, es, h4, h5, h6⟩ | ⟨h3, x, h4, h5⟩
    · rw [show pend [] = none from rfl] at h3
      rw [List.nil_append] at h4
      rw [h3, Knapsack.chk_ok_bind]
      rcases (parser_spec (A := A) _).1 ts' (Nat.le_refl _) with ⟨e, he, hf⟩ | ⟨c', rest, e, used, he, hu, hr, _⟩
      · rw [he]
        rcases hf with rfl | ⟨_, n, hn, hn'⟩
        · rfl
        · obtain ⟨es, g1, g2, g3⟩ := h4.nums n hn
          have := hs es g1 g2
          have e9 : i64Max = 2 ^ 63 - 1 := by decide
          omega
      · rw [he, Knapsack.chk_ok_bind]
        dsimp only
        split
        · rename_i hre
          subst hre
          rw [List.append_nil] at hu
          subst hu
          exact absurd ⟨e, _, h4, hr⟩ hw
        · rfl
    · have := hs es (by simpa using h4) h5
      have e9 : i64Max = 2 ^ 63 - 1 := by decide
      omega
    · rw [show pend [] = none from rfl] at h3
      rw [h3]; rfl

end Gcs.Regex
