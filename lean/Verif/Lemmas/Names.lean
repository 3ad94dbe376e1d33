import Verif.Spec.Names

/-! Checking names, and the names in use. -/

namespace Gcs.Names

theorem letter_iff (c : Char) : letter c = c.isAlpha := by
  simp [letter, Char.isAlpha, Char.isUpper, Char.isLower, Char.le_def, UInt32.le_iff_toNat_le, Bool.or_comm]

theorem nameChar_iff (c : Char) : nameChar c = true ↔ c.isAlphanum = true ∨ c ∈ ['[', ']', '_', '-', '{', '}'] := by
  simp [nameChar, letter_iff, Char.isAlphanum, Char.isDigit, Char.le_def, UInt32.le_iff_toNat_le, or_assoc]

theorem matchMany_iff {p : Char → Bool} {rest : List Char → Bool} : ∀ {t : List Char}, matchMany p rest t = true ↔ ∃ a b, t = a ++ b ∧ (∀ c ∈ a, p c = true) ∧ rest b = true
  | [] => by
    simp only [matchMany]
    constructor
    · intro h; exact ⟨[], [], rfl, by simp, h⟩
    · rintro ⟨a, b, h, _, hr⟩
      have := List.append_eq_nil_iff.1 h.symm
      rw [this.2] at hr; exact hr
  | c :: t => by
    simp only [matchMany, Bool.or_eq_true, Bool.and_eq_true]
    constructor
    · rintro (h | ⟨h1, h2⟩)
      · exact ⟨[], _, rfl, by simp, h⟩
      · obtain ⟨a, b, rfl, ha, hb⟩ := matchMany_iff.1 h2
        refine ⟨c :: a, b, rfl, ?_, hb⟩
        intro x hx
        rcases List.mem_cons.1 hx with rfl | hx
        · exact h1
        · exact ha x hx
    · rintro ⟨a, b, h, ha, hb⟩
      cases a with
      | nil => left; rw [List.nil_append] at h; rw [h]; exact hb
      | cons x a =>
        simp only [List.cons_append, List.cons.injEq] at h
        obtain ⟨rfl, rfl⟩ := h
        exact .inr ⟨ha _ (by simp), matchMany_iff.2 ⟨a, b, rfl, fun x hx => ha x (by simp [hx]), hb⟩⟩

theorem allowed_iff {t : List Char} : regexMatch allowed t = true ↔ Shape t := by
  simp only [allowed, regexMatch, matchMany_iff, Shape]
  constructor
  · rintro ⟨us, b, rfl, h1, h2⟩
    cases b with
    | nil => simp [regexMatch] at h2
    | cons c r =>
      simp only [regexMatch, Bool.and_eq_true, matchMany_iff] at h2
      obtain ⟨h2, a, b, rfl, h3, h4⟩ := h2
      have : b = [] := by simpa [regexMatch] using h4
      subst this
      refine ⟨us, c, a, by simp, by simpa using h1, by rw [← letter_iff]; exact h2, fun x hx => (nameChar_iff x).1 (h3 x hx)⟩
  · rintro ⟨us, c, r, rfl, h1, h2, h3⟩
    refine ⟨us, _, rfl, by simpa using h1, ?_⟩
    simp only [regexMatch, Bool.and_eq_true, matchMany_iff]
    exact ⟨by rw [letter_iff]; exact h2, r, [], by simp, fun x hx => (nameChar_iff x).2 (h3 x hx), by simp⟩

/-! ### Brackets -/

theorem Nested.append {a b : List Char} (ha : Nested a) (hb : Nested b) : Nested (a ++ b) := by
  induction ha with
  | nil => exact hb
  | other hc _ ih => exact .other hc ih
  | square h1 _ _ ih => rw [List.cons_append, List.append_assoc]; exact .square h1 ih
  | curly h1 _ _ ih => rw [List.cons_append, List.append_assoc]; exact .curly h1 ih

/-- What has to follow when `stack` is open. -/
inductive Closes : List Char → List Char → Prop
  | done {t : List Char} : Nested t → Closes [] t
  | square {a b stack : List Char} : Nested a → Closes stack b → Closes ('[' :: stack) (a ++ ']' :: b)
  | curly {a b stack : List Char} : Nested a → Closes stack b → Closes ('{' :: stack) (a ++ '}' :: b)

theorem Closes.after {x stack t : List Char} (hx : Nested x) (h : Closes stack t) : Closes stack (x ++ t) := by
  cases h with
  | done h => exact .done (hx.append h)
  | square h1 h2 => rw [← List.append_assoc]; exact .square (hx.append h1) h2
  | curly h1 h2 => rw [← List.append_assoc]; exact .curly (hx.append h1) h2

theorem brackets_closes : ∀ (t stack : List Char), (∀ o ∈ stack, o = '[' ∨ o = '{') → brackets stack t = .ok () → Closes stack t
  | [], [], _, _ => .done .nil
  | [], _ :: _, _, h => by simp [brackets] at h
  | c :: t, stack, hs, h => by
    unfold brackets at h
    split at h
    · rename_i hc
      have hc : c = '[' ∨ c = '{' := by simpa using hc
      have := brackets_closes t (c :: stack) (by
        intro o ho
        rcases List.mem_cons.1 ho with rfl | ho
        · exact hc
        · exact hs o ho) h
      cases this with
      | square h1 h2 => exact Closes.after (x := '[' :: (_ ++ [']'])) (.square h1 .nil) h2 |> fun h => by simpa using h
      | curly h1 h2 => exact Closes.after (x := '{' :: (_ ++ ['}'])) (.curly h1 .nil) h2 |> fun h => by simpa using h
    · rename_i hc
      split at h
      · rename_i hc2
        have hc2 : c = ']' ∨ c = '}' := by simpa using hc2
        cases stack with
        | nil => cases h
        | cons o stack =>
          simp only at h
          split at h
          · cases h
          · rename_i hm
            have := brackets_closes t stack (fun o ho => hs o (by simp [ho])) h
            rcases hc2 with rfl | rfl
            · have : o = '[' := by simpa using hm
              subst this; exact Closes.square .nil ‹_›
            · have : o = '{' := by simpa using hm
              subst this; exact Closes.curly .nil ‹_›
      · rename_i hc2
        have := brackets_closes t stack hs h
        refine Closes.after (x := [c]) (.other ?_ .nil) this
        simp at hc hc2 ⊢
        exact ⟨hc.1, hc2.1, hc.2, hc2.2⟩
  termination_by t => t.length

theorem brackets_nested {a : List Char} (h : Nested a) : ∀ (stack b : List Char), brackets stack (a ++ b) = brackets stack b := by
  induction h with
  | nil => intro stack b; rfl
  | @other c t hc _ ih =>
    intro stack b
    simp at hc
    rw [List.cons_append, brackets.eq_def]
    simp [hc, ih]
  | @square a b' _ _ ih1 ih2 =>
    intro stack b
    simp only [List.cons_append, List.append_assoc]
    rw [brackets.eq_def]
    simp only [decide_true, Bool.true_or, if_true]
    rw [ih1, brackets.eq_def]
    simp [ih2]
  | @curly a b' _ _ ih1 ih2 =>
    intro stack b
    simp only [List.cons_append, List.append_assoc]
    rw [brackets.eq_def]
    simp only [decide_true, Bool.or_true, if_true]
    rw [ih1, brackets.eq_def]
    simp [ih2]

theorem brackets_iff {t : List Char} : brackets [] t = .ok () ↔ Nested t := by
  constructor
  · intro h
    cases brackets_closes t [] (by simp) h with
    | done h => exact h
  · intro h
    have := brackets_nested h [] []
    rw [List.append_nil] at this
    rw [this]; rfl

theorem checkName_ok {names r : List (List Char)} {t : List Char} (h : checkName names t = .ok r) : Good t ∧ t ∉ names ∧ r = t :: names := by
  unfold checkName at h
  split at h
  · cases h
  · rename_i h1
    split at h
    · cases h
    · rename_i h2
      split at h
      · cases h
      · rename_i h3
        cases h
        exact ⟨⟨allowed_iff.1 (by simpa using h1), brackets_iff.1 h2⟩, h3, rfl⟩

theorem checkName_good {names : List (List Char)} {t : List Char} (h : Good t) (hn : t ∉ names) : checkName names t = .ok (t :: names) := by
  unfold checkName
  rw [if_neg (by rw [allowed_iff.2 h.1]; decide), brackets_iff.2 h.2]
  simp only
  rw [if_neg hn]

/-! ### Numbers -/

theorem toDigits_inj {n m : Nat} (h : Nat.toDigits 10 n = Nat.toDigits 10 m) : n = m := by
  rw [← @Nat.ofDigitChars_ten_toDigits n, h, Nat.ofDigitChars_ten_toDigits]

theorem numberName_inj {n m : Nat} (h : numberName n = numberName m) : n = m := toDigits_inj (List.cons.inj h).2

/-- A number is not a name. -/
theorem not_shape_number (n : Nat) : ¬ Shape (numberName n) := by
  rintro ⟨us, c, r, h, hu, hc, _⟩
  have hmem : c ∈ numberName n := by rw [h]; simp
  rcases List.mem_cons.1 hmem with rfl | hm
  · exact absurd hc (by decide)
  · have := Nat.isDigit_of_mem_toDigits (by decide) (by decide) hm
    simp [Char.isAlpha, Char.isUpper, Char.isLower, Char.isDigit, UInt32.le_iff_toNat_le] at this hc
    omega

/-! ### The names in use -/

/-- How they are related. -/
structure Inv (s : Imp) : Prop where
  vars : s.vars.length < 2 ^ 64 → s.nextAnon ≤ s.vars.length ∧ (∀ n, numberName n ∈ s.vars → n ≤ s.nextAnon) ∧ s.vars.Nodup
  cons : s.cons.length < 2 ^ 64 → s.nextCon ≤ s.cons.length ∧ (∀ n, .numbered n ∈ s.cons → n ≤ s.nextCon) ∧ s.cons.Nodup
  kinds : ∀ v ∈ s.vars, v ∈ s.names ∨ ∃ n, v = numberName n
  names : ∀ t, t ∈ s.names ↔ Good t ∧ (t ∈ s.vars ∨ .named t ∈ s.cons)
  good : ∀ t, .named t ∈ s.cons → Good t
  apart : ∀ t ∈ s.vars, .named t ∉ s.cons

theorem Inv.init : Inv {} := ⟨by simp, by simp, by simp, by simp, by simp, by simp⟩

theorem nodup_snoc {α : Type} {l : List α} {x : α} (h : l.Nodup) (hx : x ∉ l) : (l ++ [x]).Nodup := by
  rw [List.nodup_append]
  exact ⟨h, by simp, by rintro a ha b hb rfl; simp at hb; exact hx (hb ▸ ha)⟩

theorem Inv.addVariable {s : Imp} (h : Inv s) : ∀ name, Inv (addVariable s name).1
  | none => by
    refine ⟨fun hl => ?_, h.cons, fun v hv => ?_, fun t => ?_, h.good, fun t ht => ?_⟩
    · simp [Names.addVariable] at hl ⊢
      obtain ⟨h1, h2, h3⟩ := h.vars (by omega)
      have e : next s.nextAnon = s.nextAnon + 1 := Nat.mod_eq_of_lt (by omega)
      refine ⟨by omega, ?_, nodup_snoc h3 fun hm => ?_⟩
      · rintro n (hn | hn)
        · have := h2 n hn; omega
        · have := numberName_inj hn; omega
      · have := h2 _ hm; omega
    · simp [Names.addVariable] at hv ⊢
      rcases hv with hv | rfl
      · exact h.kinds v hv
      · exact .inr ⟨_, rfl⟩
    · simp [Names.addVariable]
      rw [h.names t]
      refine and_congr_right fun hg => ?_
      have : t ≠ numberName (next s.nextAnon) := fun e => not_shape_number _ (e ▸ hg.1)
      simp [this]
    · simp [Names.addVariable] at ht ⊢
      rcases ht with ht | rfl
      · exact h.apart t ht
      · exact fun hm => not_shape_number _ (h.good _ hm).1
  | some name => by
    unfold Names.addVariable
    simp only
    split
    · exact ⟨h.vars, h.cons, h.kinds, h.names, h.good, h.apart⟩
    · rename_i r hr
      obtain ⟨hg, hn, rfl⟩ := checkName_ok hr
      have hv : name ∉ s.vars := fun hv => hn ((h.names name).2 ⟨hg, .inl hv⟩)
      refine ⟨fun hl => ?_, h.cons, fun v hv => ?_, fun t => ?_, h.good, fun t ht => ?_⟩
      · simp at hl ⊢
        obtain ⟨h1, h2, h3⟩ := h.vars (by omega)
        refine ⟨by omega, ?_, nodup_snoc h3 hv⟩
        rintro n (hn | hn)
        · exact h2 n hn
        · exact absurd (hn ▸ hg.1) (not_shape_number n)
      · simp at hv ⊢
        rcases hv with hv | rfl
        · rcases h.kinds v hv with h | h
          · exact .inl (.inr h)
          · exact .inr h
        · exact .inl (.inl rfl)
      · simp
        rw [h.names t]
        constructor
        · rintro (rfl | ⟨h1, h2⟩)
          · exact ⟨hg, .inl (.inr rfl)⟩
          · rcases h2 with h2 | h2
            · exact ⟨h1, .inl (.inl h2)⟩
            · exact ⟨h1, .inr h2⟩
        · rintro ⟨h1, (h2 | h2) | h2⟩
          · exact .inr ⟨h1, .inl h2⟩
          · exact .inl h2
          · exact .inr ⟨h1, .inr h2⟩
      · simp at ht ⊢
        rcases ht with ht | rfl
        · exact h.apart t ht
        · exact fun hm => hn ((h.names _).2 ⟨hg, .inr hm⟩)

theorem Inv.post {s : Imp} (h : Inv s) : Inv (post s).1 := by
  refine ⟨h.vars, fun hl => ?_, h.kinds, fun t => ?_, fun t ht => h.good t ?_, fun t ht => ?_⟩
  · simp [Names.post] at hl ⊢
    obtain ⟨h1, h2, h3⟩ := h.cons (by omega)
    have e : next s.nextCon = s.nextCon + 1 := Nat.mod_eq_of_lt (by omega)
    refine ⟨by omega, ?_, nodup_snoc h3 fun hm => ?_⟩
    · rintro n (hn | hn)
      · have := h2 n hn; omega
      · omega
    · have := h2 _ hm; omega
  · simp [Names.post]; exact h.names t
  · simpa [Names.post] using ht
  · simpa [Names.post] using h.apart t ht

theorem Inv.postNamed {s : Imp} (h : Inv s) (name : List Char) : Inv (postNamed s name).1 := by
  unfold Names.postNamed
  split
  · exact h
  · rename_i r hr
    obtain ⟨hg, hn, rfl⟩ := checkName_ok hr
    have hc : .named name ∉ s.cons := fun hv => hn ((h.names name).2 ⟨hg, .inr hv⟩)
    refine ⟨h.vars, fun hl => ?_, fun v hv => ?_, fun t => ?_, fun t ht => ?_, fun t ht => ?_⟩
    · simp at hl ⊢
      obtain ⟨h1, h2, h3⟩ := h.cons (by omega)
      exact ⟨by omega, h2, nodup_snoc h3 hc⟩
    · simp
      rcases h.kinds v hv with h | h
      · exact .inl (.inr h)
      · exact .inr h
    · simp
      rw [h.names t]
      constructor
      · rintro (rfl | ⟨h1, h2⟩)
        · exact ⟨hg, .inr (.inr rfl)⟩
        · rcases h2 with h2 | h2
          · exact ⟨h1, .inl h2⟩
          · exact ⟨h1, .inr (.inl h2)⟩
      · rintro ⟨h1, h2 | h2 | h2⟩
        · exact .inr ⟨h1, .inl h2⟩
        · exact .inr ⟨h1, .inr h2⟩
        · exact .inl h2
    · simp at ht
      rcases ht with ht | rfl
      · exact h.good t ht
      · exact hg
    · simp
      refine ⟨h.apart t ht, ?_⟩
      rintro rfl
      exact hn ((h.names _).2 ⟨hg, .inl ht⟩)

theorem Inv.createVariable {s : Imp} (h : Inv s) (l u : Int) (name : Option (List Char)) : Inv (createVariable s l u name).1 := by
  unfold Names.createVariable
  split
  · exact h
  · exact h.addVariable name

theorem Inv.createVector {l u : Int} {name : Option (List Char)} : ∀ (left n : Nat) {s : Imp}, Inv s → Inv (createVector s l u name n left).1
  | 0, _, _, h => h
  | left + 1, n, s, h => by
    unfold Names.createVector
    have := h.createVariable l u (name.map fun t => t ++ '[' :: (Nat.toDigits 10 n ++ [']']))
    split
    · rename_i e he; rw [he] at this; exact this
    · rename_i he; rw [he] at this; exact Inv.createVector left (n + 1) this

theorem Inv.call {s : Imp} (h : Inv s) : ∀ c, Inv (call s c).1
  | .variable l u name => h.createVariable l u name
  | .variableOf d name => by
    show Inv (createVariableOf s d name).1
    unfold createVariableOf
    split
    · exact h
    · have := h.addVariable name
      split
      · rename_i e he; rw [he] at this; exact this
      · rename_i he; rw [he] at this; exact this.post
  | .vector k l u name => Inv.createVector k 0 h
  | .post => h.post
  | .postNamed name => h.postNamed name
  | .postAutonumbered n => by
    show Inv (postAutonumbered s n).1
    unfold postAutonumbered
    split
    · exact h
    · exact h.post

theorem Inv.history : ∀ (cs : List Call) {s : Imp}, Inv s → Inv (history s cs)
  | [], _, h => h
  | c :: cs, _, h => Inv.history cs (h.call c)

end Gcs.Names
