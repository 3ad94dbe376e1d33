import Verif.Spec.SExpr

/-! Reading and writing s-expressions. -/

namespace Gcs.SExpr

theorem isSpace_iff (c : Char) : isSpace c = true ↔ c ∈ [' ', '\t', '\n', '\r', '\x0c', '\x0b'] := by simp [isSpace]

theorem isAtomChar_iff (c : Char) : isAtomChar c = true ↔ Inside c := by
  simp [isAtomChar, isSpace, Inside, and_assoc]

theorem skip_spec : ∀ t : List Char, ∃ ws, Blank ws ∧ t = ws ++ skip t ∧ ∀ c r, skip t = c :: r → isSpace c = false
  | [] => ⟨[], by simp [Blank], rfl, by simp [skip]⟩
  | c :: t => by
    unfold skip
    split
    · rename_i h
      obtain ⟨ws, h1, h2, h3⟩ := skip_spec t
      exact ⟨c :: ws, fun c' hc => by
        rcases List.mem_cons.1 hc with rfl | hc
        · exact (isSpace_iff _).1 h
        · exact h1 c' hc, by rw [List.cons_append, ← h2], h3⟩
    · rename_i h
      refine ⟨[], by simp [Blank], rfl, ?_⟩
      rintro c' r e; cases e; simpa using h

theorem skip_blank {ws t : List Char} (h : Blank ws) : skip (ws ++ t) = skip t := by
  induction ws with
  | nil => rfl
  | cons c ws ih =>
    have := (isSpace_iff c).2 (h c (by simp))
    simp only [List.cons_append, skip, this, if_true]
    exact ih fun c hc => h c (by simp [hc])

theorem skip_self {t : List Char} (h : ∀ c r, t = c :: r → isSpace c = false) : skip t = t := by
  cases t with
  | nil => rfl
  | cons c t => simp [skip, h c t rfl]

theorem skip_blank_nil {ws : List Char} (h : Blank ws) : skip ws = [] := by
  have := skip_blank (t := []) h
  simpa [skip] using this

theorem takeAtom_spec : ∀ t : List Char, t = (takeAtom t).1 ++ (takeAtom t).2 ∧ (∀ c ∈ (takeAtom t).1, Inside c) ∧ ∀ c r, (takeAtom t).2 = c :: r → ¬ Inside c
  | [] => ⟨rfl, by simp [takeAtom], by simp [takeAtom]⟩
  | c :: t => by
    unfold takeAtom
    split
    · rename_i h
      obtain ⟨h1, h2, h3⟩ := takeAtom_spec t
      exact ⟨by simp [← h1], by simpa using ⟨(isAtomChar_iff c).1 h, h2⟩, h3⟩
    · rename_i h
      exact ⟨rfl, by simp, fun c' r e => by cases e; exact fun hi => h ((isAtomChar_iff c).2 hi)⟩

theorem takeAtom_append {a r : List Char} (ha : ∀ c ∈ a, Inside c) (hr : ∀ c r', r = c :: r' → ¬ Inside c) : takeAtom (a ++ r) = (a, r) := by
  induction a with
  | nil =>
    cases r with
    | nil => rfl
    | cons c r =>
      have : isAtomChar c = false := by
        have := hr c r rfl
        rw [← isAtomChar_iff] at this; simpa using this
      simp [takeAtom, this]
  | cons c a ih =>
    have := (isAtomChar_iff c).2 (ha c (by simp))
    simp only [List.cons_append, takeAtom, this, if_true]
    rw [ih fun c hc => ha c (by simp [hc])]

/-! ### What is read is there -/

/-- The end of an atom. -/
def Ends (e : SExpr) (r : List Char) : Prop := (∃ a, e = .atom a) → ∀ c r', r = c :: r' → ¬ Inside c

theorem Text.ne_nil {t : List Char} {e : SExpr} (h : Text t e) : t ≠ [] := by
  cases h with
  | atom h => exact h.1
  | list _ => simp

/-- Putting one more term at the end of a list that is being read. -/
inductive Pre : List Char → List SExpr → Prop
  | nil : Pre [] []
  | snoc {p ws t : List Char} {es : List SExpr} {e : SExpr} : Pre p es → Blank ws → Text t e → (∀ e', es.getLast? = some e' → Ends e' (ws ++ t)) → Pre (p ++ (ws ++ t)) (es ++ [e])

/-- A list of terms, and more terms after it. -/
theorem Texts.pre {p : List Char} {es : List SExpr} (hp : Pre p es) : ∀ {rest : List Char} {fs : List SExpr}, Texts rest fs → (∀ e', es.getLast? = some e' → Ends e' rest) → Texts (p ++ rest) (es ++ fs) := by
  induction hp with
  | nil => intro rest fs h _; exact h
  | @snoc p ws t es e hp hw ht he ih =>
    intro rest fs h hl
    have hl := hl e (by simp)
    have := ih (rest := ws ++ t ++ rest) (fs := e :: fs) (.cons hw ht h hl) fun e' he' ha c r' hc => ?_
    · simpa [List.append_assoc] using this
    · have nn : ws ++ t ≠ [] := by simp [ht.ne_nil]
      obtain ⟨c', r'', hcr⟩ : ∃ c' r'', ws ++ t = c' :: r'' := by
        cases h' : ws ++ t with
        | nil => exact absurd h' nn
        | cons c' r'' => exact ⟨_, _, rfl⟩
      rw [hcr, List.cons_append] at hc
      cases hc
      exact he e' he' ha _ _ hcr

theorem read_right : ∀ f : Nat,
    (∀ t e r, readOne f t = .ok (e, r) → ∃ ws x, t = ws ++ x ++ r ∧ Blank ws ∧ Text x e ∧ Ends e r) ∧
    (∀ (t : List Char) (es : List SExpr) e r, readChildren f es t = .ok (e, r) → ∀ p, Pre p es → (∀ e', es.getLast? = some e' → Ends e' t) → ∃ x, t = x ++ [')'] ++ r ∧ ∃ fs, e = .list fs ∧ Texts (p ++ x) fs)
  | 0 => ⟨by intro t e r h; simp [readOne] at h, by intro t es e r h; simp [readChildren] at h⟩
  | f + 1 => by
    obtain ⟨ih1, ih2⟩ := read_right f
    refine ⟨fun t e r h => ?_, fun t es e r h p hp hl => ?_⟩
    · obtain ⟨ws, h1, h2, h3⟩ := skip_spec t
      unfold readOne at h
      split at h
      · cases h
      · rename_i c q hq
        split at h
        · cases h
        · rename_i hc
          split at h
          · rename_i ho
            obtain ⟨x, hx, fs, rfl, ht⟩ := ih2 _ _ _ _ h [] .nil (by simp)
            refine ⟨ws, '(' :: (x ++ [')']), ?_, h1, .list ht, by rintro ⟨a, e⟩; cases e⟩
            rw [h2, hq, ho, hx]; simp
          · rename_i ho
            cases h
            obtain ⟨h4, h5, h6⟩ := takeAtom_spec (c :: q)
            refine ⟨ws, _, ?_, h1, .atom ⟨?_, h5⟩, fun _ => h6⟩
            · rw [List.append_assoc, ← h4, ← hq, ← h2]
            · have : isAtomChar c = true := by simp [isAtomChar, h3 c q hq, hc, ho]
              simp [takeAtom, this]
    · obtain ⟨ws, h1, h2, h3⟩ := skip_spec t
      unfold readChildren at h
      split at h
      · cases h
      · rename_i c q hq
        split at h
        · rename_i hc
          cases h
          refine ⟨ws, by rw [h2, hq, hc]; simp, es, rfl, ?_⟩
          have := Texts.pre hp (.nil h1) fun e' he' ha c r' hr => hl e' he' ha c (r' ++ skip t) (by rw [← List.cons_append, ← hr]; exact h2)
          simpa using this
        · split at h
          · rename_i e1 r1 h4
            obtain ⟨ws1, x1, e2, b2, t2, s2⟩ := ih1 _ _ _ h4
            have pre := Pre.snoc (ws := ws ++ ws1) (t := x1) hp (by
              intro c hc
              rcases List.mem_append.1 hc with hc | hc
              · exact h1 c hc
              · exact b2 c hc) t2 fun e' he' ha c r' hr => hl e' he' ha c (r' ++ r1) (by rw [h2, hq, e2, ← List.cons_append, ← hr]; simp)
            obtain ⟨x, e3, fs, rfl, t3⟩ := ih2 _ _ _ _ h _ pre (by simpa using s2)
            refine ⟨ws ++ ws1 ++ x1 ++ x, ?_, fs, rfl, ?_⟩
            · rw [h2, hq, e2, e3]; simp
            · simpa [List.append_assoc] using t3
          · cases h

theorem readOne_shorter {f : Nat} {t r : List Char} {e : SExpr} (h : readOne f t = .ok (e, r)) : r.length < t.length := by
  obtain ⟨ws, x, e1, _, ht, _⟩ := (read_right f).1 t e r h
  have := List.length_pos_iff.2 ht.ne_nil
  rw [e1]; simp; omega

theorem skip_length (t : List Char) : (skip t).length ≤ t.length := by
  obtain ⟨ws, _, h, _⟩ := skip_spec t
  have := congrArg List.length h
  simp at this; omega

/-! ### The bound is not reached -/

theorem read_total : ∀ f : Nat, (∀ t, 2 * t.length + 2 ≤ f → readOne f t ≠ .error .diverge) ∧ (∀ t es, 2 * t.length + 3 ≤ f → readChildren f es t ≠ .error .diverge)
  | 0 => ⟨fun t h => by omega, fun t es h => by omega⟩
  | f + 1 => by
    obtain ⟨ih1, ih2⟩ := read_total f
    refine ⟨fun t hf => ?_, fun t es hf => ?_⟩
    · have hl := skip_length t
      unfold readOne
      split
      · simp
      · rename_i c q hq
        rw [hq] at hl; simp at hl
        split
        · simp
        · split
          · exact ih2 _ _ (by omega)
          · simp
    · have hl := skip_length t
      unfold readChildren
      split
      · simp
      · rename_i c q hq
        rw [hq] at hl
        split
        · simp
        · have h1 := ih1 (c :: q) (by omega)
          split
          · rename_i e r hr
            have := readOne_shorter hr
            exact ih2 _ _ (by omega)
          · rename_i e he
            intro h; cases h; exact h1 he

/-! ### What is there is read -/

theorem Text.head {t : List Char} {e : SExpr} (h : Text t e) : ∃ c r, t = c :: r ∧ isSpace c = false ∧ c ≠ ')' := by
  cases h with
  | atom h =>
    obtain ⟨h1, h2⟩ := h
    cases t with
    | nil => exact absurd rfl h1
    | cons c r =>
      have := h2 c (by simp)
      have h3 := (isAtomChar_iff c).2 this
      simp [isAtomChar] at h3
      exact ⟨c, r, rfl, h3.1.1, h3.2⟩
  | list h => exact ⟨'(', _, rfl, by decide, by decide⟩

theorem skip_text {ws t r : List Char} {e : SExpr} (hw : Blank ws) (h : Text t e) : skip (ws ++ t ++ r) = t ++ r := by
  obtain ⟨c, q, rfl, hc, _⟩ := h.head
  rw [List.append_assoc, skip_blank hw]
  simp [skip, hc]

mutual
theorem readOne_complete : ∀ {t : List Char} {e : SExpr}, Text t e → ∀ (f : Nat) (ws r : List Char), Blank ws → Ends e r → 2 * (ws ++ t ++ r).length + 2 ≤ f → readOne f (ws ++ t ++ r) = .ok (e, r)
  | t, _, .atom h, f + 1, ws, r, hw, he, _ => by
    unfold readOne
    rw [skip_text hw (.atom h)]
    obtain ⟨h1, h2⟩ := h
    have hr := he ⟨_, rfl⟩
    have ta := takeAtom_append h2 hr
    cases t with
    | nil => exact absurd rfl h1
    | cons c q =>
      have := h2 c (by simp)
      simp only [List.cons_append] at ta ⊢
      rw [if_neg (by rintro rfl; exact this (by decide)), if_neg (by rintro rfl; exact this (by decide)), ta]
  | _, _, .list (t := t) (es := es) h, f + 1, ws, r, hw, _, hf => by
    unfold readOne
    rw [skip_text hw (.list h)]
    simp only [List.cons_append]
    rw [if_neg (by decide), if_pos trivial, List.append_assoc]
    have := readChildren_complete h f [] r (by simp at hf ⊢; omega)
    simpa using this
  | _, _, .atom _, 0, _, _, _, _, hf => by omega
  | _, _, .list _, 0, _, _, _, _, hf => by omega
  termination_by structural _ _ h => h

theorem readChildren_complete : ∀ {t : List Char} {es : List SExpr}, Texts t es → ∀ (f : Nat) (before : List SExpr) (r : List Char), 2 * (t ++ ')' :: r).length + 3 ≤ f →
    readChildren f before (t ++ ')' :: r) = .ok (.list (before ++ es), r)
  | t, _, .nil h, f + 1, before, r, _ => by
    unfold readChildren
    rw [skip_blank h, skip_self (by rintro c q e; cases e; decide)]
    simp
  | _, _, .cons (ws := ws) (t := t) (rest := rest) (e := e) (es := es) hw ht hr he, f + 1, before, r, hf => by
    unfold readChildren
    have e0 : ws ++ t ++ rest ++ ')' :: r = ws ++ t ++ (rest ++ ')' :: r) := by simp
    rw [e0, skip_text hw ht]
    obtain ⟨c, q, hc1, hc2, hc3⟩ := ht.head
    have one := readOne_complete ht f [] (rest ++ ')' :: r) (by simp [Blank]) (fun ha c r' h => ?_) (by simp at hf ⊢; omega)
    · have pos := List.length_pos_iff.2 ht.ne_nil
      have more := readChildren_complete hr f (before ++ [e]) r (by simp at hf ⊢; omega)
      rw [List.nil_append] at one
      subst hc1
      simp only [List.cons_append] at one ⊢
      rw [if_neg hc3, one]
      simp only
      rw [more]; simp
    · cases rest with
      | nil =>
        cases h
        simp [Inside]
      | cons c' q' =>
        cases h
        exact he ha _ _ rfl
  | _, _, .nil _, 0, _, _, hf => by omega
  | _, _, .cons .., 0, _, _, hf => by omega
  termination_by structural _ _ h => h
end

end Gcs.SExpr

namespace Gcs.SExpr

/-! ### The whole text -/

theorem readAll_right : ∀ (f : Nat) (t : List Char) (es fs : List SExpr), readAll f es t = .ok fs → ∀ p, Pre p es → (∀ e', es.getLast? = some e' → Ends e' t) → Texts (p ++ t) fs
  | 0, _, _, _, h, _, _, _ => by simp [readAll] at h
  | f + 1, t, es, fs, h, p, hp, hl => by
    obtain ⟨ws, h1, h2, h3⟩ := skip_spec t
    unfold readAll at h
    split at h
    · rename_i hq
      cases h
      rw [hq, List.append_nil] at h2
      rw [h2] at hl ⊢
      simpa using Texts.pre hp (.nil h1) hl
    · rename_i c q hq
      split at h
      · rename_i e1 r1 h4
        obtain ⟨ws1, x1, e2, b2, t2, s2⟩ := (read_right _).1 _ _ _ h4
        have pre := Pre.snoc (ws := ws ++ ws1) (t := x1) hp (by
          intro c hc
          rcases List.mem_append.1 hc with hc | hc
          · exact h1 c hc
          · exact b2 c hc) t2 fun e' he' ha c r' hr => hl e' he' ha c (r' ++ r1) (by rw [h2, hq, e2, ← List.cons_append, ← hr]; simp)
        have := readAll_right f _ _ _ h _ pre (by simpa using s2)
        have e3 : t = ws ++ ws1 ++ x1 ++ r1 := by rw [h2, hq, e2]; simp
        rw [e3]; simpa [List.append_assoc] using this
      · cases h

theorem readAll_complete : ∀ (f : Nat) {t : List Char} {es : List SExpr}, Texts t es → t.length + 1 ≤ f → ∀ before, readAll f before t = .ok (before ++ es)
  | 0, _, _, _, hf, _ => by omega
  | f + 1, _, _, .nil h, _, before => by
    unfold readAll
    rw [skip_blank_nil h]; simp
  | f + 1, _, _, .cons (ws := ws) (t := t) (rest := rest) (e := e) (es := es) hw ht hr he, hf, before => by
    unfold readAll
    rw [skip_text hw ht]
    obtain ⟨c, q, rfl, hc2, hc3⟩ := ht.head
    have one := readOne_complete ht (2 * (c :: q ++ rest).length + 2) [] rest (by simp [Blank]) he (by simp)
    have more := readAll_complete f hr (by simp at hf; omega) (before ++ [e])
    simp only [List.nil_append, List.cons_append] at one ⊢
    rw [one]
    simp only
    rw [more]; simp

theorem readAll_total : ∀ (f : Nat) (t : List Char), t.length + 1 ≤ f → ∀ before, readAll f before t ≠ .error .diverge
  | 0, _, hf, _ => by omega
  | f + 1, t, hf, before => by
    unfold readAll
    have hl := skip_length t
    split
    · simp
    · rename_i c q hq
      rw [hq] at hl
      split
      · rename_i e r h
        have := readOne_shorter h
        exact readAll_total f r (by omega) _
      · rename_i e h
        intro h'; cases h'
        exact (read_total _).1 _ (Nat.le_refl _) h

/-! ### What is written -/

theorem format_text : ∀ {e : SExpr}, Proper e → Text (format e) e ∧ ∀ es, e = .list es → ∀ first, Texts (formatAll first es) es := by
  intro e h
  induction h with
  | atom h => exact ⟨.atom h, by intro es e; cases e⟩
  | @list es h ih =>
    have all : ∀ (l : List SExpr), (∀ e ∈ l, e ∈ es) → ∀ first, Texts (formatAll first l) l := by
      intro l
      induction l with
      | nil => intro _ first; exact .nil (by simp [Blank, formatAll])
      | cons e l il =>
        intro hl first
        refine Texts.cons (ws := if first then [] else [' ']) (by cases first <;> simp [Blank]) (ih e (hl e (by simp))).1 (il (fun e he => hl e (by simp [he])) false) ?_
        rintro _ c r hc
        cases l with
        | nil => cases hc
        | cons e' l =>
          simp [formatAll] at hc
          rw [← hc.1]; simp [Inside]
    exact ⟨.list (all es (fun _ h => h) true), by intro fs e; cases e; exact all es fun _ h => h⟩

theorem Text.proper : ∀ {t : List Char} {e : SExpr}, Text t e → Proper e := by
  intro t e h
  refine Text.rec (motive_1 := fun _ e _ => Proper e) (motive_2 := fun _ es _ => ∀ e ∈ es, Proper e) ?_ ?_ ?_ ?_ h
  · intro a h; exact .atom h
  · intro t es _ ih; exact .list ih
  · simp
  · intro ws t rest e es _ _ _ _ ih1 ih2 e' he
    rcases List.mem_cons.1 he with rfl | he
    · exact ih1
    · exact ih2 _ he

end Gcs.SExpr
