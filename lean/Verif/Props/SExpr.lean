import Verif.Lemmas.SExpr

/-!
# S-expressions (C45)

The grammar `Text`/`Texts` is in `Spec/SExpr.lean`. `SExpr::atom` takes any string. One that is empty, or has white space or a parenthesis in it, is not read back as it was
(`round_trip_wrong`, `round_trip_other`): the round trip is proved for proper atoms.
-/

namespace Gcs.SExpr

/-- C45: exactly the well formed texts are accepted, each as what it stands for. -/
theorem parse_iff {text : List Char} {e : SExpr} : parse text = .ok e ↔ ∃ ws t ws', text = ws ++ t ++ ws' ∧ Blank ws ∧ Blank ws' ∧ Text t e := by
  constructor
  · intro h
    obtain ⟨ws, h1, h2, h3⟩ := skip_spec text
    unfold parse at h
    split at h
    · cases h
    · rename_i t hn
      split at h
      · rename_i e' r h4
        split at h
        · rename_i hr
          cases h
          obtain ⟨ws1, x, e1, b1, t1, _⟩ := (read_right _).1 _ _ _ h4
          obtain ⟨ws2, b2, e2, _⟩ := skip_spec r
          rw [hr, List.append_nil] at e2
          refine ⟨ws ++ ws1, x, r, by rw [h2, e1]; simp, ?_, e2 ▸ b2, t1⟩
          intro c hc
          rcases List.mem_append.1 hc with hc | hc
          · exact h1 c hc
          · exact b1 c hc
        · cases h
      · cases h
  · rintro ⟨ws, t, ws', rfl, h1, h2, h3⟩
    unfold parse
    rw [skip_text h1 h3]
    obtain ⟨c, q, hc, _⟩ := h3.head
    have hb : Ends e ws' := by
      rintro _ c r rfl hi
      have := h2 c (by simp)
      simp [Inside] at hi this
      rcases this with h | h | h | h | h | h <;> simp [h] at hi
    have one := readOne_complete h3 (2 * (t ++ ws').length + 2) [] ws' (by simp [Blank]) hb (by simp)
    rw [List.nil_append] at one
    subst hc
    simp only [List.cons_append] at one ⊢
    rw [one]
    simp only
    rw [skip_blank_nil h2, if_pos rfl]

/-- C45: anything else is refused, after finitely many steps. -/
theorem parse_refuses {text : List Char} (h : ¬ ∃ ws t ws' e, text = ws ++ t ++ ws' ∧ Blank ws ∧ Blank ws' ∧ Text t e) : ∃ err, parse text = .error err ∧ err ≠ .diverge := by
  cases hp : parse text with
  | ok e =>
    obtain ⟨ws, t, ws', h'⟩ := parse_iff.1 hp
    exact absurd ⟨ws, t, ws', e, h'⟩ h
  | error err =>
    refine ⟨err, rfl, ?_⟩
    rintro rfl
    unfold parse at hp
    split at hp
    · cases hp
    · split at hp
      · split at hp <;> cases hp
      · rename_i e he
        cases hp
        exact (read_total _).1 _ (Nat.le_refl _) he

/-- C45: the same for a sequence of terms. -/
theorem parseSeq_iff {text : List Char} {es : List SExpr} : parseSeq text = .ok es ↔ Texts text es := by
  constructor
  · intro h
    simpa using readAll_right _ _ _ _ h [] .nil (by simp)
  · intro h
    exact readAll_complete _ h (Nat.le_refl _) []

/-- C45: no text stands for two expressions. -/
theorem text_unique {t : List Char} {e e' : SExpr} (h : Text t e) (h' : Text t e') : e = e' := by
  have h1 := (parse_iff (text := t)).2 ⟨[], t, [], by simp, by simp [Blank], by simp [Blank], h⟩
  have h2 := (parse_iff (text := t)).2 ⟨[], t, [], by simp, by simp [Blank], by simp [Blank], h'⟩
  rw [h1] at h2; cases h2; rfl

/-- C45: what is printed is read back. -/
theorem round_trip {e : SExpr} (h : Proper e) : parse (format e) = .ok e :=
  parse_iff.2 ⟨[], _, [], by simp, by simp [Blank], by simp [Blank], (format_text h).1⟩

/-- C45: the same with white space around it. -/
theorem round_trip_spaced {e : SExpr} (h : Proper e) {ws ws' : List Char} (hw : Blank ws) (hw' : Blank ws') : parse (ws ++ format e ++ ws') = .ok e :=
  parse_iff.2 ⟨ws, _, ws', rfl, hw, hw', (format_text h).1⟩

/-- C45: a list printed without its parentheses is read back as its terms. -/
theorem round_trip_bare {es : List SExpr} (h : Proper (.list es)) : parseSeq (formatBare (.list es)) = .ok es :=
  parseSeq_iff.2 ((format_text h).2 es rfl true)

/-- C45: whatever is read is printed and read again as the same (gcs/innards/s_expr.hh:85-91). -/
theorem read_write_read {text : List Char} {e : SExpr} (h : parse text = .ok e) : parse (format e) = .ok e := by
  obtain ⟨_, _, _, _, _, _, ht⟩ := parse_iff.1 h
  exact round_trip ht.proper

/-- C45: reading and printing leaves what was printed as it is. -/
theorem write_read_write {e e' : SExpr} (h : Proper e) (hp : parse (format e) = .ok e') : format e' = format e := by
  rw [round_trip h] at hp; cases hp; rfl

/-- What went wrong, if anything. -/
def failure : Except SErr SExpr → Option SErr
  | .ok _ => none
  | .error e => some e

/-- A concrete case: `(ne  x(y) -4 )` with odd spaces. -/
example : ∃ e, parse [' ', '(', 'n', 'e', ' ', '\t', 'x', '(', 'y', ')', '\n', '-', '4', ' ', ')', ' '] = .ok e ∧ format e = ['(', 'n', 'e', ' ', 'x', ' ', '(', 'y', ')', ' ', '-', '4', ')'] ∧ Proper e := by
  have h : ∃ e, parse [' ', '(', 'n', 'e', ' ', '\t', 'x', '(', 'y', ')', '\n', '-', '4', ' ', ')', ' '] = .ok e ∧ format e = ['(', 'n', 'e', ' ', 'x', ' ', '(', 'y', ')', ' ', '-', '4', ')'] :=
    ⟨.list [.atom ['n', 'e'], .atom ['x'], .list [.atom ['y']], .atom ['-', '4']], rfl, rfl⟩
  obtain ⟨e, h1, h2⟩ := h
  obtain ⟨_, _, _, _, _, _, ht⟩ := parse_iff.1 h1
  exact ⟨e, h1, h2, ht.proper⟩

/-- Refused: a parenthesis too few, one too many, two terms, a parenthesis alone, and nothing. -/
example : failure (parse ['(', 'a', ' ', '(', 'b', ')']) = some .unclosed ∧ failure (parse ['(', 'a', ')', ')']) = some .trailing ∧ failure (parse ['a', ' ', 'b']) = some .trailing ∧
    failure (parse [' ', ')']) = some .unexpectedClose ∧ failure (parse [' ', '\n']) = some .empty := by decide

/-- An atom with a space in it is printed as two terms, and the text refused. -/
theorem round_trip_wrong : ∃ e, parse (format e) = .error .trailing := ⟨.atom ['a', ' ', 'b'], rfl⟩

/-- An empty atom in a list is lost, and an atom with a space becomes two: what is read is another expression. -/
theorem round_trip_other : parse (format (.list [.atom []])) = .ok (.list []) ∧
    parse (format (.list [.atom ['a', ' ', 'b']])) = .ok (.list [.atom ['a'], .atom ['b']]) := ⟨rfl, rfl⟩

end Gcs.SExpr
