import Verif.Lemmas.Names

/-!
# Names (C46)

A history of calls starts with an empty problem; calls that throw are part of it, and whatever they have done stays done. `Good` is the syntax of a name (`Spec/Names.lean`). The counters have 64 bits, so the
uniqueness of numbers is stated for fewer than 2^64 variables or constraints.

Not as one would expect: the documentation of `create_integer_variable` says that the name "does not have to be unique" (gcs/problem.hh:133-135), but it has to (`same_name_throws`); an anonymous variable and
an anonymous constraint share a label (`anonymous_shared`); a variable whose name is refused stays in the state (`refused_stays`).
-/

namespace Gcs.Names

/-- C46: `check_name` accepts exactly the good names that are not in use, and otherwise leaves the names as they are. -/
theorem checkName_iff {names r : List (List Char)} {t : List Char} : checkName names t = .ok r ↔ Good t ∧ t ∉ names ∧ r = t :: names :=
  ⟨checkName_ok, by rintro ⟨h, hn, rfl⟩; exact checkName_good h hn⟩

/-- C46: a variable can be given a name exactly if the name is good and no variable and no constraint has it; it then has this name. -/
theorem variable_accepted_iff {cs : List Call} {l u : Int} {t : List Char} :
    (call (history {} cs) (.variable l u (some t))).2 = none ↔ l ≤ u ∧ Good t ∧ t ∉ (history {} cs).vars ∧ .named t ∉ (history {} cs).cons := by
  have inv := Inv.init.history cs
  generalize history {} cs = s at inv
  simp only [call, createVariable]
  split
  · rename_i h
    simp; omega
  · rename_i h
    simp only [addVariable]
    have hn := inv.names t
    split
    · rename_i e he
      simp only [reduceCtorEq, false_iff]
      rintro ⟨_, hg, hv, hc⟩
      rw [checkName_good hg (fun hm => by rcases (hn.1 hm).2 with h | h; exact hv h; exact hc h)] at he
      cases he
    · rename_i r hr
      obtain ⟨hg, hm, _⟩ := checkName_ok hr
      simp only [true_iff]
      exact ⟨by omega, hg, fun hv => hm (hn.2 ⟨hg, .inl hv⟩), fun hv => hm (hn.2 ⟨hg, .inr hv⟩)⟩

/-- C46: the same for a constraint. -/
theorem named_accepted_iff {cs : List Call} {t : List Char} :
    (call (history {} cs) (.postNamed t)).2 = none ↔ Good t ∧ t ∉ (history {} cs).vars ∧ .named t ∉ (history {} cs).cons := by
  have inv := Inv.init.history cs
  generalize history {} cs = s at inv
  simp only [call, postNamed]
  have hn := inv.names t
  split
  · rename_i e he
    simp only [reduceCtorEq, false_iff]
    rintro ⟨hg, hv, hc⟩
    rw [checkName_good hg (fun hm => by rcases (hn.1 hm).2 with h | h; exact hv h; exact hc h)] at he
    cases he
  · rename_i r hr
    obtain ⟨hg, hm, _⟩ := checkName_ok hr
    simp only [true_iff]
    exact ⟨hg, fun hv => hm (hn.2 ⟨hg, .inl hv⟩), fun hv => hm (hn.2 ⟨hg, .inr hv⟩)⟩

/-- C46: a call that does not throw gives exactly the name that was asked for, and one that throws gives none. -/
theorem variable_named (s : Imp) (l u : Int) (t : List Char) :
    ((call s (.variable l u (some t))).2 = none → (call s (.variable l u (some t))).1.vars = s.vars ++ [t]) ∧
    ((call s (.variable l u (some t))).2 ≠ none → (call s (.variable l u (some t))).1.vars = s.vars) := by
  simp only [call, createVariable, addVariable]
  by_cases h : l > u
  · simp [h]
  · cases hc : checkName s.names t <;> simp [h]

theorem constraint_named (s : Imp) (t : List Char) : ((call s (.postNamed t)).2 = none → (call s (.postNamed t)).1.cons = s.cons ++ [.named t]) ∧
    ((call s (.postNamed t)).2 ≠ none → (call s (.postNamed t)).1.cons = s.cons) := by
  simp only [call, postNamed]
  cases hc : checkName s.names t <;> simp

/-- C46: no two variables have the same name. -/
theorem variables_distinct (cs : List Call) (h : (history {} cs).vars.length < 2 ^ 64) : (history {} cs).vars.Nodup := ((Inv.init.history cs).vars h).2.2

theorem nodup_map {α β : Type} {f : α → β} : ∀ {l : List α}, l.Nodup → (∀ a ∈ l, ∀ b ∈ l, f a = f b → a = b) → (l.map f).Nodup
  | [], _, _ => by simp
  | a :: l, h, hf => by
    rw [List.nodup_cons] at h
    rw [List.map_cons, List.nodup_cons]
    refine ⟨fun hm => ?_, nodup_map h.2 fun x hx y hy => hf x (by simp [hx]) y (by simp [hy])⟩
    obtain ⟨b, hb, e⟩ := List.mem_map.1 hm
    have := hf b (by simp [hb]) a (by simp) e
    exact h.1 (this ▸ hb)

/-- C46: no two constraints have the same label. -/
theorem constraints_distinct (cs : List Call) (h : (history {} cs).cons.length < 2 ^ 64) : ((history {} cs).cons.map ConsId.label).Nodup := by
  have inv := Inv.init.history cs
  generalize history {} cs = s at inv h
  refine nodup_map (inv.cons h).2.2 ?_
  intro a ha b hb e
  cases a with
  | numbered n =>
    cases b with
    | numbered m => rw [numberName_inj e]
    | named t => 
      have e : numberName n = t := e
      exact absurd (e ▸ (inv.good t hb).1) (not_shape_number n)
  | named t =>
    cases b with
    | numbered m => 
      have e : t = numberName m := e
      exact absurd (e ▸ (inv.good t ha).1) (not_shape_number m)
    | named t' => exact congrArg _ e

/-- C46: a name the user has given belongs to one variable or to one constraint only, whatever the other names are. -/
theorem given_names_unique (cs : List Call) {t : List Char} (h : Good t) (hv : t ∈ (history {} cs).vars) : ∀ c ∈ (history {} cs).cons, c.label ≠ t := by
  have inv := Inv.init.history cs
  generalize history {} cs = s at inv hv
  rintro c hc rfl
  cases c with
  | numbered n => exact not_shape_number n h.1
  | named t => exact inv.apart t hv hc

/-- C46: every variable has a name the user may have given, or an underscore and a number; no name is both. -/
theorem variable_names (cs : List Call) : ∀ v ∈ (history {} cs).vars, (Good v ∧ ∀ n, v ≠ numberName n) ∨ (¬ Good v ∧ ∃ n, v = numberName n) := by
  have inv := Inv.init.history cs
  generalize history {} cs = s at inv
  intro v hv
  rcases inv.kinds v hv with h | ⟨n, rfl⟩
  · have := ((inv.names v).1 h).1
    exact .inl ⟨this, fun n e => not_shape_number n (e ▸ this.1)⟩
  · exact .inr ⟨fun h => not_shape_number n h.1, n, rfl⟩

/-- C46: names once given stay. -/
theorem call_keeps (s : Imp) (c : Call) : s.vars <+: (call s c).1.vars ∧ s.cons <+: (call s c).1.cons := by
  have av : ∀ (s : Imp) name, s.vars <+: (addVariable s name).1.vars ∧ s.cons <+: (addVariable s name).1.cons := by
    intro s name
    cases name with
    | none => exact ⟨⟨_, rfl⟩, List.prefix_refl _⟩
    | some t =>
      simp only [addVariable]
      split
      · exact ⟨List.prefix_refl _, List.prefix_refl _⟩
      · exact ⟨⟨_, rfl⟩, List.prefix_refl _⟩
  have cv : ∀ (s : Imp) l u name, s.vars <+: (createVariable s l u name).1.vars ∧ s.cons <+: (createVariable s l u name).1.cons := by
    intro s l u name
    unfold createVariable
    split
    · exact ⟨List.prefix_refl _, List.prefix_refl _⟩
    · exact av s name
  have ps : ∀ s : Imp, s.vars <+: (post s).1.vars ∧ s.cons <+: (post s).1.cons := fun s => ⟨List.prefix_refl _, ⟨_, rfl⟩⟩
  have vec : ∀ l u name (left n : Nat) (s : Imp), s.vars <+: (createVector s l u name n left).1.vars ∧ s.cons <+: (createVector s l u name n left).1.cons := by
    intro l u name left
    induction left with
    | zero => intro n s; exact ⟨List.prefix_refl _, List.prefix_refl _⟩
    | succ left ih =>
      intro n s
      unfold createVector
      have := cv s l u (name.map fun t => t ++ '[' :: (Nat.toDigits 10 n ++ [']']))
      split
      · rename_i e he; rw [he] at this; exact this
      · rename_i he; rw [he] at this
        exact ⟨this.1.trans (ih (n + 1) _).1, this.2.trans (ih (n + 1) _).2⟩
  cases c with
  | «variable» l u name => exact cv s l u name
  | variableOf d name =>
    simp only [call, createVariableOf]
    split
    · exact ⟨List.prefix_refl _, List.prefix_refl _⟩
    · have := av s name
      split
      · rename_i e he; rw [he] at this; exact this
      · rename_i s' he; rw [he] at this
        exact ⟨this.1.trans (ps s').1, this.2.trans (ps s').2⟩
  | vector k l u name => exact vec l u name k 0 s
  | post => exact ps s
  | postNamed t =>
    simp only [call, postNamed]
    split
    · exact ⟨List.prefix_refl _, List.prefix_refl _⟩
    · exact ⟨List.prefix_refl _, ⟨_, rfl⟩⟩
  | postAutonumbered n =>
    simp only [call, postAutonumbered]
    split
    · exact ⟨List.prefix_refl _, List.prefix_refl _⟩
    · exact ps s

theorem history_keeps : ∀ (cs : List Call) (s : Imp), s.vars <+: (history s cs).vars ∧ s.cons <+: (history s cs).cons
  | [], _ => ⟨List.prefix_refl _, List.prefix_refl _⟩
  | c :: cs, s => ⟨(call_keeps s c).1.trans (history_keeps cs _).1, (call_keeps s c).2.trans (history_keeps cs _).2⟩

/-- C46: the names of a vector. -/
theorem vector_names {l u : Int} {t : List Char} : ∀ (left n : Nat) (s s' : Imp), createVector s l u (some t) n left = (s', none) →
    s'.vars = s.vars ++ (List.range' n left).map fun k => t ++ '[' :: (Nat.toDigits 10 k ++ [']'])
  | 0, n, s, s', h => by cases h; simp
  | left + 1, n, s, s', h => by
    unfold createVector at h
    split at h
    · cases h
    · rename_i s1 h1
      have := vector_names left (n + 1) s1 s' h
      have h2 := (variable_named s l u (t ++ '[' :: (Nat.toDigits 10 n ++ [']']))).1
      simp only [call] at h2
      simp only [Option.map_some] at h1
      rw [h1] at h2
      have h2 := h2 rfl
      rw [this, h2, List.range'_succ]
      simp

/-- C46: a constraint read back in gets the number it had, or the call throws and nothing is posted. -/
theorem autonumbered (cs : List Call) (n : Nat) :
    ((call (history {} cs) (.postAutonumbered n)).2 = none → (call (history {} cs) (.postAutonumbered n)).1.cons = (history {} cs).cons ++ [.numbered n]) ∧
    ((call (history {} cs) (.postAutonumbered n)).2 ≠ none → (call (history {} cs) (.postAutonumbered n)).1 = history {} cs) := by
  simp only [call, postAutonumbered]
  split
  · simp
  · rename_i h
    have h : n = next (history {} cs).nextCon := by simpa using h
    simp [post, h]

/-! ### Cases -/

/-- A history with a refused bracket, a duplicate, a vector that stops half way, and anonymous variables and constraints. -/
def story : List Call := [.variable 0 1 none, .variable 0 1 (some ['x', '[', '0', ']']), .variable 3 1 (some ['z']), .variable 0 1 (some ['x', ']']), .postNamed ['_', 'x'], .vector 2 0 1 (some ['y']),
  .vector 2 0 1 (some ['x']), .variableOf [2, 5] none, .postAutonumbered 2, .postNamed ['_', '1']]

example : (history {} story).vars = [['_', '1'], ['x', '[', '0', ']'], ['y', '[', '0', ']'], ['y', '[', '1', ']'], ['_', '2']] ∧
    (history {} story).cons = [.named ['_', 'x'], .numbered 1, .numbered 2] := by decide

/-- The hypotheses of the theorems on this history. -/
example : (history {} story).vars.length < 2 ^ 64 ∧ (history {} story).cons.length < 2 ^ 64 := by decide

example : Good ['x', '[', '0', ']'] := (checkName_iff (names := []) (r := [['x', '[', '0', ']']])).1 rfl |>.1

/-- Not as documented (gcs/problem.hh:133-135): the name has to be unique. -/
theorem same_name_throws : (call (history {} [.variable 0 1 (some ['x'])]) (.variable 0 1 (some ['x']))).2 = some .duplicate := by decide

/-- An anonymous variable and an anonymous constraint have the same label. -/
theorem anonymous_shared : ∃ cs : List Call, ∃ v ∈ (history {} cs).vars, ∃ c ∈ (history {} cs).cons, c.label = v :=
  ⟨[.variable 0 1 none, .post], ['_', '1'], by decide, .numbered 1, by decide, by decide⟩

/-- A variable whose name is refused is not one of the problem's variables, but the state has it. -/
theorem refused_stays : ∃ cs : List Call, (history {} cs).vars = [] ∧ (history {} cs).allocated = 1 := ⟨[.variable 0 1 (some ['!'])], by decide⟩

end Gcs.Names
