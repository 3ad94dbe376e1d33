import Verif.Spec.MakespanLinks

/-! Rows that link starts to a makespan. -/

namespace Gcs.Makespan

variable {logger : Bool} {makespan : VarId} {c : Row} {i : Nat} {l : Link}

/-- When a row is one to use. -/
structure Usable (logger : Bool) (makespan : VarId) (i : Nat) (l : Link) (c : Row) : Prop where
  links : c.Links makespan i l.bound
  pos : 0 < l.bound
  other : .simple i ≠ makespan
  label : l.row = c.label
  named : logger = true → c.label ≠ none

theorem linkOf_usable (h : linkOf logger makespan c = some (i, l)) : Usable logger makespan i l c := by
  unfold linkOf at h
  split at h
  · cases h
  rename_i hr
  split at h
  · cases h
  rename_i hl
  split at h
  · rename_i start limit e
    split at h
    · cases h
    rename_i hm
    split at h
    · rename_i j
      split at h
      · cases h
      split at h
      · cases h
      rename_i hv hn
      cases h
      match ht : c.terms, hl with
      | [x, y], _ =>
        rw [ht] at e
        obtain ⟨cx, x⟩ := x
        obtain ⟨cy, y⟩ := y
        refine ⟨⟨by grind, ?_, by simp⟩, by simp only; omega, by grind, rfl, by grind⟩
        rw [ht]
        simp only [List.foldl_cons, List.foldl_nil, sides] at e
        grind
      | [], hl => simp [ht] at hl
      | [_], hl => simp [ht] at hl
      | _ :: _ :: _ :: _, hl => simp [ht] at hl
    · cases h
  · cases h

theorem usable_linkOf (h : Usable logger makespan i l c) : linkOf logger makespan c = some (i, l) := by
  obtain ⟨⟨h1, h2, h3⟩, h4, h5, h6, h7⟩ := h
  obtain ⟨b, r⟩ := l
  simp only at h3 h4 h6
  unfold linkOf
  have hf : c.terms.foldl sides (none, none) = (some (.simple i), some makespan) := by
    rcases h2 with e | e <;> rw [e] <;> simp [sides]
  have hl : c.terms.length = 2 := by rcases h2 with e | e <;> rw [e] <;> rfl
  rw [hf]
  simp only [h1, hl, ne_eq, not_true_eq_false, if_false, false_or, h3, Int.neg_neg, h6, h5]
  rw [if_neg (by omega), if_neg (by rintro ⟨a, b⟩; exact h7 a b)]

/-- What is in the map. -/
structure LinksOf (U : Nat → Link → Prop) (m : List (Nat × Link)) : Prop where
  keys : (m.map (·.1)).Nodup
  from_ : ∀ x ∈ m, U x.1 x.2
  most : ∀ i l, U i l → ∃ l', (i, l') ∈ m ∧ l.bound ≤ l'.bound

theorem putLink_keys : ∀ {m : List (Nat × Link)} {j : Nat}, j ∈ (putLink i l m).map (·.1) ↔ j = i ∨ j ∈ m.map (·.1)
  | [], j => by simp [putLink]
  | (k, x) :: m, j => by
    unfold putLink
    have := putLink_keys (m := m) (j := j)
    split
    · split <;> simp_all
    · simp only [List.map_cons, List.mem_cons, this]
      grind

theorem putLink_nodup : ∀ {m : List (Nat × Link)}, (m.map (·.1)).Nodup → ((putLink i l m).map (·.1)).Nodup
  | [], _ => by simp [putLink]
  | (k, x) :: m, h => by
    simp only [List.map_cons, List.nodup_cons] at h
    unfold putLink
    split
    · split <;> simpa using h
    · simp only [List.map_cons, List.nodup_cons, putLink_keys]
      exact ⟨by rintro (e | e) <;> grind, putLink_nodup h.2⟩

theorem putLink_mem : ∀ {m : List (Nat × Link)} {x : Nat × Link}, x ∈ putLink i l m → x = (i, l) ∨ x ∈ m
  | [], x, h => by simpa [putLink] using h
  | (k, y) :: m, x, h => by
    have := putLink_mem (m := m) (x := x)
    unfold putLink at h
    grind

theorem putLink_most : ∀ {m : List (Nat × Link)}, ∃ l', (i, l') ∈ putLink i l m ∧ l.bound ≤ l'.bound
  | [] => ⟨l, by simp [putLink], Int.le_refl _⟩
  | (k, y) :: m => by
    obtain ⟨l', h1, h2⟩ := putLink_most (m := m)
    unfold putLink
    split
    · rename_i e
      subst e
      split
      · exact ⟨l, List.mem_cons_self, Int.le_refl _⟩
      · exact ⟨y, List.mem_cons_self, by omega⟩
    · exact ⟨l', List.mem_cons_of_mem _ h1, h2⟩

theorem putLink_keeps : ∀ {m : List (Nat × Link)} {x : Nat × Link}, x ∈ m → ∃ l', (x.1, l') ∈ putLink i l m ∧ x.2.bound ≤ l'.bound
  | (k, y) :: m, x, h => by
    unfold putLink
    rcases List.mem_cons.1 h with rfl | h
    · split
      · split
        · exact ⟨l, List.mem_cons_self, by simp only; omega⟩
        · exact ⟨y, List.mem_cons_self, Int.le_refl _⟩
      · exact ⟨y, List.mem_cons_self, Int.le_refl _⟩
    · split
      · exact ⟨x.2, List.mem_cons_of_mem _ h, Int.le_refl _⟩
      · obtain ⟨l', h1, h2⟩ := putLink_keeps h
        exact ⟨l', List.mem_cons_of_mem _ h1, h2⟩

theorem links_ok (rows seen : List Row) (m : List (Nat × Link)) (h : LinksOf (fun i l => ∃ c ∈ seen, Usable logger makespan i l c) m) :
    LinksOf (fun i l => ∃ c ∈ seen ++ rows, Usable logger makespan i l c) (rows.foldl (addLink logger makespan) m) := by
  induction rows generalizing seen m with
  | nil => simpa using h
  | cons c rows ih =>
    rw [List.foldl_cons, show seen ++ c :: rows = (seen ++ [c]) ++ rows by simp]
    refine ih (seen ++ [c]) _ ?_
    unfold addLink
    split
    · rename_i i l e
      have u := linkOf_usable e
      refine ⟨putLink_nodup h.keys, fun x hx => ?_, fun j k => ?_⟩
      · rcases putLink_mem hx with rfl | hx
        · exact ⟨c, by simp, u⟩
        · obtain ⟨c', m', u'⟩ := h.from_ x hx
          exact ⟨c', by simp [m'], u'⟩
      · rintro ⟨c', m', u'⟩
        rcases List.mem_append.1 m' with m' | m'
        · obtain ⟨l1, a1, a2⟩ := h.most j k ⟨c', m', u'⟩
          obtain ⟨l2, b1, b2⟩ := putLink_keeps (i := i) (l := l) a1
          exact ⟨l2, b1, by simp only at b2; omega⟩
        · rw [List.mem_singleton] at m'
          subst m'
          have e' := usable_linkOf u'
          rw [e] at e'
          cases e'
          exact putLink_most
    · rename_i e
      refine ⟨h.keys, fun x hx => ?_, fun j k => ?_⟩
      · obtain ⟨c', m', u'⟩ := h.from_ x hx
        exact ⟨c', by simp [m'], u'⟩
      · rintro ⟨c', m', u'⟩
        rcases List.mem_append.1 m' with m' | m'
        · exact h.most j k ⟨c', m', u'⟩
        · rw [List.mem_singleton] at m'
          subst m'
          rw [usable_linkOf u'] at e
          cases e

end Gcs.Makespan
