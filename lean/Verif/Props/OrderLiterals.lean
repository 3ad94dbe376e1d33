import Verif.Lemmas.OrderLiterals
import Verif.Props.RangeLiterals

/-!
# C72: order literals in proofs
-/

namespace Gcs
open Ranges

/-- C72: for a variable with values from `lb` to `ub`, whatever order, equality and range literals are needed and in whatever order (`as`):

* every line written is true for each value that the variable can have, and every interval literal is defined once;
* any clause over these literals that is true for each value that the variable can have follows from the lines by reverse unit propagation, so that the proof checker accepts it without help;
* in particular so does each clause that C71 speaks of, whatever was asked for there, once the literals in the clause are defined. -/
theorem order_literals_right (lb ub : Int) (hb : lb ≤ ub) (as : List Atom) :
    (∀ c ∈ (needAtoms lb ub as).lines, ∀ x, lb ≤ x → x ≤ ub → HoldsAt x c) ∧ (needAtoms lb ub as).ivls.Nodup ∧
    (∀ c : List OLit, (∀ l ∈ c, l.2 ∈ as) → (∀ x, lb ≤ x → x ≤ ub → HoldsAt x c) → Rup (needAtoms lb ub as).lines c) ∧
    ∀ xs d st, asks lb ub (d + 2) xs {} = .ok st → ∀ c ∈ st.clauses, (∀ l ∈ c, .ivl l.ivl ∈ as) → Rup (needAtoms lb ub as).lines c.wide := by
  obtain ⟨k1, k2, k3⟩ := needAtoms_ok (lb := lb) (ub := ub) as
  have main : ∀ c : List OLit, (∀ l ∈ c, l.2 ∈ as) → (∀ x, lb ≤ x → x ≤ ub → HoldsAt x c) → Rup (needAtoms lb ub as).lines c :=
    fun c hc ht => rup_of_true hb k1 (fun l hl => ⟨fun i e => k2 i (e ▸ hc l hl), fun v e => k3 v (e ▸ hc l hl)⟩) ht
  refine ⟨k1.holds, k1.nodup, main, fun xs d st e c hc hl => main _ ?_ ?_⟩
  · intro l m
    obtain ⟨l', m', rfl⟩ := List.mem_map.1 m
    exact hl l' m'
  · intro x h1 h2
    obtain ⟨st', r, _, _, _, _, _, hcl, _⟩ := range_literals_right lb ub xs
    have := r d
    rw [e] at this
    cases this
    obtain ⟨l, m, h⟩ := (hcl c hc).2 x h1 h2
    refine ⟨(l.pos, .ivl l.ivl), List.mem_map_of_mem m, ?_⟩
    unfold Lit.Holds at h
    exact h

namespace OrderLiteralsDemo

/-- An order literal, then two intervals, one partly outside, and an equality. -/
def atoms : List Atom := [.ge 5, .ivl (2, 7), .ivl (8, 12), .ivl (4, 4), .ivl (0, 1)]
example : (needAtoms 0 10 atoms).ges = [0, 2, 4, 5, 8, 13] := by decide +kernel
/-- The chain is made between neighbours, and the ends outside are fixed. -/
example : [(true, Atom.ge 4), (false, Atom.ge 5)] ∈ (needAtoms 0 10 atoms).lines ∧ [(true, Atom.ge 2), (false, Atom.ge 8)] ∉ (needAtoms 0 10 atoms).lines ∧
    [(false, Atom.ge 13)] ∈ (needAtoms 0 10 atoms).lines ∧ [(true, Atom.ge 0)] ∈ (needAtoms 0 10 atoms).lines := by decide +kernel
/-- The variable is somewhere, and this is not a consequence of any one line. -/
example : Rup (needAtoms 0 10 atoms).lines [(true, .ivl (0, 1)), (true, .ivl (2, 7)), (true, .ivl (8, 12))] := by
  refine (order_literals_right 0 10 (by decide) atoms).2.2.1 _ (by decide) fun x h1 h2 => ?_
  by_cases a : x ≤ 1
  · exact ⟨_, List.mem_cons_self, by simp [Atom.Holds]; omega⟩
  by_cases b : x ≤ 7
  · exact ⟨_, List.mem_cons_of_mem _ List.mem_cons_self, by simp [Atom.Holds]; omega⟩
  · exact ⟨_, List.mem_cons_of_mem _ (List.mem_cons_of_mem _ List.mem_cons_self), by simp [Atom.Holds]; omega⟩
/-- All literals, when the variable is 3. -/
def three : Atom → Option Bool
  | .ge v => some (decide (v ≤ 3))
  | .ivl i => some (decide (i.1 ≤ 3 ∧ 3 ≤ i.2))
/-- Something that is not so does not follow: with the variable 3, it is neither 4 nor in the last interval. -/
example : ¬ Rup (needAtoms 0 10 atoms).lines [(true, .ivl (4, 4)), (true, .ivl (8, 12))] := by
  intro h
  refine h three ?_ (by decide)
  rintro c hc p l q rfl all
  obtain ⟨m, hm, k⟩ := (order_literals_right 0 10 (by decide) atoms).1 _ hc 3 (by decide) (by decide)
  have e : ∀ m : OLit, (if m.1 then m.2.Holds 3 else ¬ m.2.Holds 3) →
      three m.2 = some m.1 := by
    rintro ⟨b, a⟩ k
    cases a <;> cases b <;> simp [Atom.Holds, three] at k ⊢ <;> omega
  have em := e m k
  simp only [List.mem_append, List.mem_cons] at hm
  rcases hm with hm | rfl | hm
  · have := all m (by simp [hm]); rw [em] at this; simp at this
  · exact em
  · have := all m (by simp [hm]); rw [em] at this; simp at this

end OrderLiteralsDemo
end Gcs
