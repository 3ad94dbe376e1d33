import Verif.Model.Cons.SparseSet
import Verif.Lemmas.Cons.ValueConsistent

namespace Gcs.SparseSet
open AllDifferent
variable {α : Type}

/-- Swapping entries. -/
theorem swap_eq {v : List α} {i j : Nat} {x y : α} (hi : v[i]? = some x) (hj : v[j]? = some y) : swap v i j = (v.set i y).set j x := by
  unfold swap; rw [hi, hj]

theorem swap_length (v : List α) (i j : Nat) : (swap v i j).length = v.length := by
  unfold swap; split <;> simp

theorem swap_take {v : List α} {i c : Nat} (hi : i < c + 1) (hc : c < v.length) : (swap v i c).take c = takeOut (v.take (c + 1)) i := by
  have hl : v.take (c + 1) = v.take c ++ [v[c]] := by rw [List.take_succ_eq_append_getElem hc]
  have h1 : v[i]? = some v[i] := List.getElem?_eq_getElem (by omega)
  rw [swap_eq h1 (List.getElem?_eq_getElem hc), hl, takeOut_snoc, List.take_set_of_le (Nat.le_refl _), List.take_set]
  simp only [List.length_take]
  split
  · rfl
  · rename_i h
    have : i = c := by omega
    subst this
    exact List.set_eq_of_length_le (by rw [List.length_take]; omega)

/-- All longer prefixes have the same entries as before. -/
theorem swap_perm {v : List α} {i c n : Nat} (hi : i < c + 1) (hn : c < n) (hc : c < v.length) : ((swap v i c).take n).Perm (v.take n) := by
  have h1 : v[i]? = some v[i] := List.getElem?_eq_getElem (by omega)
  rw [swap_eq h1 (List.getElem?_eq_getElem hc), List.take_set, List.take_set]
  have k1 : (v.take n)[i]? = some v[i] := by rw [List.getElem?_take_of_lt (by omega)]; exact h1
  have k2 : (v.take n)[c]? = some v[c] := by rw [List.getElem?_take_of_lt hn]; exact List.getElem?_eq_getElem hc
  generalize v.take n = w at k1 k2
  by_cases h : i = c
  · subst h
    have e : v[i] = w[i]'(List.getElem?_eq_some_iff.1 k1).1 := ((List.getElem?_eq_some_iff.1 k1).2).symm
    rw [List.set_set, e, List.set_getElem_self]
  · have p1 := set_perm (l := v[c]) k1
    have k3 : (w.set i v[c])[c]? = some v[c] := by rw [List.getElem?_set_ne h]; exact k2
    have p2 := set_perm (l := v[i]) k3
    exact (p2.trans p1).cons_inv

/-- The counts are those of the lists, and shrink from epoch to epoch. -/
def Rel : List α → List Nat → List (List α) → Prop
  | _, [], [] => True
  | v, c :: cs, l :: ls => c ≤ v.length ∧ (∀ c' ∈ cs, c ≤ c') ∧ (v.take c).Perm l ∧ Rel v cs ls
  | _, _, _ => False

theorem Rel.swap {v : List α} {i c : Nat} (hi : i < c + 1) (hc : c < v.length) : ∀ {cs : List Nat} {ls : List (List α)}, (∀ c' ∈ cs, c + 1 ≤ c') → Rel v cs ls → Rel (swap v i c) cs ls
  | [], [], _, _ => trivial
  | [], _ :: _, _, h => h
  | _ :: _, [], _, h => h
  | c' :: cs, l :: ls, hcs, ⟨h1, h2, h3, h4⟩ => by
    have := hcs c' (by simp)
    exact ⟨by rw [swap_length]; exact h1, h2, (swap_perm hi (by omega) hc).trans h3, h4.swap hi hc fun c'' h => hcs c'' (by simp [h])⟩

theorem Rel.step {s s' : SparseSet α} {ls : List (List α)} {o : Op} (h : Rel s.vec s.counts ls) (e : s.step o = some s') : ∃ ls', AbsStep ls o ls' ∧ Rel s'.vec s'.counts ls' := by
  obtain ⟨v, cs⟩ := s
  cases cs with
  | nil => cases o <;> cases e
  | cons c cs =>
    cases ls with
    | nil => exact h.elim
    | cons l ls =>
      obtain ⟨h1, h2, h3, h4⟩ := h
      cases o with
      | save =>
        cases e
        exact ⟨_, rfl, h1, by simpa using h2, h3, h1, h2, h3, h4⟩
      | restore =>
        cases cs with
        | nil => cases e
        | cons c' cs => cases e; exact ⟨_, rfl, h4⟩
      | remove k =>
        cases c with
        | zero => cases e
        | succ c =>
          dsimp only at h1 h2 h3 h4
          simp only [SparseSet.step] at e
          split at e
          · rename_i hk
            cases e
            refine ⟨_, ⟨_, h3, rfl⟩, by rw [swap_length]; omega, fun c' hc' => by have := h2 c' hc'; omega, ?_, h4.swap hk (by omega) h2⟩
            rw [swap_take hk (by omega)]
          · cases e

end Gcs.SparseSet
