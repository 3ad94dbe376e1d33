import Verif.Spec.Lex
import Verif.Model.Cons.Lex
import Verif.Lemmas.Cons.ReifiedState
import Verif.Lemmas.Cons.Inverse

/-!
# Lexicographic comparison
-/

namespace Gcs.Lex

/-- The comparison in terms of the pairs. -/
def After (eqs : Bool) (a : Asg) : List (VarId × VarId) → Prop
  | [] => eqs = true
  | p :: ps => p.1.eval a > p.2.eval a ∨ p.1.eval a = p.2.eval a ∧ After eqs a ps

theorem after_iff (oe : Bool) (a : Asg) : ∀ (xs ys : List VarId), After (equalSatisfies xs ys oe) a (xs.zip ys) ↔ LexGreater oe (xs.map (·.eval a)) (ys.map (·.eval a))
  | [], [] => by simp [After, LexGreater, equalSatisfies]
  | [], _ :: _ => by simp [After, LexGreater, equalSatisfies]
  | _ :: _, [] => by simp [After, LexGreater, equalSatisfies]
  | x :: xs, y :: ys => by
    have e : equalSatisfies (x :: xs) (y :: ys) oe = equalSatisfies xs ys oe := by simp [equalSatisfies]
    rw [e]
    simp only [List.zip_cons_cons, After, List.map_cons, LexGreater, after_iff oe a xs ys]

/-- The first pairs are equal. -/
def Level (d : Doms) (ps : List (VarId × VarId)) (k : Nat) : Prop := ∀ p ∈ ps.take k, ∀ a, Within d a → p.1.eval a = p.2.eval a

theorem after_drop {eqs : Bool} {a : Asg} : ∀ {ps : List (VarId × VarId)} {k : Nat}, (∀ p ∈ ps.take k, p.1.eval a = p.2.eval a) → (After eqs a ps ↔ After eqs a (ps.drop k))
  | _, 0, _ => by simp
  | [], k + 1, _ => by simp
  | p :: ps, k + 1, h => by
    simp only [List.take_succ_cons, List.forall_mem_cons] at h
    simp only [List.drop_succ_cons, After, ← after_drop h.2, h.1]
    simp

section
variable {d : Doms}

theorem same_spec {x y : VarId} {b1 b2 : Int × Int} (h1 : IsMin (Poss d x) b1.1 ∧ IsMax (Poss d x) b1.2) (h2 : IsMin (Poss d y) b2.1 ∧ IsMax (Poss d y) b2.2) :
    (same b1 b2 = true → ∀ a, Within d a → x.eval a = y.eval a) ∧ (same b1 b2 = false → Known d x → Known d y → ∀ a, Within d a → x.eval a ≠ y.eval a) := by
  simp only [same, decide_eq_true_eq, decide_eq_false_iff_not]
  refine ⟨fun h a ha => ?_, fun h k1 k2 a ha e => h ?_⟩
  · have := h1.1.le ha; have := h1.2.ge ha; have := h2.1.le ha; have := h2.2.ge ha; omega
  · have := h1.1.eq k1 ha; have := h1.2.eq k1 ha; have := h2.1.eq k2 ha; have := h2.2.eq k2 ha; omega

theorem advance_roo (hd : DomsOK d) : ∀ (ps : List (VarId × VarId)) (k : Nat), (∀ p ∈ ps, p.1.Valid d.length ∧ p.2.Valid d.length) →
    RightOrOverflow (advance d k ps) (fun r => ∃ j, r = k + j ∧ j ≤ ps.length ∧ Level d ps j ∧ ∀ p, ps[j]? = some p → Known d p.1 → Known d p.2 → ∀ a, Within d a → p.1.eval a ≠ p.2.eval a)
  | [], k, _ => .pure ⟨0, rfl, Nat.le_refl _, by simp [Level], by simp⟩
  | p :: ps, k, hv => by
    obtain ⟨v1, v2⟩ := hv p (by simp)
    unfold advance
    refine (bounds_roo hd v1).bind fun b1 h1 => (bounds_roo hd v2).bind fun b2 h2 => ?_
    obtain ⟨s1, s2⟩ := same_spec ⟨h1.1.2, h1.2.2⟩ ⟨h2.1.2, h2.2.2⟩
    by_cases hs : same b1 b2 = true
    · rw [if_pos hs]
      refine (advance_roo hd ps (k + 1) fun q hq => hv q (by simp [hq])).mono fun r ⟨j, e, k1, k2, k3⟩ => ⟨j + 1, by omega, by simpa using k1, ?_, by simpa using k3⟩
      intro q hq
      simp only [List.take_succ_cons, List.mem_cons] at hq
      rcases hq with rfl | hq
      · exact s1 hs
      · exact k2 q hq
    · rw [if_neg hs]
      refine .pure ⟨0, rfl, Nat.zero_le _, by simp [Level], fun q hq => ?_⟩
      cases hq
      exact s2 (by simpa using hs)

theorem look_roo {eqs : Bool} (hd : DomsOK d) : ∀ (ps : List (VarId × VarId)), (∀ p ∈ ps, p.1.Valid d.length ∧ p.2.Valid d.length) →
    RightOrOverflow (look d ps) (fun r => r ≠ .found → (eqs = false ∨ r = .blocked) → ∀ a, Within d a → ¬ After eqs a ps)
  | [], _ => .pure fun _ h a _ => by
    rcases h with h | h
    · simp [After, h]
    · cases h
  | p :: ps, hv => by
    obtain ⟨v1, v2⟩ := hv p (by simp)
    unfold look
    refine (bounds_roo hd v1).bind fun b1 h1 => (bounds_roo hd v2).bind fun b2 h2 => ?_
    by_cases hf : b1.2 > b2.1
    · rw [if_pos hf]; exact .pure fun h => absurd rfl h
    · rw [if_neg hf]
      by_cases hb : b1.2 < b2.1
      · rw [if_pos hb]
        refine .pure fun _ _ a ha h => ?_
        have := h1.2.2.ge ha; have := h2.1.2.le ha
        rcases h with h | ⟨h, _⟩ <;> omega
      · rw [if_neg hb]
        refine (look_roo (eqs := eqs) hd ps fun q hq => hv q (by simp [hq])).mono fun r hr h1' h2' a ha h => ?_
        have := h1.2.2.ge ha; have := h2.1.2.le ha
        rcases h with h | ⟨_, h⟩
        · omega
        · exact hr h1' h2' a ha h

theorem judge_roo {eqs : Bool} (hd : DomsOK d) : ∀ (ps : List (VarId × VarId)), (∀ p ∈ ps, p.1.Valid d.length ∧ p.2.Valid d.length) →
    RightOrOverflow (judge d eqs ps) (fun v => (v = .mustHold → ∀ a, Within d a → After eqs a ps) ∧ (v = .mustNotHold → ∀ a, Within d a → ¬ After eqs a ps) ∧
      (v = .stillUndecided → ¬ ∀ p ∈ ps, Known d p.1 ∧ Known d p.2))
  | [], _ => by
    unfold judge
    cases eqs
    · refine .pure ⟨fun h => ?_, fun _ a _ h => ?_, fun h => ?_⟩ <;> cases h
    · refine .pure ⟨fun _ a _ => rfl, fun h => ?_, fun h => ?_⟩ <;> cases h
  | p :: ps, hv => by
    obtain ⟨v1, v2⟩ := hv p (by simp)
    unfold judge
    refine (bounds_roo hd v1).bind fun b1 h1 => (bounds_roo hd v2).bind fun b2 h2 => ?_
    obtain ⟨s1, s2⟩ := same_spec ⟨h1.1.2, h1.2.2⟩ ⟨h2.1.2, h2.2.2⟩
    by_cases hs : same b1 b2 = true
    · rw [if_pos hs]
      refine (judge_roo (eqs := eqs) hd ps fun q hq => hv q (by simp [hq])).mono fun r ⟨k1, k2, k3⟩ => ⟨fun e a ha => .inr ⟨s1 hs a ha, k1 e a ha⟩, fun e a ha h => ?_, fun e h => k3 e fun q hq => h q (by simp [hq])⟩
      have := s1 hs a ha
      rcases h with h | ⟨_, h⟩
      · omega
      · exact k2 e a ha h
    · rw [if_neg hs]
      by_cases hg : b1.1 > b2.2
      · rw [if_pos hg]
        refine .pure ⟨fun _ a ha => .inl ?_, fun h => (nomatch h), fun h => nomatch h⟩
        have := h1.1.2.le ha; have := h2.2.2.ge ha; omega
      · rw [if_neg hg]
        by_cases hl : b1.2 < b2.1
        · rw [if_pos hl]
          refine .pure ⟨fun h => (nomatch h), fun _ a ha h => ?_, fun h => nomatch h⟩
          have := h1.2.2.ge ha; have := h2.1.2.le ha
          rcases h with h | ⟨h, _⟩ <;> omega
        · rw [if_neg hl]
          refine .pure ⟨fun h => (nomatch h), fun h => (nomatch h), fun _ h => ?_⟩
          obtain ⟨k1, k2⟩ := h p (by simp)
          obtain ⟨a, ha⟩ := exists_within hd
          have := h1.1.2.eq k1 ha; have := h1.2.2.eq k1 ha; have := h2.1.2.eq k2 ha; have := h2.2.2.eq k2 ha
          have := s2 (by simpa using hs) k1 k2 a ha
          omega

end

section
variable {σ μ : Type} {J : Job} {ps : List (VarId × VarId)} {eqs : Bool} {d : Doms} {k : Nat}

theorem pass_ver (ho : J.R .overflow) (hv : ∀ p ∈ ps, p.1.Valid J.n ∧ p.2.Valid J.n) (hC : ∀ a, J.C a → After eqs a ps) (hd : DomsOK d) (hl : d.length = J.n) (hk : k ≤ ps.length) (hlev : Level d ps k) :
    (pass ps eqs k : Prog σ μ (PState × Nat)).Ver J (fun _ => False) (fun r d' => r.2 ≤ ps.length ∧ Level d' ps r.2 ∧ r.1 ≠ .enableButIdempotent ∧
      ((∀ p ∈ ps, Known d p.1 ∧ Known d p.2) ∨ r.1 = .disableUntilBacktrack → ∀ a, Within d' a → After eqs a ps)) d := by
  obtain ⟨n, m, R, C, watch, own⟩ := J
  dsimp only at *
  subst hl
  refine ver_ask (f := (advance · k (ps.drop k))) ho (advance_roo hd (ps.drop k) k fun p hp => hv p (List.mem_of_mem_drop hp)) ?_
  rintro al ⟨j, rfl, h1, h2, h3⟩
  rw [List.length_drop] at h1
  have hlev' : Level d ps (k + j) := by
    intro p hp
    rw [List.take_add, List.mem_append] at hp
    exact hp.elim (hlev p) (h2 p)
  have sub : ∀ {d' : Doms}, (∀ a, Within d' a → Within d a) → Level d' ps (k + j) := fun hs p hp a ha => hlev' p hp a (hs a ha)
  have cut : ∀ a, Within d a → (After eqs a ps ↔ After eqs a (ps.drop (k + j))) := fun a ha => after_drop fun p hp => hlev' p hp a ha
  by_cases he : k + j = ps.length
  · rw [if_pos he]
    have : ps.drop (k + j) = [] := by rw [he]; simp
    cases eqs with
    | true => exact ⟨by omega, hlev', (fun h => nomatch h), fun _ a ha => by rw [cut a ha, this]; rfl⟩
    | false => exact fun a ha hc => by have := hC a hc; rw [cut a ha, ‹ps.drop (k + j) = []›] at this; cases this
  rw [if_neg he]
  cases hp : ps[k + j]? with
  | none => exact absurd (List.getElem?_eq_none_iff.1 hp) (by omega)
  | some p =>
    obtain ⟨x, y⟩ := p
    obtain ⟨vx, vy⟩ := hv _ (List.mem_of_getElem? hp)
    have split : ∀ a, Within d a → (After eqs a ps ↔ x.eval a > y.eval a ∨ x.eval a = y.eval a ∧ After eqs a (ps.drop (k + j + 1))) := fun a ha => by
      obtain ⟨hlt, e⟩ := List.getElem?_eq_some_iff.1 hp
      rw [cut a ha, List.drop_eq_getElem_cons hlt, e]; rfl
    refine ver_ask (f := (bounds · x)) ho (bounds_roo hd vx) fun b1 m1 => ?_
    refine ver_ask (f := (bounds · y)) ho (bounds_roo hd vy) fun b2 m2 => ?_
    refine ver_lift ho (le_roo m1.2.1) ?_
    rintro c ⟨rfl, hc⟩
    refine ver_tell (.ge vx m2.1.1) (fun a ha hc => ?_) fun d1 hd1 hl1 w1 => ?_
    · have := m2.1.2.le ha
      rw [Lit.holds_ge]
      rcases (split a ha).1 (hC a hc) with h | ⟨h, _⟩ <;> omega
    refine ver_tell (.lt vy hc) (fun a ha hc => ?_) fun d2 hd2 hl2 w2 => ?_
    · have ha := ((w1 a).1 ha).1
      have := m1.2.2.ge ha
      rw [Lit.holds_lt]
      rcases (split a ha).1 (hC a hc) with h | ⟨h, _⟩ <;> omega
    have in2 : ∀ a, Within d2 a → Within d a ∧ x.eval a ≥ b2.1 := fun a ha => by
      have := (w1 a).1 ((w2 a).1 ha).1
      rw [Lit.holds_ge] at this
      exact ⟨this.1, this.2⟩
    -- everything known means that the pair is decided
    have known : ∀ {d' : Doms}, (∀ a, Within d' a → Within d2 a) → (∀ p ∈ ps, Known d p.1 ∧ Known d p.2) → ∀ a, Within d' a → After eqs a ps := by
      intro d' hs hkn a ha
      obtain ⟨i1, i2⟩ := in2 a (hs a ha)
      obtain ⟨kx, ky⟩ := hkn _ (List.mem_of_getElem? hp)
      have := h3 (x, y) (by rw [List.getElem?_drop]; exact hp) kx ky a i1
      have := m2.1.2.eq ky i1
      rw [split a i1]
      dsimp only at *
      omega
    have strict : ∀ {d' : Doms} {c1 c2 : Int × Int}, (∀ a, Within d' a → Within d2 a) → IsMin (Poss d' x) c1.1 → IsMax (Poss d' y) c2.2 → c1.1 > c2.2 → ∀ a, Within d' a → After eqs a ps := by
      intro d' c1 c2 hs n1 n2 hlt a ha
      have := n1.le ha; have := n2.ge ha
      rw [split a (in2 a (hs a ha)).1]
      omega
    refine ver_ask (f := (bounds · x)) ho (bounds_roo hd2 (hl2 ▸ vx)) fun c1 n1 => ?_
    refine ver_ask (f := (bounds · y)) ho (bounds_roo hd2 (hl2 ▸ vy)) fun c2 n2 => ?_
    by_cases hgt : c1.1 > c2.2
    · rw [if_pos hgt]
      exact ⟨by omega, sub fun a ha => (in2 a ha).1, (fun h => nomatch h), fun _ => strict (fun _ h => h) n1.1.2 n2.2.2 hgt⟩
    rw [if_neg hgt]
    refine ver_ask (f := (look · (ps.drop (k + j + 1)))) ho (look_roo (eqs := eqs) hd2 _ fun p hp => hl2 ▸ hv p (List.mem_of_mem_drop hp)) fun r hr => ?_
    by_cases hcond : r ≠ .found ∧ (eqs = false ∨ r = .blocked)
    · rw [if_pos hcond]
      have no := hr hcond.1 hcond.2
      have must : ∀ a, Within d2 a → C a → x.eval a > y.eval a := fun a ha hc => by
        rcases (split a (in2 a ha).1).1 (hC a hc) with h | ⟨_, h⟩
        · exact h
        · exact absurd h (no a ha)
      by_cases hal : c1.2 > c2.1
      · rw [if_pos hal]
        refine ver_lift ho (gt_roo n2.1.1) ?_
        rintro c ⟨rfl, hc'⟩
        refine ver_tell (.ge vx (by simpa using hc')) (fun a ha hc => ?_) fun d3 hd3 hl3 w3 => ?_
        · have := n2.1.2.le ha; have := must a ha hc
          rw [Lit.holds_ge]; omega
        refine ver_tell (.lt vy n1.2.1) (fun a ha hc => ?_) fun d4 hd4 hl4 w4 => ?_
        · have ha := ((w3 a).1 ha).1
          have := n1.2.2.ge ha; have := must a ha hc
          rw [Lit.holds_lt]; omega
        have in4 : ∀ a, Within d4 a → Within d2 a := fun a ha => ((w3 a).1 ((w4 a).1 ha).1).1
        refine ver_ask (f := (bounds · x)) ho (bounds_roo hd4 (hl4 ▸ vx)) fun e1 o1 => ?_
        refine ver_ask (f := (bounds · y)) ho (bounds_roo hd4 (hl4 ▸ vy)) fun e2 o2 => ?_
        refine ⟨by dsimp only; omega, sub fun a ha => (in2 a (in4 a ha)).1, by dsimp only; split <;> decide, ?_⟩
        dsimp only
        rintro (hkn | e)
        · exact known in4 hkn
        · split at e
          · exact strict in4 o1.1.2 o2.2.2 ‹_›
          · cases e
      · rw [if_neg hal]
        intro a ha hc
        have := must a ha hc; have := n1.2.2.ge ha; have := n2.1.2.le ha
        omega
    · rw [if_neg hcond]
      exact ⟨by dsimp only; omega, sub fun a ha => (in2 a ha).1, (fun h => nomatch h), fun h => h.elim (known fun _ h => h) fun e => nomatch e⟩

/-- The constraint state holds a number of pairs, all of which are equal. -/
def Stored (B : Kind σ Nat) (h : Nat) (ps : List (VarId × VarId)) (d : Doms) (z : List σ) : Prop := ∃ k, z[h]? = some (B.put k) ∧ k ≤ ps.length ∧ Level d ps k

variable {n m : Nat} {R : Err → Prop} {root : Doms} {B : Kind σ Nat} {h : Nat} {xs ys : List VarId} {oe : Bool}

theorem known_pairs (hf : ∀ v ∈ xs ++ ys, Known d v) : ∀ p ∈ xs.zip ys, Known d p.1 ∧ Known d p.2 :=
  fun _ hp => ⟨hf _ (List.mem_append_left _ (List.of_mem_zip hp).1), hf _ (List.mem_append_right _ (List.of_mem_zip hp).2)⟩

theorem stage_enforces (ho : R .overflow) (hx : ∀ v ∈ xs, v.Valid n) (hy : ∀ v ∈ ys, v.Valid n) {zs : List VarId} (hzs : ∀ v ∈ xs ++ ys, v ∈ zs) {I : Doms → List σ → Prop}
    (hI : ∀ d z, I d z ↔ Stored B h (xs.zip ys) d z) {P : Asg → Prop} (hP : ∀ a, P a ↔ LexGreater oe (xs.map (·.eval a)) (ys.map (·.eval a))) :
    EnforcesS n m R root I (· = h) P zs (stage (μ := μ) B h xs ys oe) := by
  intro d z hd hl hz hi
  obtain ⟨k, hu, hk, hlev⟩ := (hI d z).1 hi
  have hlt := (List.getElem?_eq_some_iff.1 hu).1
  rintro s rfl rfl
  dsimp only
  rw [show (s.st.cstates.headD [])[h]? = some (B.put k) from hu]
  dsimp only
  rw [B.get_put]
  dsimp only
  refine verS_bind (J := { n, m, R, C := fun a => Within root a ∧ P a, own := (· = h) }) (S := fun _ => False) (fun _ h => h.elim) _ _ _ hd hl (verS_mono ?_ _ _ _ (Ver.toS' (J := { n, m, R, C := fun a => Within root a ∧ P a, own := (· = h) })
    (pass_ver (eqs := equalSatisfies xs ys oe) ho (fun p hp => ⟨hx _ (List.of_mem_zip hp).1, hy _ (List.of_mem_zip hp).2⟩) (fun a ha => (after_iff oe a xs ys).2 ((hP a).1 ha.2)) hd hl hk hlev)))
  rintro ⟨ps, al⟩ d' z' ⟨⟨h1, h2, h3, h4⟩, rfl⟩ k1 k2 k3
  refine ⟨⟨hz ▸ hlt, rfl⟩, Enforced.intro (fun hkn a ha _ => ?_) (fun e => absurd e h3) (fun e a ha _ => ?_), (hI _ _).2 ⟨al, by rw [List.getElem?_set_self hlt], h1, h2⟩⟩
  · exact (hP a).2 ((after_iff oe a xs ys).1 (h4 (.inl (known_pairs fun v hv => hkn v (hzs v hv))) a ha))
  · exact (hP a).2 ((after_iff oe a xs ys).1 (h4 (.inr e) a ha))

end
end Gcs.Lex
