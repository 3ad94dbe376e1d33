import Verif.Lemmas.Cons.RegexParse

/-!
# The automaton with empty moves has the language of the tree
-/

namespace Gcs.Regex
open IntervalSet

/-- The automaton can go from a state to another one, and read a word on the way. -/
inductive Path (b : Builder) : Nat → List Int → Nat → Prop where
  | nil (q : Nat) : Path b q [] q
  | eps {p q r : Nat} {w : List Int} : (p, q) ∈ b.eps → Path b q w r → Path b p w r
  | sym {p q r : Nat} {x : Int} {w : List Int} : (p, x, q) ∈ b.sym → Path b q w r → Path b p (x :: w) r

theorem Path.trans {b : Builder} {p q r : Nat} {u v : List Int} (h : Path b p u q) (h' : Path b q v r) : Path b p (u ++ v) r := by
  induction h with
  | nil => exact h'
  | eps h _ ih => exact .eps h (ih h')
  | sym h _ ih => exact .sym h (ih h')

/-- What building the automaton for a tree does to the automaton so far: `E` and `S` are the new moves. -/
structure Built (c : Core) (b : Builder) (r : (Nat × Nat) × Builder) (E : List (Nat × Nat)) (S : List (Nat × Int × Nat)) : Prop where
  grows : b.size ≤ r.2.size
  eps : r.2.eps = b.eps ++ E
  sym : r.2.sym = b.sym ++ S
  start : b.size ≤ r.1.1 ∧ r.1.1 < r.2.size
  accept : b.size ≤ r.1.2 ∧ r.1.2 < r.2.size
  epsIn : ∀ p q, (p, q) ∈ E → (b.size ≤ p ∧ p < r.2.size) ∧ b.size ≤ q ∧ q < r.2.size
  symIn : ∀ p x q, (p, x, q) ∈ S → (b.size ≤ p ∧ p < r.2.size) ∧ b.size ≤ q ∧ q < r.2.size
  complete : ∀ B : Builder, (∀ e ∈ E, e ∈ B.eps) → (∀ e ∈ S, e ∈ B.sym) → ∀ w, Lang c w → Path B r.1.1 w r.1.2
  /-- For every language that may follow, the states can be labelled with languages that the moves respect. -/
  sound : ∀ K : List Int → Prop, ∃ lab : Nat → List Int → Prop, (∀ w, K w → lab r.1.2 w) ∧ (∀ w, lab r.1.1 w → ∃ u v, w = u ++ v ∧ Lang c u ∧ K v) ∧
    (∀ p q, (p, q) ∈ E → ∀ w, lab q w → lab p w) ∧ ∀ p x q, (p, x, q) ∈ S → ∀ w, lab q w → lab p (x :: w)

theorem build_spec : ∀ (c : Core) (b : Builder), ∃ E S, Built c b (build c b) E S
  | .empty, b => by
    refine ⟨[(b.size, b.size + 1)], [], by simp [build, Builder.grow], rfl, by simp [build, Builder.grow], ⟨Nat.le_refl _, by simp [build, Builder.grow]⟩, ⟨by simp [build], by simp [build, Builder.grow]⟩, ?_, by simp, ?_, ?_⟩
    · intro p q h
      cases List.mem_singleton.1 h
      simp [build, Builder.grow]
    · intro B hE _ w hw
      cases (show w = [] from hw)
      exact .eps (hE _ (.head _)) (.nil _)
    · intro K
      refine ⟨fun _ => K, fun _ h => h, fun w h => ⟨[], w, by simp, rfl, h⟩, fun p q _ w h => h, fun _ _ _ h => nomatch h⟩
  | .symbols xs, b => by
    refine ⟨[], xs.map fun x => (b.size, x, b.size + 1), by simp [build, Builder.grow], by simp [build, Builder.grow], rfl, ⟨Nat.le_refl _, by simp [build, Builder.grow]⟩, ⟨by simp [build], by simp [build, Builder.grow]⟩, by simp, ?_, ?_, ?_⟩
    · intro p x q h
      obtain ⟨y, _, e⟩ := List.mem_map.1 h
      cases e
      simp [build, Builder.grow]
    · rintro B _ hS w ⟨x, rfl, hx⟩
      exact .sym (hS _ (List.mem_map.2 ⟨x, hx, rfl⟩)) (.nil _)
    · intro K
      refine ⟨fun q w => (q = b.size + 1 ∧ K w) ∨ (q = b.size ∧ ∃ x v, w = x :: v ∧ x ∈ xs ∧ K v), fun w h => .inl ⟨rfl, h⟩, ?_, (fun _ _ h => nomatch h), ?_⟩
      · rintro w (⟨h, _⟩ | ⟨_, x, v, rfl, hx, hv⟩)
        · exact absurd h (by simp [build])
        · exact ⟨[x], v, rfl, ⟨x, rfl, hx⟩, hv⟩
      · intro p x q h w hw
        obtain ⟨y, hy, e⟩ := List.mem_map.1 h
        cases e
        rcases hw with ⟨_, hw⟩ | ⟨h, _⟩
        · exact .inr ⟨rfl, x, w, rfl, hy, hw⟩
        · omega
  | .concat l r, b => by
    obtain ⟨E1, S1, h1⟩ := build_spec l b
    obtain ⟨E2, S2, h2⟩ := build_spec r (build l b).2
    have g1 := h1.grows
    have g2 := h2.grows
    have s1 := h1.start
    have c1 := h1.accept
    have s2 := h2.start
    have c2 := h2.accept
    have ee := h2.eps
    have es := h2.sym
    rw [h1.eps] at ee
    rw [h1.sym] at es
    rw [build]
    dsimp only
    generalize hx : build l b = x at *
    generalize hy : build r x.2 = y at *
    refine ⟨E1 ++ E2 ++ [(x.1.2, y.1.1)], S1 ++ S2, ?_, ?_, ?_, ?_, ?_, ?_, ?_, ?_, ?_⟩ <;> dsimp only
    · omega
    · rw [ee]; simp
    · rw [es]; simp
    · omega
    · omega
    · intro p q h
      rcases List.mem_append.1 h with h | h
      · rcases List.mem_append.1 h with h | h
        · have := h1.epsIn p q h; omega
        · have := h2.epsIn p q h; omega
      · cases List.mem_singleton.1 h
        omega
    · intro p x q h
      rcases List.mem_append.1 h with h | h
      · have := h1.symIn p x q h; omega
      · have := h2.symIn p x q h; omega
    · rintro B hE hS w ⟨u, v, rfl, hu, hv⟩
      refine (h1.complete B (fun e he => hE e (by simp [he])) (fun e he => hS e (by simp [he])) u hu).trans (.eps (hE (x.1.2, y.1.1) (by simp)) ?_)
      exact h2.complete B (fun e he => hE e (by simp [he])) (fun e he => hS e (by simp [he])) v hv
    · intro K
      obtain ⟨l2, a1, a2, a3, a4⟩ := h2.sound K
      obtain ⟨l1, b1, b2, b3, b4⟩ := h1.sound (l2 y.1.1)
      let lab : Nat → List Int → Prop := fun q w => if q < x.2.size then l1 q w else l2 q w
      have lo : ∀ q w, q < x.2.size → lab q w = l1 q w := fun q w h => if_pos h
      have hi : ∀ q w, x.2.size ≤ q → lab q w = l2 q w := fun q w h => if_neg (by omega)
      refine ⟨lab, ?_, ?_, ?_, ?_⟩
      · intro w hw; rw [hi _ _ c2.1]; exact a1 w hw
      · intro w hw
        rw [lo _ _ s1.2] at hw
        obtain ⟨u, v, rfl, hu, hv⟩ := b2 w hw
        obtain ⟨u', v', rfl, hu', hv'⟩ := a2 v hv
        exact ⟨u ++ u', v', by simp, ⟨u, u', rfl, hu, hu'⟩, hv'⟩
      · intro p q h w hw
        rcases List.mem_append.1 h with h | h
        · rcases List.mem_append.1 h with h | h
          · have := h1.epsIn p q h
            rw [lo _ _ this.1.2]; rw [lo _ _ this.2.2] at hw; exact b3 p q h w hw
          · have := h2.epsIn p q h
            rw [hi _ _ this.1.1]; rw [hi _ _ this.2.1] at hw; exact a3 p q h w hw
        · cases List.mem_singleton.1 h
          rw [lo _ _ c1.2]; rw [hi _ _ s2.1] at hw; exact b1 w hw
      · intro p x q h w hw
        rcases List.mem_append.1 h with h | h
        · have := h1.symIn p x q h
          rw [lo _ _ this.1.2]; rw [lo _ _ this.2.2] at hw; exact b4 p x q h w hw
        · have := h2.symIn p x q h
          rw [hi _ _ this.1.1]; rw [hi _ _ this.2.1] at hw; exact a4 p x q h w hw
  | .union l r, b => by
    obtain ⟨E1, S1, h1⟩ := build_spec l b.grow
    obtain ⟨E2, S2, h2⟩ := build_spec r (build l b.grow).2
    have g1 := h1.grows
    have g2 := h2.grows
    have gz : b.grow.size = b.size + 2 := rfl
    have s1 := h1.start
    have c1 := h1.accept
    have s2 := h2.start
    have c2 := h2.accept
    have ee := h2.eps
    have es := h2.sym
    rw [h1.eps] at ee
    rw [h1.sym] at es
    rw [build]
    dsimp only
    generalize hx : build l b.grow = x at *
    generalize hy : build r x.2 = y at *
    refine ⟨E1 ++ E2 ++ [(b.size, x.1.1), (b.size, y.1.1), (x.1.2, b.size + 1), (y.1.2, b.size + 1)], S1 ++ S2, ?_, ?_, ?_, ?_, ?_, ?_, ?_, ?_, ?_⟩ <;> dsimp only
    · omega
    · rw [ee]; simp [Builder.grow]
    · rw [es]; simp [Builder.grow]
    · omega
    · omega
    · intro p q h
      rcases List.mem_append.1 h with h | h
      · rcases List.mem_append.1 h with h | h
        · have := h1.epsIn p q h; omega
        · have := h2.epsIn p q h; omega
      · simp only [List.mem_cons, Prod.mk.injEq, List.not_mem_nil, or_false] at h
        omega
    · intro p x q h
      rcases List.mem_append.1 h with h | h
      · have := h1.symIn p x q h; omega
      · have := h2.symIn p x q h; omega
    · rintro B hE hS w (hw | hw)
      · have := (h1.complete B (fun e he => hE e (by simp [he])) (fun e he => hS e (by simp [he])) w hw).trans (.eps (hE (x.1.2, b.size + 1) (by simp)) (.nil _))
        rw [List.append_nil] at this
        exact .eps (hE _ (by simp)) this
      · have := (h2.complete B (fun e he => hE e (by simp [he])) (fun e he => hS e (by simp [he])) w hw).trans (.eps (hE (y.1.2, b.size + 1) (by simp)) (.nil _))
        rw [List.append_nil] at this
        exact .eps (hE (b.size, y.1.1) (by simp)) this
    · intro K
      obtain ⟨l2, a1, a2, a3, a4⟩ := h2.sound K
      obtain ⟨l1, b1, b2, b3, b4⟩ := h1.sound K
      let lab : Nat → List Int → Prop := fun q w => if q = b.size then (∃ u v, w = u ++ v ∧ Lang (.union l r) u ∧ K v) else if q = b.size + 1 then K w else if q < x.2.size then l1 q w else l2 q w
      have is : ∀ w, lab b.size w = (∃ u v, w = u ++ v ∧ Lang (.union l r) u ∧ K v) := fun w => if_pos rfl
      have ia : ∀ w, lab (b.size + 1) w = K w := fun w => (if_neg (by omega)).trans (if_pos rfl)
      have lo : ∀ q w, b.size + 2 ≤ q → q < x.2.size → lab q w = l1 q w := fun q w h h' => (if_neg (by omega)).trans ((if_neg (by omega)).trans (if_pos h'))
      have hi : ∀ q w, x.2.size ≤ q → lab q w = l2 q w := fun q w h => (if_neg (by omega)).trans ((if_neg (by omega)).trans (if_neg (by omega)))
      refine ⟨lab, ?_, ?_, ?_, ?_⟩
      · intro w hw; rw [ia]; exact hw
      · intro w hw; rwa [is] at hw
      · intro p q h w hw
        rcases List.mem_append.1 h with h | h
        · rcases List.mem_append.1 h with h | h
          · have := h1.epsIn p q h
            rw [lo _ _ this.1.1 this.1.2]; rw [lo _ _ this.2.1 this.2.2] at hw; exact b3 p q h w hw
          · have := h2.epsIn p q h
            rw [hi _ _ this.1.1]; rw [hi _ _ this.2.1] at hw; exact a3 p q h w hw
        · simp only [List.mem_cons, Prod.mk.injEq, List.not_mem_nil, or_false] at h
          rcases h with ⟨rfl, rfl⟩ | ⟨rfl, rfl⟩ | ⟨rfl, rfl⟩ | ⟨rfl, rfl⟩
          · rw [lo _ _ s1.1 s1.2] at hw
            rw [is]
            obtain ⟨u, v, e, hu, hv⟩ := b2 w hw
            exact ⟨u, v, e, .inl hu, hv⟩
          · rw [hi _ _ s2.1] at hw
            rw [is]
            obtain ⟨u, v, e, hu, hv⟩ := a2 w hw
            exact ⟨u, v, e, .inr hu, hv⟩
          · rw [ia] at hw
            rw [lo _ _ c1.1 c1.2]; exact b1 w hw
          · rw [ia] at hw
            rw [hi _ _ c2.1]; exact a1 w hw
      · intro p x q h w hw
        rcases List.mem_append.1 h with h | h
        · have := h1.symIn p x q h
          rw [lo _ _ this.1.1 this.1.2]; rw [lo _ _ this.2.1 this.2.2] at hw; exact b4 p x q h w hw
        · have := h2.symIn p x q h
          rw [hi _ _ this.1.1]; rw [hi _ _ this.2.1] at hw; exact a4 p x q h w hw
  | .star l, b => by
    obtain ⟨E1, S1, h1⟩ := build_spec l b.grow
    have g1 := h1.grows
    have gz : b.grow.size = b.size + 2 := rfl
    have s1 := h1.start
    have c1 := h1.accept
    have ee := h1.eps
    have es := h1.sym
    rw [build]
    dsimp only
    generalize hx : build l b.grow = x at *
    refine ⟨E1 ++ [(b.size, x.1.1), (b.size, b.size + 1), (x.1.2, x.1.1), (x.1.2, b.size + 1)], S1, ?_, ?_, ?_, ?_, ?_, ?_, ?_, ?_, ?_⟩ <;> dsimp only
    · omega
    · rw [ee]; simp [Builder.grow]
    · rw [es]; simp [Builder.grow]
    · omega
    · omega
    · intro p q h
      rcases List.mem_append.1 h with h | h
      · have := h1.epsIn p q h; omega
      · simp only [List.mem_cons, Prod.mk.injEq, List.not_mem_nil, or_false] at h
        omega
    · intro p x q h
      have := h1.symIn p x q h; omega
    · rintro B hE hS w ⟨k, hk⟩
      have hl := h1.complete B (fun e he => hE e (by simp [he])) hS
      have loop : ∀ k w, Times (Lang l) (k + 1) w → Path B x.1.1 w (b.size + 1) := by
        intro k
        induction k with
        | zero =>
          intro w hw
          have := (hl w (times_one.1 hw)).trans (.eps (hE (x.1.2, b.size + 1) (by simp)) (.nil _))
          rwa [List.append_nil] at this
        | succ k ih =>
          rintro w ⟨u, v, rfl, hu, hv⟩
          exact (hl u hu).trans (.eps (hE (x.1.2, x.1.1) (by simp)) (ih v hv))
      cases k with
      | zero =>
        cases (show w = [] from hk)
        exact .eps (hE (b.size, b.size + 1) (by simp)) (.nil _)
      | succ k => exact .eps (hE (b.size, x.1.1) (by simp)) (loop k w hk)
    · intro K
      obtain ⟨l1, b1, b2, b3, b4⟩ := h1.sound (fun w => ∃ u v, w = u ++ v ∧ Lang (.star l) u ∧ K v)
      have more : ∀ w, l1 x.1.1 w → ∃ u v, w = u ++ v ∧ Lang (.star l) u ∧ K v := by
        intro w hw
        obtain ⟨u, v, rfl, hu, u', v', rfl, ⟨k, hk⟩, hv⟩ := b2 w hw
        exact ⟨u ++ u', v', by simp, ⟨k + 1, u, u', rfl, hu, hk⟩, hv⟩
      have none' : ∀ w, K w → ∃ u v, w = u ++ v ∧ Lang (.star l) u ∧ K v := fun w hw => ⟨[], w, by simp, ⟨0, rfl⟩, hw⟩
      let lab : Nat → List Int → Prop := fun q w => if q = b.size then (∃ u v, w = u ++ v ∧ Lang (.star l) u ∧ K v) else if q = b.size + 1 then K w else l1 q w
      have is : ∀ w, lab b.size w = (∃ u v, w = u ++ v ∧ Lang (.star l) u ∧ K v) := fun w => if_pos rfl
      have ia : ∀ w, lab (b.size + 1) w = K w := fun w => (if_neg (by omega)).trans (if_pos rfl)
      have lo : ∀ q w, b.size + 2 ≤ q → lab q w = l1 q w := fun q w h => (if_neg (by omega)).trans (if_neg (by omega))
      refine ⟨lab, ?_, ?_, ?_, ?_⟩
      · intro w hw; rw [ia]; exact hw
      · intro w hw; rwa [is] at hw
      · intro p q h w hw
        rcases List.mem_append.1 h with h | h
        · have := h1.epsIn p q h
          rw [lo _ _ this.1.1]; rw [lo _ _ this.2.1] at hw; exact b3 p q h w hw
        · simp only [List.mem_cons, Prod.mk.injEq, List.not_mem_nil, or_false] at h
          rcases h with ⟨rfl, rfl⟩ | ⟨rfl, rfl⟩ | ⟨rfl, rfl⟩ | ⟨rfl, rfl⟩
          · rw [lo _ _ s1.1] at hw
            rw [is]; exact more w hw
          · rw [ia] at hw
            rw [is]; exact none' w hw
          · rw [lo _ _ s1.1] at hw
            rw [lo _ _ c1.1]; exact b1 w (more w hw)
          · rw [ia] at hw
            rw [lo _ _ c1.1]; exact b1 w (none' w hw)
      · intro p x q h w hw
        have := h1.symIn p x q h
        rw [lo _ _ this.1.1]; rw [lo _ _ this.2.1] at hw; exact b4 p x q h w hw

/-- An automaton whose moves are between states that exist. -/
structure Builder.OK (b : Builder) : Prop where
  eps : ∀ p q, (p, q) ∈ b.eps → q < b.size
  sym : ∀ p x q, (p, x, q) ∈ b.sym → q < b.size

/-- The words that are read on the way from the start to the accepting state are those that the tree matches. -/
theorem build_right {c : Core} {s a : Nat} {b : Builder} (h : build c ⟨0, [], []⟩ = ((s, a), b)) : b.OK ∧ s < b.size ∧ ∀ w, Path b s w a ↔ Lang c w := by
  obtain ⟨E, S, hb⟩ := build_spec c ⟨0, [], []⟩
  rw [h] at hb
  have he : b.eps = E := by simpa using hb.eps
  have hs : b.sym = S := by simpa using hb.sym
  subst he
  subst hs
  refine ⟨⟨fun p q hpq => (hb.epsIn p q hpq).2.2, fun p x q hpq => (hb.symIn p x q hpq).2.2⟩, hb.start.2, fun w => ⟨fun hp => ?_, fun hw => hb.complete b (fun _ h => h) (fun _ h => h) w hw⟩⟩
  obtain ⟨lab, l1, l2, l3, l4⟩ := hb.sound (· = [])
  have : ∀ p w q, Path b p w q → q = a → lab p w := by
    intro p w q hp
    induction hp with
    | nil q => rintro rfl; exact l1 [] rfl
    | eps h _ ih => exact fun e => l3 _ _ h _ (ih e)
    | sym h _ ih => exact fun e => l4 _ _ _ h _ (ih e)
  obtain ⟨u, v, rfl, hu, rfl⟩ := l2 w (this s w a hp rfl)
  simpa using hu

end Gcs.Regex
