import Verif.Lemmas.Propagate

/-! Installing propagators. -/

namespace Gcs
open IntervalSet Queue

section
variable {σ μ : Type} {n m : Nat} {R : Err → Prop}

theorem empty_wf : (Engine.empty : Engine σ μ).WF n m R := ⟨rfl, rfl, rfl, by simp [Sys.triggersOf, Engine.empty], by simp [Engine.empty]⟩

theorem triggersOf_add (E : Engine σ μ) (p : Nat) (mk : Mask) (x : VarId) (v : Nat) :
    Sys.triggersOf (E.addTrigger p mk x) v = Sys.triggersOf E v ++ (if x.underlyingIndex = some v then [(p, mk)] else []) := by
  unfold Sys.triggersOf Engine.addTrigger
  cases hx : x.underlyingIndex with
  | none => simp
  | some i =>
    simp only [List.getElem?_set, growTo_get, growTo_length]
    by_cases h : i = v
    · subst h
      have : i < max E.ivTriggers.length (i + 1) := by omega
      by_cases h1 : i < E.ivTriggers.length
      · simp [h1]
        rw [if_pos this]; rfl
      · simp [h1, this]
    · have : ¬ some i = some v := by simpa using h
      rw [if_neg h, if_neg this]
      by_cases h1 : v < E.ivTriggers.length
      · rw [if_pos h1]; simp
      · rw [if_neg h1, List.getElem?_eq_none (Nat.le_of_not_lt h1)]; split <;> simp

/-- Every field but the trigger table is left alone. -/
theorem addTrigger_eq (E : Engine σ μ) (p : Nat) (mk : Mask) (x : VarId) : E.addTrigger p mk x = { E with ivTriggers := (E.addTrigger p mk x).ivTriggers } := by
  unfold Engine.addTrigger; cases x.underlyingIndex <;> rfl

theorem foldl_triggers (p : Nat) (mk : Mask) : ∀ (xs : List VarId) (E : Engine σ μ),
    xs.foldl (fun E v => E.addTrigger p mk v) E = { E with ivTriggers := (xs.foldl (fun E v => E.addTrigger p mk v) E).ivTriggers } ∧
    ∀ v t, t ∈ Sys.triggersOf (xs.foldl (fun E v => E.addTrigger p mk v) E) v ↔ t ∈ Sys.triggersOf E v ∨ (t = (p, mk) ∧ ∃ x ∈ xs, x.underlyingIndex = some v)
  | [], E => ⟨rfl, by simp⟩
  | x :: xs, E => by
    obtain ⟨h1, h2⟩ := foldl_triggers p mk xs (E.addTrigger p mk x)
    constructor
    · rw [List.foldl_cons, h1, addTrigger_eq]
    · intro v t
      rw [List.foldl_cons, h2, triggersOf_add, List.mem_append]
      constructor
      · rintro ((a | a) | ⟨a, y, b, c⟩)
        · exact .inl a
        · split at a
          · rename_i hx
            exact .inr ⟨by simpa using a, x, by simp, hx⟩
          · cases a
        · exact .inr ⟨a, y, by simp [b], c⟩
      · rintro (a | ⟨a, y, b, c⟩)
        · exact .inl (.inl a)
        · rcases List.mem_cons.1 b with rfl | b
          · left; right; rw [if_pos c, a]; simp
          · exact .inr ⟨a, y, b, c⟩

/-- The entry for a new propagator in the trigger table is what was asked for, nothing else in it changes. -/
theorem install_triggers (E : Engine σ μ) (c : Nat) (f : Prog σ μ PState) (t : Triggers) (v : Nat) (e : Nat × Mask) :
    e ∈ Sys.triggersOf (E.install c f t) v ↔ e ∈ Sys.triggersOf E v ∨ (e.1 = E.progs.length ∧
      ((e.2 = [.interiorValuesChanged, .boundsChanged, .instantiated] ∧ ∃ x ∈ t.onChange, x.underlyingIndex = some v) ∨
       (e.2 = [.boundsChanged, .instantiated] ∧ ∃ x ∈ t.onBounds, x.underlyingIndex = some v) ∨
       (e.2 = [.instantiated] ∧ ∃ x ∈ t.onInstantiated, x.underlyingIndex = some v))) := by
  unfold Engine.install
  simp only [Engine.triggerOnChange, Engine.triggerOnBounds, Engine.triggerOnInstantiated]
  rw [(foldl_triggers _ _ _ _).2, (foldl_triggers _ _ _ _).2, (foldl_triggers _ _ _ _).2]
  unfold Sys.triggersOf
  simp only [Prod.ext_iff]
  constructor
  · rintro (((a | ⟨⟨a, b⟩, c⟩) | ⟨⟨a, b⟩, c⟩) | ⟨⟨a, b⟩, c⟩)
    · exact .inl a
    · exact .inr ⟨a, .inl ⟨b, c⟩⟩
    · exact .inr ⟨a, .inr (.inl ⟨b, c⟩)⟩
    · exact .inr ⟨a, .inr (.inr ⟨b, c⟩)⟩
  · rintro (a | ⟨a, ⟨b, c⟩ | ⟨b, c⟩ | ⟨b, c⟩⟩)
    · exact .inl (.inl (.inl a))
    · exact .inl (.inl (.inr ⟨⟨a, b⟩, c⟩))
    · exact .inl (.inr ⟨⟨a, b⟩, c⟩)
    · exact .inr ⟨⟨a, b⟩, c⟩

/-- The fields other than the trigger table. -/
theorem install_fields (E : Engine σ μ) (c : Nat) (f : Prog σ μ PState) (t : Triggers) :
    (E.install c f t).progs = E.progs ++ [f] ∧ (E.install c f t).permDisabled = E.permDisabled ++ [false] ∧
    (E.install c f t).scope.length = E.scope.length + 1 ∧
    (E.install c f t).claimsIgnored = E.claimsIgnored ++
      [decide (¬ ((t.onChange ++ t.onBounds ++ t.onInstantiated ++ t.scopeOnly).filterMap VarId.underlyingIndex).Nodup)] := by
  unfold Engine.install
  simp only [Engine.triggerOnChange, Engine.triggerOnBounds, Engine.triggerOnInstantiated]
  rw [(foldl_triggers _ _ _ _).1, (foldl_triggers _ _ _ _).1, (foldl_triggers _ _ _ _).1]
  simp

theorem install_wf {E : Engine σ μ} (h : E.WF n m R) (c : Nat) {f : Prog σ μ PState} (hf : f.Safe n m R) (t : Triggers) : (E.install c f t).WF n m R := by
  obtain ⟨h1, h2, h3, h4⟩ := install_fields E c f t
  refine ⟨?_, ?_, ?_, ?_, ?_⟩
  · rw [h4, h1]; simp [h.ignoredLen]
  · rw [h2, h1]; simp [h.permLen]
  · rw [h3, h1]; simp [h.scopeLen]
  · intro v p mk hp
    rw [h1, List.length_append]
    rcases (install_triggers E c f t v (p, mk)).1 hp with hp | ⟨hp, _⟩
    · have := h.trig v p mk hp; simp; omega
    · have hp : p = E.progs.length := hp
      simp; omega
  · intro g hg
    rw [h1] at hg
    rcases List.mem_append.1 hg with hg | hg
    · exact h.progs g hg
    · rw [List.mem_singleton.1 hg]; exact hf

theorem disable_wf {E : Engine σ μ} (h : E.WF n m R) (ids : List Nat) : (E.disableConstraints ids).WF n m R :=
  ⟨h.ignoredLen, by simp [Engine.disableConstraints]; exact h.permLen, h.scopeLen, h.trig, h.progs⟩

/-- Engines made by installing and disabling; what was installed, in order. -/
inductive Built (n m : Nat) (R : Err → Prop) : Engine σ μ → List (Prog σ μ PState × Triggers) → Prop where
  | empty : Built n m R Engine.empty []
  | install {E : Engine σ μ} {l : List (Prog σ μ PState × Triggers)} (c : Nat) (f : Prog σ μ PState) (t : Triggers) : Built n m R E l → f.Safe n m R →
    (∀ r ∈ t.refined, r.1.Valid n ∧ r.1.RangeOK) → Built n m R (E.install c f t) (l ++ [(f, t)])
  | disable {E : Engine σ μ} {l : List (Prog σ μ PState × Triggers)} (ids : List Nat) : Built n m R E l → Built n m R (E.disableConstraints ids) l

theorem Built.wf {E : Engine σ μ} {l} (h : Built n m R E l) : E.WF n m R := by
  induction h with
  | empty => exact empty_wf
  | install c f t _ hf _ ih => exact install_wf ih c hf t
  | disable ids _ ih => exact disable_wf ih ids

theorem Built.progs {E : Engine σ μ} {l} (h : Built n m R E l) : E.progs = l.map (·.1) := by
  induction h with
  | empty => rfl
  | install c f t _ hf _ ih => rw [(install_fields _ c f t).1, ih]; simp
  | disable ids _ ih => exact ih

/-- Register watches before propagation starts. -/
theorem WatchesOK.register {np : Nat} {w : Watches} (h : WatchesOK n np w) {o : Nat} (ho : o < np) {l : Lit} (h1 : l.Valid n) (h2 : l.RangeOK) (p : Nat) (b : Bool) :
    WatchesOK n np (w.register o l p b) := by
  have := (WStep.register (n := n) (np := np) w o l p ho h1 h2).ok h
  have e1 : (w.register o l p b).byVar = (w.register o l p true).byVar := by unfold Watches.register; cases l.underlyingIndex <;> rfl
  have e2 : (w.register o l p b).nextId = (w.register o l p true).nextId := by unfold Watches.register; cases l.underlyingIndex <;> rfl
  unfold WatchesOK at this ⊢
  rw [e1, e2]; exact this

theorem WatchesOK.mono {np np' : Nat} {w : Watches} (h : WatchesOK n np w) (hn : np ≤ np') : WatchesOK n np' w := by
  intro v ws x hv hx
  obtain ⟨a, b, c, d, e, f⟩ := h v ws x hv hx
  exact ⟨a, b, c, Nat.lt_of_lt_of_le d hn, e, f⟩

theorem installWatches_ok {np : Nat} {w : Watches} (h : WatchesOK n np w) {id : Nat} (hid : id < np) (t : Triggers)
    (ht : ∀ r ∈ t.refined, r.1.Valid n ∧ r.1.RangeOK) : WatchesOK n np (Engine.installWatches w id t) := by
  unfold Engine.installWatches
  revert ht
  generalize t.refined = l
  intro ht
  induction l generalizing w with
  | nil => exact h
  | cons r l ih => exact ih (h.register hid (ht r (by simp)).1 (ht r (by simp)).2 r.2 false) (fun x hx => ht x (by simp [hx]))

end
end Gcs
