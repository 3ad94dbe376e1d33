import Verif.Lemmas.Checks

/-! Contracts for what is checked only for assignments within the initial domains. -/

namespace Gcs

section
variable {σ μ : Type} {n m : Nat} {R : Err → Prop} {V : SearchEnv σ μ} {Sol Fin : Asg → Prop} {Leaf : Doms → Prop} {store : μ → List (List Cond)} {Le : μ → μ → Prop}
  {J : Sys σ μ → Prop} {I : Nat → Sys σ μ → Prop}

/-- All that is left is within `root`. -/
def Rooted (root : Doms) (s : Sys σ μ) : Prop := ∀ a, Within s.doms a → Within root a

theorem Entry.rooted {root : Doms} {E : Engine σ μ} {k : Nat} {gs : List Lit} {s : Sys σ μ}
    (h : Entry n m E store (fun s => J s ∧ Rooted root s) (fun k s => I k s ∧ Rooted root s) k gs s) : Entry n m E store J I k gs s ∧ Rooted root s := by
  cases h with
  | root _ h1 h2 h3 => exact ⟨.root _ h1 h2.1 h3, h2.2⟩
  | again p _ l h1 h2 h3 h4 =>
    obtain ⟨cs, he, _⟩ := h4.narrow.evolve
    exact ⟨.again p _ l h1 h2.1 h3 h4, fun a ha => h2.2 a (he.within ha)⟩
  | child p _ l h1 h2 h3 h4 =>
    obtain ⟨cs, he, _⟩ := h4.narrow.evolve
    exact ⟨.child p _ l h1 h2.1 h3 h4, fun a ha => h2.2 a (he.within ha)⟩
  | childBound p c _ l b h1 h2 h3 h4 h5 h6 =>
    obtain ⟨cs, he, _⟩ := h4.narrow.evolve
    obtain ⟨cs', he', _⟩ := h6.narrow.evolve
    exact ⟨.childBound p c _ l b h1 h2.1 h3 h4 h5 h6, fun a ha => h2.2 a (he.within (he'.within ha))⟩

theorem SearchPre.relative (h : SearchPre n m R V Sol Fin Leaf store Le J I) {root : Doms} (hr : ∀ a, Within root a → Fin a → Sol a) :
    SearchContract n m R V Sol Leaf store Le (fun s => J s ∧ Rooted root s) (fun k s => I k s ∧ Rooted root s) where
  runs := fun k gs s he => h.runs k gs s he.rooted.1
  objective := h.objective
  branch := h.branch
  monotone := h.monotone
  le_refl := h.le_refl
  le_trans := h.le_trans
  learned := h.learned
  call := by
    intro k gs s b s' he e
    obtain ⟨he', hi⟩ := he.rooted
    obtain ⟨h1, h2, h3, h4⟩ := h.call k gs s b s' he' e
    refine ⟨h1, h2, h3, fun hb hab => ⟨h4 hb hab, fun a ha => ?_⟩⟩
    rcases h.runs k gs s he' with ⟨x, h5, _⟩ | ⟨b', s2, h5, h6⟩
    · rw [h5] at e; cases e
    rw [h5] at e; cases e
    obtain ⟨cs, hev⟩ := h6.good hb
    exact hi a (hev.within ha)
  back := by
    intro k p p' hp hi hs hle
    refine ⟨h.back k p p' hp hi.1 hs hle, fun a ha => hi.2 a ?_⟩
    rw [← hs.doms]; exact ha
  again := fun k p hi => ⟨h.again k p hi.1, hi.2⟩
  leaf := by
    intro k s hs hi hl a ha
    obtain ⟨h1, h2⟩ := h.leaf k s hs hi.1 hl a ha
    exact ⟨hr a (hi.2 a ha) h1, h2⟩

theorem Checks.mono {f : Prog σ μ PState} {t : Triggers} {C D : Asg → Prop} {vs : List Nat} (h : Checks n f t C vs) (hcd : ∀ a, C a → D a) : Checks n f t D vs :=
  ⟨h.wakes, fun d h1 h2 => wp_mono (fun _ _ ⟨k1, k2, k3⟩ => ⟨fun hf a ha => hcd a (k1 hf a ha), fun ht e hf a ha => hcd a (k2 ht e hf a ha), fun e a ha => hcd a (k3 e a ha)⟩) _ _ (h.checks d h1 h2)⟩

end
end Gcs
