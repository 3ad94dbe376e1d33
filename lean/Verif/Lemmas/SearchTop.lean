import Verif.Lemmas.Passes

/-! From the restart loop to the whole search. -/

namespace Gcs
open IntervalSet Queue

section
variable {σ μ : Type} {n m : Nat} {R : Err → Prop} {V : SearchEnv σ μ} {Sol : Asg → Prop} {Leaf : Doms → Prop} {store : μ → List (List Cond)} {Le : μ → μ → Prop}
  {J : Sys σ μ → Prop} {I : Nat → Sys σ μ → Prop}

/-- The search can start: root level, nothing learned yet. -/
structure StartOK (n m : Nat) (V : SearchEnv σ μ) (store : μ → List (List Cond)) (J : Sys σ μ → Prop) (s : Sys σ μ) : Prop where
  root : RootOK n m V.engine s
  j : J s
  guesses : s.st.guesses = []
  fresh : store s.mem = []

/-- The bounds on depth and number of passes are generous enough: more depth than there are values in the domains, and with a restart schedule, which must come with learning, enough passes to get to a
cutoff greater than the number of assignments. -/
structure Enough (V : SearchEnv σ μ) (s : Sys σ μ) (depthFuel fuel : Nat) (sched : Option Restarts) : Prop where
  depth : s.doms.card < depthFuel
  passes : 0 < fuel
  sched : ∀ r, sched = some r → V.learn.isSome = true ∧ r.index = 1 ∧ ∃ N, 1 ≤ N ∧ N ≤ fuel ∧ s.doms.size < (⟨r.scale, N⟩ : Restarts).cutoff

theorem StartOK.inv {s : Sys σ μ} (h : StartOK n m V store J s) : PassInv n m V Sol Leaf store J I s s {} false where
  root := h.root
  j := h.j
  guesses := h.guesses
  evolve := ⟨[], .refl _ h.root.call.domsOK⟩
  bound := fun h => absurd rfl h
  obj := ⟨fun _ => rfl, nofun⟩
  improves := .nil fun _ => rfl
  good := by simp
  apart := fun _ => .nil
  kept := fun a ha hw => .inl ⟨⟨ha, by rw [h.fresh]; simp⟩, hw⟩
  excluded := by simp
  counts := ⟨[], ⟨rfl, rfl, rfl, rfl, rfl, rfl, by simp, rfl⟩, rfl⟩
  answers := by simp
  has := by simp

theorem search_spec (hC : SearchContract n m R V Sol Leaf store Le J I) {s : Sys σ μ} (h : StartOK n m V store J s) {depthFuel fuel : Nat} {sched : Option Restarts}
    (hf : Enough V s depthFuel fuel sched) :
    Thrown R (search V depthFuel fuel sched s) ∨ ∃ res has s' t, search V depthFuel fuel sched s = .ok ((res, has, s', t), decide (res = .complete)) ∧
      SearchSpec n V Sol Leaf s res has t := by
  have key : ∀ N, (∀ r, sched = some r → V.learn.isSome = true ∧ 1 ≤ r.index ∧ r.index ≤ N ∧ N < r.index + fuel ∧ s.doms.size < (⟨r.scale, N⟩ : Restarts).cutoff) →
      Thrown R (search V depthFuel fuel sched s) ∨ ∃ res has s' t, search V depthFuel fuel sched s = .ok ((res, has, s', t), decide (res = .complete)) ∧
        SearchSpec n V Sol Leaf s res has t := by
    intro N hN
    rcases passes_spec hC hf.depth h.root.call.domsOK fuel sched false s {} h.inv hf.passes hN with ht | ⟨res, has, s', t, hr, hs⟩
    · exact .inl (Thrown.bind (R := R) ht _)
    · exact .inr ⟨res, has, s', t, by unfold search; rw [hr]; rfl, hs⟩
  cases sched with
  | none => exact key 0 (by simp)
  | some r =>
    obtain ⟨h1, h2, N, h3, h4, h5⟩ := hf.sched r rfl
    refine key N ?_
    intro r' hr
    cases hr
    exact ⟨h1, by omega, by omega, by omega, h5⟩

theorem search_ok (hC : SearchContract n m R V Sol Leaf store Le J I) {s : Sys σ μ} (h : StartOK n m V store J s) {depthFuel fuel : Nat} {sched : Option Restarts}
    (hf : Enough V s depthFuel fuel sched) {res : SearchResult} {has : Bool} {s' : Sys σ μ} {t : Tally} {done : Bool}
    (hr : search V depthFuel fuel sched s = .ok ((res, has, s', t), done)) : done = decide (res = .complete) ∧ SearchSpec n V Sol Leaf s res has t := by
  rcases search_spec hC h hf with ⟨e, he, _⟩ | ⟨res', has', s'', t', he, hs⟩
  · rw [he] at hr; cases hr
  · rw [he] at hr; cases hr; exact ⟨rfl, hs⟩

theorem le_deepest : ∀ (vs : List (List Lit)) (m : Nat), m ≤ deepest m vs ∧ (∀ q ∈ vs, q.length ≤ deepest m vs) ∧ (deepest m vs = m ∨ ∃ q ∈ vs, q.length = deepest m vs)
  | [], m => ⟨Nat.le_refl _, by simp, .inl rfl⟩
  | v :: vs, m => by
    obtain ⟨h1, h2, h3⟩ := le_deepest vs (max m v.length)
    have e : deepest m (v :: vs) = deepest (max m v.length) vs := rfl
    rw [e]
    refine ⟨by omega, ?_, ?_⟩
    · intro q hq
      rcases List.mem_cons.1 hq with rfl | hq
      · omega
      · exact h2 q hq
    · rcases h3 with h | ⟨q, hq, h⟩
      · by_cases hm : v.length ≤ m
        · exact .inl (by omega)
        · exact .inr ⟨v, by simp, by omega⟩
      · exact .inr ⟨q, by simp [hq], h⟩

end
end Gcs
