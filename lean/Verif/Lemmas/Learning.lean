import Verif.Lemmas.Nogoods

/-! Search with restarts and learned nogoods: the contract of the search is met. -/

namespace Gcs
open IntervalSet Queue

section
variable {σ μ : Type} {n m : Nat} {R : Err → Prop}

/-- Every run keeps something about captured memory, however it ends. -/
def KeepsMem (n m : Nat) (P : μ → Prop) (c : Ctx) (f : Prog σ μ PState) : Prop :=
  ∀ s r s', Runnable n m s → P s.mem → runProg c f s = .ok (r, s') → P s'.mem

theorem propagate_mem {E : Engine σ μ} (hE : E.WF n m R) {abort : Nat → Bool} {gs : List Lit} {s : Sys σ μ} (h : CallOK n m E gs s) {P : μ → Prop}
    (hs : ∀ (p : Nat) f sc, E.progs[p]? = some f → E.scope[p]? = some sc → E.permDisabled[p]? = some false → KeepsMem n m P ⟨p, sc⟩ f)
    (hP : P s.mem) {b : Bool} {s' : Sys σ μ} (hr : Sys.propagate E gs abort s = .ok (b, s')) : P s'.mem := by
  have hrun : ∀ (s1 : Sys σ μ) p q' f sc r sr, LoopOK n m E.progs.length s1 → P s1.mem → E.progs[p]? = some f → E.scope[p]? = some sc →
      E.permDisabled[p]? = some false → runProg ⟨p, sc⟩ f (s1.started p q') = .ok (r, sr) → P sr.mem := by
    intro s1 p q' f sc r sr h1 hi hf hsc hd hrun
    exact hs p f sc hf hsc hd (s1.started p q') r sr ⟨h1.ok.run.1, h1.ok.run.2, h1.ok.run.3, h1.ok.run.4, h1.ok.run.5⟩ hi hrun
  have ind := propagate_ind hE abort h (fun x => P x.mem) ?_ ?_ ?_ ?_
  rotate_left
  · intro s1 h1; rw [h1.eq]; exact hP
  · intro s1 s2 h1 hi hb h2; rw [h2.eq]; exact hi
  · intro s1 t s2 h1 hi hne h2 ht
    cases h2 with
    | contradiction => exact absurd rfl ht
    | skipped p q' hp hd => exact hi
    | fine p q' f sc ig ps sr cs hp hd hf hsc hig hrun' hfr hran => exact hrun s1 p q' f sc _ sr h1 hi hf hsc hd hrun'
  · intro s1 k _ hi; exact hi
  rcases ind with ⟨e, he, _⟩ | ⟨b, s2, e, hend⟩
  · rw [he] at hr; cases hr
  · rw [e] at hr; cases hr
    show P s2.mem
    generalize hbb : (some (!b) : Option Bool) = ob at hend
    cases hend with
    | fuel => cases hbb
    | contradiction s1 s2 h1 hi hne ht =>
      cases ht with
      | contradiction p q' f sc r sr w hp hd hf hsc hrun' hfr hfail hw => exact hrun s1 p q' f sc r sr h1 hi hf hsc hd hrun'
    | drained s1 s2 h1 hi h2 hi2 hb => exact hi2
    | aborted s1 i h1 hi ha _ => exact hi

/-- A propagator that leaves the nogoods alone. -/
def Spares (n m : Nat) (cell : Cell μ NogoodMem) (f : Prog σ μ PState) : Prop :=
  ∀ c s r s', Runnable n m s → runProg c f s = .ok (r, s') → cell.get s'.mem = cell.get s.mem

/-- How the search and its propagators use the nogoods: all propagators but number `me` are sound for the solutions, check them and leave the nogoods alone; the heuristic partitions, and what it guesses
about, what the constraints are about and what the objective is about are the variables `B`. -/
structure Learner (n m : Nat) (R : Err → Prop) (V : SearchEnv σ μ) (l : List (Prog σ μ PState × Triggers)) (cell : Cell μ NogoodMem) (me : Nat) (Sol Fin : Asg → Prop) (C : Nat → Asg → Prop)
    (vs : Nat → List Nat) (B : List Nat) : Prop where
  built : Built n m R V.engine l
  on : V.engine.permDisabled[me]? = some false
  sound : ∀ (p : Nat) f, p ≠ me → V.engine.progs[p]? = some f → V.engine.permDisabled[p]? = some false → ∀ a, Sol a → f.Truthful n a
  checks : ∀ p f t, p ≠ me → l[p]? = some (f, t) → V.engine.permDisabled[p]? = some false → Checks n f t (C p) (vs p)
  spares : ∀ (p : Nat) f, p ≠ me → V.engine.progs[p]? = some f → V.engine.permDisabled[p]? = some false → Spares n m cell f
  sol : ∀ a, (∀ p, p ≠ me → V.engine.permDisabled[p]? = some false → C p a) → Fin a
  vars : ∀ p, p ≠ me → V.engine.permDisabled[p]? = some false → ∀ v ∈ vs p, v ∈ B
  objective : ∀ o, V.minimise = some o → o.Valid n ∧ ∀ v, o.underlyingIndex = some v → v ∈ B
  branch : ∀ i s, NodeOK n m V.engine s → Thrown R (V.branch i s) ∨ ∃ bs, V.branch i s = .ok bs ∧
    if bs = [] then ∀ v ∈ B, Fixed s.doms v else BranchOK n s.doms bs ∧ ∀ b ∈ bs, ∀ v, b.var.underlyingIndex = some v → v ∈ B
  monotone : ∀ i j, i ≤ j → V.abort i = true → V.abort j = true
  learn : V.learn = some fun g x => cell.set ((cell.get x).add g) x

/-- All literals of all nogoods could be guessed. -/
def AllGuesses (n : Nat) (B : List Nat) (store : List (List Cond)) : Prop := ∀ g ∈ store, ∀ c ∈ g, GuessOK n (fun d => ∀ v ∈ B, Fixed d v) c

section
variable {V : SearchEnv σ μ} {l : List (Prog σ μ PState × Triggers)} {cell : Cell μ NogoodMem} {me : Nat} {Sol Fin : Asg → Prop} {C : Nat → Asg → Prop} {vs : Nat → List Nat} {B : List Nat}

theorem Learner.objectiveFixed (h : Learner n m R V l cell me Sol Fin C vs B) (o : VarId) (ho : V.minimise = some o) :
    o.Valid n ∧ ∀ d a b, (∀ v ∈ B, Fixed d v) → Within d a → Within d b → o.eval a = o.eval b := by
  refine ⟨(h.objective o ho).1, ?_⟩
  intro d a b hd ha hb'
  have key : ∀ v, v ∈ B → a v = b v := by
    intro v hv
    obtain ⟨s, hs, w, hw⟩ := hd v hv
    rw [(hw _).1 (ha v s hs), (hw _).1 (hb' v s hs)]
  cases o with
  | const c => rfl
  | simple v => exact key v ((h.objective _ ho).2 v rfl)
  | view v neg off => simp only [VarId.eval]; rw [key v ((h.objective _ ho).2 v rfl)]

theorem Learner.branches (h : Learner n m R V l cell me Sol Fin C vs B) (i : Nat) (s : Sys σ μ) (hs : NodeOK n m V.engine s) :
    Thrown R (V.branch i s) ∨ ∃ bs, V.branch i s = .ok bs ∧ if bs = [] then ∀ v ∈ B, Fixed s.doms v else BranchOK n s.doms bs ∧ ∀ b ∈ bs, Decided (fun d => ∀ v ∈ B, Fixed d v) b := by
  rcases h.branch i s hs with h | ⟨bs, h1, h2⟩
  · exact .inl h
  · refine .inr ⟨bs, h1, ?_⟩
    split
    · rename_i hn; rw [if_pos hn] at h2; exact h2
    · rename_i hn; rw [if_neg hn] at h2; exact ⟨h2.1, fun b hb => decided_of (h2.2 b hb)⟩

/-- If everything is fixed and a literal of the nogood is not known to be true, the nogood is not violated. -/
theorem unbroken_open {d d' : Doms} {cs : List (Nat × Inference)} (hev : Evolve d cs d') {g : List Cond} (hg : ∀ c ∈ g, GuessOK n (fun d => ∀ v ∈ B, Fixed d v) c) (hf : ∀ v ∈ B, Fixed d v)
    (h : Nogoods.Unbroken d d' g) {a : Asg} (ha : Within d' a) : ¬ Forbids g a := by
  obtain ⟨x, hx, h⟩ := h
  intro hfb
  rcases h with h | h
  · exact h fun b hb => (hg x hx).2 d a b hf (hev.within ha) hb (hfb x hx)
  · exact h a ha (hfb x hx)

/-! ## Scanning -/

/-- The scanning propagator is number `me`, and is woken by every change to the variables guessed about. -/
structure Scanner (V : SearchEnv σ μ) (l : List (Prog σ μ PState × Triggers)) (cell : Cell μ NogoodMem) (me : Nat) (B : List Nat) : Prop where
  posted : ∃ t, l[me]? = some (Nogoods.scan cell, t) ∧ ∀ v ∈ B, ∃ x ∈ t.onChange, x.underlyingIndex = some v

/-- The first `k` nogoods as one more constraint. -/
def withNogoods (C : Nat → Asg → Prop) (me : Nat) (gs : List (List Cond)) (p : Nat) (a : Asg) : Prop := if p = me then ∀ g ∈ gs, ¬ Forbids g a else C p a

theorem scan_checking (h : Learner n m R V l cell me Sol Fin C vs B) (hn : Scanner V l cell me B) {S gs : List (List Cond)} (hS : AllGuesses n B S) (hsub : ∀ g ∈ gs, g ∈ S) :
    Checking n m V.engine l (fun t => (cell.get t.mem).store = S) (withNogoods C me gs) (fun p => if p = me then B else vs p) := by
  obtain ⟨t0, ht, hw⟩ := hn.posted
  have hprog : V.engine.progs[me]? = some (Nogoods.scan cell) := by rw [h.built.progs, List.getElem?_map, ht]; rfl
  constructor
  · intro s s' _ _ h1 _ h2; rw [h1]; exact h2
  · intro p f sc s ps s' cs hf _ hpd hs hK hrun _
    by_cases hp : p = me
    · subst hp
      rw [hprog] at hf; cases hf
      rcases Nogoods.scan_run hs hrun with ⟨h1, _⟩ | ⟨_, h2, _⟩
      · cases h1
      · exact h2.store.trans hK
    · show (cell.get s'.mem).store = S
      rw [h.spares p f hp hf hpd _ s _ s' hs hrun]; exact hK
  · intro p f t hl hpd v hv
    by_cases hp : p = me
    · subst hp
      rw [ht] at hl; cases hl
      rw [if_pos rfl] at hv
      obtain ⟨x, hx, e⟩ := hw v hv
      exact ⟨x, .inl hx, e⟩
    · rw [if_neg hp] at hv
      exact (h.checks p f t hp hl hpd).wakes v hv
  · intro p f sc s ps s' cs hf _ hpd hs hK hrun hran
    by_cases hp : p = me
    · subst hp
      rw [hprog] at hf; cases hf
      rcases Nogoods.scan_run hs hrun with ⟨h1, _⟩ | ⟨h1, h2, h3⟩
      · cases h1
      · cases h1
        refine ⟨fun hfix a ha => ?_, fun _ => nofun, nofun⟩
        unfold withNogoods
        rw [if_pos rfl] at hfix ⊢
        intro g hg
        have hg' := hsub g hg
        exact unbroken_open hran.evolve (hS g hg') hfix (h3 g (by rw [hK]; exact hg')) ha
    · obtain ⟨t, he⟩ := h.built.posted hf
      obtain ⟨h1, h2, h3⟩ := checks_run h.built.wf (h.checks p f t hp he hpd) hf hs hrun hran
      unfold withNogoods
      simp only [if_neg hp]
      exact ⟨h1, fun hi => h2 (h.built.claims he hi), h3⟩

theorem scan_keeps (h : Learner n m R V l cell me Sol Fin C vs B) (hn : Scanner V l cell me B) {S : List (List Cond)} {a : Asg} (ha : Sol a) (hS : ∀ g ∈ S, ¬ Forbids g a) (p : Nat) (f : Prog σ μ PState) (sc : List Nat)
    (hf : V.engine.progs[p]? = some f) (hpd : V.engine.permDisabled[p]? = some false) : Keeps n m (fun t => (cell.get t.mem).store = S) a ⟨p, sc⟩ f := by
  obtain ⟨t0, ht, hw⟩ := hn.posted
  intro s r s' hs hK hwi hrun
  by_cases hp : p = me
  · subst hp
    have hprog : V.engine.progs[p]? = some (Nogoods.scan cell) := by rw [h.built.progs, List.getElem?_map, ht]; rfl
    rw [hprog] at hf; cases hf
    rcases Nogoods.scan_run hs hrun with ⟨_, h1, _⟩ | ⟨h1, h2, _⟩
    · obtain ⟨g, hg, hfb⟩ := h1 a hwi
      exact absurd hfb (hS g (hK ▸ hg))
    · subst h1
      refine ⟨?_, h2.keep a hwi (by rw [hK]; exact hS), h2.store.trans hK⟩
      rintro (hx | hx)
      · cases hx
      · rw [h2.run.fine] at hx; cases hx
  · obtain ⟨h1, h2⟩ := sound_run ⟨p, sc⟩ (List.getElem?_eq_some_iff.1 hf).1 f s (h.built.wf.progs f (List.mem_of_getElem? hf) _ hs.domsOK hs.domsLen) (h.sound p f hp hf hpd a ha _ hs.domsOK hs.domsLen hwi) hs hwi r s' hrun
    refine ⟨h1, h2, ?_⟩
    show (cell.get s'.mem).store = S
    rw [h.spares p f hp hf hpd _ s _ s' hs hrun]; exact hK

theorem scan_mem (h : Learner n m R V l cell me Sol Fin C vs B) (hn : Scanner V l cell me B) {S : List (List Cond)} (p : Nat) (f : Prog σ μ PState) (sc : List Nat)
    (hf : V.engine.progs[p]? = some f) (hpd : V.engine.permDisabled[p]? = some false) : KeepsMem n m (fun x => (cell.get x).store = S) ⟨p, sc⟩ f := by
  obtain ⟨t0, ht, hw⟩ := hn.posted
  intro s r s' hs hK hrun
  by_cases hp : p = me
  · subst hp
    have hprog : V.engine.progs[p]? = some (Nogoods.scan cell) := by rw [h.built.progs, List.getElem?_map, ht]; rfl
    rw [hprog] at hf; cases hf
    rcases Nogoods.scan_run hs hrun with ⟨_, _, h1⟩ | ⟨_, h2, _⟩
    · exact h1.trans hK
    · exact h2.store.trans hK
  · show (cell.get s'.mem).store = S
    rw [h.spares p f hp hf hpd _ s _ s' hs hrun]; exact hK

/-- Memory after the root: nogoods are only added, and only with literals that could be guessed. -/
def Grows (cell : Cell μ NogoodMem) (n : Nat) (B : List Nat) (x y : μ) : Prop :=
  (cell.get x).store <+: (cell.get y).store ∧ (AllGuesses n B (cell.get x).store → AllGuesses n B (cell.get y).store)

theorem take_prefix {α : Type} {x y : List α} (h : x <+: y) {k : Nat} (hk : k ≤ x.length) : y.take k = x.take k := by
  obtain ⟨z, rfl⟩ := h
  rw [List.take_append_of_le_length hk]

theorem scan_contract (h : Learner n m R V l cell me Sol Fin C vs B) (hn : Scanner V l cell me B) :
    SearchPre n m R V Sol Fin (fun d => ∀ v ∈ B, Fixed d v) (fun x => (cell.get x).store) (Grows cell n B) (fun s => AllGuesses n B (cell.get s.mem).store)
      (fun k s => Checked V.engine (withNogoods C me ((cell.get s.mem).store.take k)) (fun p => if p = me then B else vs p) s ∧ AllGuesses n B (cell.get s.mem).store ∧ k ≤ (cell.get s.mem).store.length) where
  runs := fun _ _ _ he => he.runs h.built.wf
  objective := h.objectiveFixed
  branch := h.branches
  monotone := h.monotone
  le_refl := fun _ => ⟨List.prefix_refl _, id⟩
  le_trans := fun _ _ _ h1 h2 => ⟨h1.1.trans h2.1, fun h => h2.2 (h1.2 h)⟩
  learned := by
    intro add ha g x hg
    rw [h.learn] at ha; cases ha
    have e : (cell.get (cell.set ((cell.get x).add g) x)).store = (cell.get x).store ++ [g] := by rw [cell.get_set]; rfl
    refine ⟨⟨by rw [e]; exact List.prefix_append _ _, fun hx => ?_⟩, e⟩
    rw [e]
    intro g' hg'
    rcases List.mem_append.1 hg' with h1 | h1
    · exact hx g' h1
    · cases List.mem_singleton.1 h1; exact hg
  call := by
    intro k gs s b s' he hr
    obtain ⟨hk, ho⟩ := he.origin
    have hstore : (cell.get s'.mem).store = (cell.get s.mem).store :=
      propagate_mem h.built.wf hk (P := fun x => (cell.get x).store = (cell.get s.mem).store) (fun p f sc hf hsc hpd => scan_mem h hn p f sc hf hpd) rfl hr
    refine ⟨?_, fun _ => ⟨by rw [hstore]; exact List.prefix_refl _, by rw [hstore]; exact id⟩, hstore, ?_⟩
    · intro a ha hS hw
      have := propagate_keeps h.built.wf V.abort hk (K := fun t => (cell.get t.mem).store = (cell.get s.mem).store) (a := a) (fun t t' _ _ h1 _ h2 => (congrArg (fun x => (cell.get x).store) h1).trans h2)
        (fun p f sc hf hsc hpd => scan_keeps h hn ha hS p f sc hf hpd) rfl hw hr
      exact ⟨this.1, this.2.1⟩
    · rintro rfl hab
      have hall : AllGuesses n B (cell.get s.mem).store ∧ k ≤ (cell.get s.mem).store.length := by
        rcases ho with ⟨rfl, hJ, _⟩ | ⟨_, p, cs, _, h2, _, _, _, _, hm, _⟩
        · refine ⟨hJ, ?_⟩
          cases he with
          | root _ _ _ hk => exact hk
        · rw [hm]; exact h2.2
      refine ⟨?_, by rw [hstore]; exact hall⟩
      rw [hstore]
      refine checked_call h.built (scan_checking h hn hall.1 fun g hg => List.mem_of_mem_take hg) hk rfl ?_ hr hab
      rcases ho with ⟨rfl, _⟩ | ⟨_, p, cs, _, h2, _, h3, h4, _, hm, _, h5⟩
      · exact .inl rfl
      · exact .inr ⟨p, cs, by rw [hm]; exact h2.1, h3, h4, h5⟩
  back := by
    intro k p p' _ ⟨h1, h2, h3⟩ hs hle
    refine ⟨fun q hq => ?_, hle.2 h2, Nat.le_trans h3 hle.1.length_le⟩
    obtain ⟨h4, h5⟩ := h1 q hq
    rw [hs.disabled q, hs.doms, take_prefix hle.1 h3]
    exact ⟨h4, h5⟩
  again := fun _ _ h => h.2.1
  leaf := by
    intro k s _ ⟨hi, _, _⟩ hl a ha
    have key : ∀ p, V.engine.permDisabled[p]? = some false → withNogoods C me ((cell.get s.mem).store.take k) p a := by
      intro p hp
      by_cases hd : IsDisabled s.q p
      · exact (hi p hp).1 hd a ha
      · refine (hi p hp).2 hd (fun v hv => hl v ?_) a ha
        have hv : v ∈ if p = me then B else vs p := hv
        by_cases hpm : p = me
        · rw [if_pos hpm] at hv; exact hv
        · rw [if_neg hpm] at hv; exact h.vars p hpm hp v hv
    refine ⟨h.sol a fun p hpm hp => ?_, ?_⟩
    · have := key p hp
      unfold withNogoods at this
      rw [if_neg hpm] at this; exact this
    · have := key me h.on
      unfold withNogoods at this
      rw [if_pos rfl] at this; exact this

end
end
end Gcs
