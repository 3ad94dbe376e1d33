import Verif.Lemmas.Count
import Verif.Props.Propagate
import Verif.Lemmas.Ask

/-! The induction over the search tree. -/

namespace Gcs
open IntervalSet Queue

/-! ## The objective -/

theorem Improves.trans {o : Option VarId} {v v' v'' : Option Int} {f g : List Doms} (h : Improves o v f v') (k : Improves o v' g v'') : Improves o v (f ++ g) v'' := by
  induction k with
  | free g => cases h; exact .free _
  | start o v => simpa using h
  | better _ h2 h3 h4 ih => rw [← List.append_assoc]; exact .better (ih h) h2 h3 h4

theorem Improves.best {o : Option VarId} {v v' : Option Int} {f : List Doms} (h : Improves o v f v') : ∀ y, v = some y → ∃ z, v' = some z ∧ z ≤ y := by
  induction h with
  | free => intro y h; cases h
  | start o v => intro y h; exact ⟨y, h, Int.le_refl _⟩
  | better _ h2 _ _ ih =>
    intro y h
    obtain ⟨z, h5, h6⟩ := ih y h
    have := h2 z h5
    exact ⟨_, rfl, by omega⟩

theorem Improves.nil {o : Option VarId} {v : Option Int} (h : o = none → v = none) : Improves o v [] v := by
  cases o with
  | none => rw [h rfl]; exact .free _
  | some o => exact .start o v

theorem Reported.later {o : Option VarId} {v v' : Option Int} {f g : List Doms} {a : Asg} (h : Reported o v f a) (k : Improves o v g v') : Reported o v' (f ++ g) a := by
  rcases h with ⟨d, hd, ha⟩ | ⟨x, y, h1, h2, h3⟩
  · exact .inl ⟨d, by simp [hd], ha⟩
  · obtain ⟨z, h4, h5⟩ := k.best y h2
    exact .inr ⟨x, z, h1, h4, by omega⟩

theorem Reported.earlier {o : Option VarId} {v : Option Int} {f g : List Doms} {a : Asg} (h : Reported o v g a) : Reported o v (f ++ g) a :=
  h.imp (fun ⟨d, hd, ha⟩ => ⟨d, by simp [hd], ha⟩) id

def ObjOK (o : Option VarId) (v : Option Int) : Prop := (o = none → v = none) ∧ ∀ x, v = some x → InI64 x

theorem ObjOK.improves {o : Option VarId} {v v' : Option Int} {f : List Doms} (h : ObjOK o v) (k : Improves o v f v') : ObjOK o v' := by
  cases k with
  | free => exact h
  | start => exact h
  | better _ _ _ h4 => exact ⟨nofun, fun x hx => by cases hx; exact h4⟩

/-! ## Bookkeeping -/

/-- No path in `P` goes through `q`. -/
def noExt (P : List (List Lit)) (q : List Lit) : Bool := !P.any (fun p => decide (q <+: p))

/-- The greatest of `m` and the depths of the paths. -/
def deepest (m : Nat) (vs : List (List Lit)) : Nat := vs.foldl (fun m q => max m q.length) m

/-- What happened to the tally: the solutions `f` were found at the paths `P`, the nodes `vs` were entered, and the search was answered `as`. -/
structure TallySpec (o : Option VarId) (t t' : Tally) (f : List Doms) (P vs : List (List Lit)) (as : List Bool) (has : Bool) : Prop where
  found : t'.found = t.found ++ f
  solved : t'.solved = t.solved ++ P
  visited : t'.visited = t.visited ++ vs
  answers : t'.answers = t.answers ++ as
  solutions : t'.solutions = t.solutions + f.length
  recursions : t'.recursions = t.recursions + vs.length
  restarts : t'.restarts = t.restarts
  maxDepth : t'.maxDepth = deepest t.maxDepth vs
  has : has = true ↔ f ≠ []
  len : P.length = f.length
  improves : Improves o t.objective f t'.objective

theorem TallySpec.trans {o : Option VarId} {t t1 t2 : Tally} {f f' : List Doms} {P P' vs vs' : List (List Lit)} {as as' : List Bool} {b b' : Bool}
    (h : TallySpec o t t1 f P vs as b) (k : TallySpec o t1 t2 f' P' vs' as' b') : TallySpec o t t2 (f ++ f') (P ++ P') (vs ++ vs') (as ++ as') (b || b') where
  found := by rw [k.found, h.found, List.append_assoc]
  solved := by rw [k.solved, h.solved, List.append_assoc]
  visited := by rw [k.visited, h.visited, List.append_assoc]
  answers := by rw [k.answers, h.answers, List.append_assoc]
  solutions := by rw [k.solutions, h.solutions, List.length_append]; omega
  recursions := by rw [k.recursions, h.recursions, List.length_append]; omega
  restarts := by rw [k.restarts, h.restarts]
  maxDepth := by rw [k.maxDepth, h.maxDepth]; unfold deepest; rw [List.foldl_append]
  has := by rw [Bool.or_eq_true, h.has, k.has]; simp; by_cases f = [] <;> simp_all
  len := by simp [h.len, k.len]
  improves := h.improves.trans k.improves

theorem TallySpec.refl {o : Option VarId} (t : Tally) (h : o = none → t.objective = none) : TallySpec o t t [] [] [] [] false :=
  ⟨by simp, by simp, by simp, by simp, rfl, rfl, rfl, rfl, by simp, rfl, .nil h⟩

theorem TallySpec.told {o : Option VarId} (t : Tally) (h : o = none → t.objective = none) (b : Bool) : TallySpec o t (t.told b) [] [] [] [b] false :=
  ⟨by simp [Tally.told], by simp [Tally.told], by simp [Tally.told], rfl, rfl, rfl, rfl, rfl, by simp, rfl, .nil h⟩

theorem Parted.disjoint {Leaf : Doms → Prop} {d e : Doms} (h : Parted Leaf d e) : ∀ a, Within d a → ¬ Within e a := by
  obtain ⟨g, _, h1, h2⟩ := h
  exact fun a ha he => h2 a he (h1 a ha)

section
variable {σ μ : Type} {n m : Nat} {R : Err → Prop} (V : SearchEnv σ μ) (Sol : Asg → Prop) (Leaf : Doms → Prop) (store : μ → List (List Cond)) (Le : μ → μ → Prop)
  (J : Sys σ μ → Prop) (I : Nat → Sys σ μ → Prop)

/-- A solution that no nogood known at `x` excludes. -/
def Wanted (x : μ) (a : Asg) : Prop := Sol a ∧ ∀ g ∈ store x, ¬ Forbids g a

/-- Someone said stop. -/
def Interrupted : Prop := ∃ i d, V.abort i = true ∨ V.solution i d = false ∨ V.trace i d = false

/-- The answers fit with how the search ended. -/
def Answered (res : SearchResult) (as : List Bool) : Prop :=
  (res ≠ .stop → ∀ b ∈ as, b = true) ∧ (res = .stop → Interrupted V ∧ ∃ bs, as = bs ++ [false] ∧ ∀ b ∈ bs, b = true)

/-- How the search arrives at a node. -/
inductive Arrive (n m : Nat) (k : Nat) : Option Cond → Sys σ μ → Tally → Prop where
  | root (s : Sys σ μ) (t : Tally) : RootOK n m V.engine s → J s → k ≤ (store s.mem).length → (t.objective ≠ none → NodeOK n m V.engine s ∧ I k s) → Arrive n m k none s t
  | child (p s : Sys σ μ) (t : Tally) (g : Cond) : NodeOK n m V.engine p → I k p → (Lit.cond g).Valid n → Child p (.cond g) s → Arrive n m k (some g) s t

/-- `s'` is what the propagation at the node `s` left behind, if it came to that. -/
def Settles (s s' : Sys σ μ) : Prop :=
  ∃ d, (s' = { s with st := { s.st with vars := d :: s.st.vars.tail } }) ∨
    ∃ gs b p, Sys.propagate V.engine gs V.abort { s with st := { s.st with vars := d :: s.st.vars.tail } } = .ok (b, p) ∧ Same V.engine.progs.length p s'

/-- What exploring the subtree under a node comes to. `f`: solutions found. `P`: where. `vs`: nodes entered. `as`: answers. `L`: nogoods learned. -/
structure NodeSpec (n m k : Nat) (cut : Option Nat) (guess : Option Cond) (pfx : List Cond) (s : Sys σ μ) (t : Tally) (res : SearchResult) (has : Bool) (s' : Sys σ μ) (t' : Tally)
    (f : List Doms) (P vs : List (List Lit)) (as : List Bool) (L : List (List Cond)) : Prop where
  tally : TallySpec V.minimise t t' f P vs as has
  failures : ∃ ws, vs = s.st.guesses :: ws ∧ t'.failures = t.failures + ws.countP (noExt P)
  below : ∀ q, q ∈ vs ∨ q ∈ P → s.st.guesses <+: q
  good : ∀ d ∈ f, DomsOK d ∧ d.length = n ∧ Leaf d ∧ ∀ a, Within d a → Sol a ∧ Within s.doms a ∧ ∀ g ∈ (store s.mem).take k, ¬ Forbids g a
  apart : f.Pairwise (Parted Leaf)
  complete : res = .complete → ∀ a, Wanted Sol store s.mem a → Within s.doms a → Reported V.minimise t'.objective f a
  le : guess ≠ none → Le s.mem s'.mem
  stored : store s'.mem = store s.mem ++ L
  learned : res ≠ .cutoff ∨ V.learn = none → L = []
  prefixes : ∀ g ∈ L, ∀ a, Forbids g a → Forbids pfx a
  lost : ∀ g ∈ L, ∀ a, Wanted Sol store s.mem a → Within s.doms a → Forbids g a → Reported V.minimise t'.objective f a
  excluded : res = .cutoff → V.learn.isSome = true → ∀ d ∈ f, ∀ a, Within d a → ∃ g ∈ L, (∀ c ∈ g, Decided Leaf c) ∧ Forbids g a
  clock : s.clock ≤ s'.clock
  answered : Answered V res as
  conflicts : t'.conflicts ≤ t.conflicts + s.doms.size
  spent : res = .cutoff → ∃ c, cut = some c ∧ c ≤ t'.conflicts
  child : guess ≠ none → ∃ s1, Inside n V.engine s s1 ∧ Same V.engine.progs.length s1 s'
  settles : Settles V s s'
  root : guess = none → res = .cutoff → (s' = s ∧ f = []) ∨ (NodeOK n m V.engine s' ∧ I k s' ∧ s'.st.guesses = s.st.guesses ∧ (∃ cs, Evolve s.doms cs s'.doms) ∧
    ∀ a, Wanted Sol store s.mem a → Within s.doms a → Within s'.doms a ∨ Reported V.minimise t'.objective f a)

/-- What the loop over the branches comes to, from a settled node `p`. `ref`: the siblings refuted. -/
structure LoopSpec (n k : Nat) (cut : Option Nat) (pfx bs : List Cond) (p : Sys σ μ) (t : Tally) (ref : List Cond) (res : SearchResult) (has : Bool) (s' : Sys σ μ) (t' : Tally)
    (f : List Doms) (P vs : List (List Lit)) (as : List Bool) (L : List (List Cond)) : Prop where
  tally : TallySpec V.minimise t t' f P vs as has
  failures : t'.failures = t.failures + vs.countP (noExt P)
  below : ∀ q, q ∈ vs ∨ q ∈ P → p.st.guesses <+: q
  good : ∀ d ∈ f, DomsOK d ∧ d.length = n ∧ Leaf d ∧ ∀ a, Within d a → Sol a ∧ Within p.doms a ∧ ∀ g ∈ (store p.mem).take k, ¬ Forbids g a
  apart : f.Pairwise (Parted Leaf)
  complete : res = .complete → ∀ a, Wanted Sol store p.mem a → Within p.doms a → Reported V.minimise t'.objective f a
  le : Le p.mem s'.mem
  stored : store s'.mem = store p.mem ++ L
  learned : res ≠ .cutoff ∨ V.learn = none → L = []
  prefixes : ∀ g ∈ L, ∀ a, Forbids g a → Forbids pfx a
  lost : ∀ g ∈ L, ∀ a, Wanted Sol store p.mem a → Within p.doms a → Forbids g a → Reported V.minimise t'.objective f a
  refs : ∀ b ∈ ref, b ∈ bs ∧ ∀ a, Wanted Sol store p.mem a → Within p.doms a → b.holds a → Reported V.minimise t'.objective f a
  excluded : res = .cutoff → V.learn.isSome = true → ∀ d ∈ f, ∀ a, Within d a → (∃ g ∈ L, (∀ c ∈ g, Decided Leaf c) ∧ Forbids g a) ∨ ∃ b ∈ ref, b.holds a
  answered : Answered V res as
  conflicts : t'.conflicts ≤ t.conflicts + p.doms.size
  spent : res = .cutoff → ∃ c, cut = some c ∧ c ≤ t'.conflicts
  same : Same V.engine.progs.length p s'

/-- How things stand at the head of the loop over the branches, when those in `ref` have been explored. -/
structure LoopInv (n k : Nat) (p : Sys σ μ) (t0 : Tally) (ref : List Cond) (s : Sys σ μ) (t : Tally) (has : Bool) (f : List Doms) (P vs : List (List Lit)) (as : List Bool) : Prop where
  tally : TallySpec V.minimise t0 t f P vs as has
  failures : t.failures = t0.failures + vs.countP (noExt P)
  below : ∀ q, q ∈ vs ∨ q ∈ P → ∃ b ∈ ref, p.st.guesses ++ [Lit.cond b] <+: q
  good : ∀ d ∈ f, DomsOK d ∧ d.length = n ∧ Leaf d ∧ ∀ a, Within d a → Sol a ∧ Within p.doms a ∧ (∃ b ∈ ref, b.holds a) ∧ ∀ g ∈ (store p.mem).take k, ¬ Forbids g a
  apart : f.Pairwise (Parted Leaf)
  done : ∀ a, Wanted Sol store p.mem a → Within p.doms a → (∃ b ∈ ref, b.holds a) → Reported V.minimise t.objective f a
  le : Le p.mem s.mem
  stored : store s.mem = store p.mem
  answers : ∀ b ∈ as, b = true
  conflicts : t.conflicts ≤ t0.conflicts + p.doms.count (fun a => ref.any (fun b => decide (b.holds a)))
  same : Same V.engine.progs.length p s

end

/-! ## Small facts -/

theorem prefix_snoc_inj {α : Type} {g q : List α} {x y : α} (h1 : g ++ [x] <+: q) (h2 : g ++ [y] <+: q) : x = y := by
  obtain ⟨r, rfl⟩ := h1
  obtain ⟨r', h⟩ := h2
  rw [List.append_assoc, List.append_assoc] at h
  have := List.append_cancel_left h
  simp at this
  exact this.1.symm

theorem countP_congr' {α : Type} {l : List α} {p q : α → Bool} (h : ∀ x ∈ l, p x = q x) : l.countP p = l.countP q :=
  List.countP_congr fun x hx => by rw [h x hx]

section
variable {σ μ : Type} {n m : Nat} {R : Err → Prop}

theorem narrow_card {l : Lit} {d d' : Doms} (h : Narrow l d d') (hs : ∃ a, Within d a ∧ ¬ l.holds a) : d'.card < d.card := by
  obtain ⟨cs, h1, _⟩ := h.evolve
  have := h1.card
  cases cs with
  | cons c cs => simp at this; omega
  | nil =>
    have hd : d' = d := by
      generalize hcs : ([] : List (Nat × Inference)) = cs at h1
      cases h1 with
      | refl => rfl
      | snoc => simp at hcs
    obtain ⟨a, ha, hn⟩ := hs
    exact absurd ((h.within a).1 (hd ▸ ha)).2 hn

theorem Same.ticks {np : Nat} {s s' : Sys σ μ} (h : Same np s s') (k : Nat) (hk : s'.clock ≤ k) : Same np s { s' with clock := k } :=
  ⟨h.st, h.w, h.inv, h.idle, h.keep, h.boxes, Nat.le_trans h.clock hk⟩

theorem Same.mem {np : Nat} {s s' : Sys σ μ} (h : Same np s s') (x : μ) : Same np s { s' with mem := x } :=
  ⟨h.st, h.w, h.inv, h.idle, h.keep, h.boxes, h.clock⟩

/-- The prefix handed down is well formed and holds everywhere below. -/
structure PfxOK (n : Nat) (Leaf : Doms → Prop) (pfx : List Cond) (d : Doms) : Prop where
  valid : ∀ c ∈ pfx, GuessOK n Leaf c
  holds : ∀ a, Within d a → Forbids pfx a

theorem Thrown.bind {α β : Type} {x : Chk α} (h : Thrown R x) (f : α → Chk β) : Thrown R (x >>= f) := by
  obtain ⟨e, rfl, he⟩ := h
  exact ⟨e, rfl, he⟩

theorem Child.mem {p s : Sys σ μ} {l : Lit} (h : Child p l s) : s.mem = p.mem := by
  obtain ⟨_, _, _, he⟩ := h.eq; rw [he]
theorem Child.guesses {p s : Sys σ μ} {l : Lit} (h : Child p l s) : s.st.guesses = p.st.guesses ++ [l] := by
  obtain ⟨_, _, _, he⟩ := h.eq; rw [he]

theorem NodeOK.rootOK {E : Engine σ μ} {s : Sys σ μ} (h : NodeOK n m E s) : RootOK n m E s := ⟨h.call, h.ids, h.aligned⟩

theorem Entry.rootOK {E : Engine σ μ} {store : μ → List (List Cond)} {J : Sys σ μ → Prop} {I : Nat → Sys σ μ → Prop} {k : Nat} {gs : List Lit} {s : Sys σ μ}
    (h : Entry n m E store J I k gs s) : RootOK n m E s ∧ (gs ≠ [] → NodeOK n m E s) := by
  cases h with
  | root _ h1 => exact ⟨h1, fun h => absurd rfl h⟩
  | again p _ l h1 _ _ h4 => have := h4.nodeOK h1; exact ⟨this.rootOK, fun _ => this⟩
  | child p _ l h1 _ _ h4 => have := h4.nodeOK h1; exact ⟨this.rootOK, fun _ => this⟩
  | childBound p c _ l b h1 _ _ h4 _ h6 => have := h6.nodeOK (h4.nodeOK h1); exact ⟨this.rootOK, fun _ => this⟩

/-- The engine may be any well-formed one. -/
theorem Entry.runs {E : Engine σ μ} {store : μ → List (List Cond)} {J : Sys σ μ → Prop} {I : Nat → Sys σ μ → Prop} {k : Nat} {gs : List Lit} {s : Sys σ μ} {abort : Nat → Bool}
    (h : Entry n m E store J I k gs s) (hE : E.WF n m R) : Thrown R (Sys.propagate E gs abort s) ∨ ∃ b s', Sys.propagate E gs abort s = .ok (b, s') ∧ CallSpec n E gs s b s' := by
  have hk := h.rootOK.1.call.of_nil gs fun hg => (h.rootOK.2 hg).inv
  rcases propagate_terminates hE abort hk with e | ⟨b, s2, e, _⟩
  · exact .inl e
  · exact .inr ⟨b, s2, e, propagate_call hE hk e⟩

variable {V : SearchEnv σ μ} {Sol : Asg → Prop} {Leaf : Doms → Prop} {store : μ → List (List Cond)} {Le : μ → μ → Prop}
  {J : Sys σ μ → Prop} {I : Nat → Sys σ μ → Prop}

theorem Arrive.rootOK {k : Nat} {guess : Option Cond} {s : Sys σ μ} {t : Tally} (h : Arrive V store J I n m k guess s t) :
    RootOK n m V.engine s ∧ (guess ≠ none → NodeOK n m V.engine s) := by
  cases h with
  | root _ _ h1 => exact ⟨h1, fun h => absurd rfl h⟩
  | child p _ _ g h1 _ _ h4 => have := h4.nodeOK h1; exact ⟨this.rootOK, fun _ => this⟩

theorem Arrive.entry {k : Nat} {guess : Option Cond} {s : Sys σ μ} {t : Tally} (h : Arrive V store J I n m k guess s t) :
    Entry n m V.engine store J I k (guess.toList.map .cond) s := by
  cases h with
  | root _ _ h1 h2 h3 => exact .root s h1 h2 h3
  | child p _ _ g h1 h2 h3 h4 => exact .child p s (.cond g) h1 h2 h3 h4

/-- What tightening the objective does. -/
structure BoundSpec (n m : Nat) (V : SearchEnv σ μ) (store : μ → List (List Cond)) (J : Sys σ μ → Prop) (I : Nat → Sys σ μ → Prop) (k : Nat) (guess : Option Cond) (s : Sys σ μ) (t : Tally)
    (fail : Bool) (gs : List Lit) (s1 : Sys σ μ) : Prop where
  eq : ∃ d, s1 = { s with st := { s.st with vars := d :: s.st.vars.tail } }
  failed : fail = true → ∀ a, Within s.doms a → Reported V.minimise t.objective [] a
  entry : fail = false → Entry n m V.engine store J I k gs s1
  seeds : guess ≠ none → gs ≠ []
  evolve : fail = false → ∃ cs, Evolve s.doms cs s1.doms
  keeps : fail = false → ∀ a, Within s.doms a → Within s1.doms a ∨ Reported V.minimise t.objective [] a
  bounded : fail = false → ∀ o x, V.minimise = some o → t.objective = some x → ∀ a, Within s1.doms a → o.eval a < x

theorem vars_self {s : Sys σ μ} (h : s.st.vars ≠ []) : ∃ d, s = { s with st := { s.st with vars := d :: s.st.vars.tail } } := by
  obtain ⟨d, r, hv⟩ := List.exists_cons_of_ne_nil h
  refine ⟨d, ?_⟩
  have : d :: s.st.vars.tail = s.st.vars := by rw [hv]; rfl
  rw [this]

theorem bound_spec (hC : SearchContract n m R V Sol Leaf store Le J I) {k : Nat} {guess : Option Cond} {s : Sys σ μ} {t : Tally} (ha : Arrive V store J I n m k guess s t)
    (ho : ObjOK V.minimise t.objective) : Thrown R (boundObjective V (guess.toList.map .cond) s t) ∨
    ∃ fail gs s1, boundObjective V (guess.toList.map .cond) s t = .ok (fail, gs, s1) ∧ BoundSpec n m V store J I k guess s t fail gs s1 := by
  have hseed : guess ≠ none → guess.toList.map Lit.cond ≠ [] := by cases guess <;> simp
  have hplain : (∀ o x, V.minimise = some o → t.objective = some x → ∀ a, Within s.doms a → o.eval a < x) → BoundSpec n m V store J I k guess s t false (guess.toList.map .cond) s :=
    fun hb => ⟨vars_self ha.rootOK.1.call.varsNe, nofun, fun _ => ha.entry, hseed, fun _ => ⟨[], .refl _ ha.rootOK.1.call.domsOK⟩, fun _ a h => .inl h, fun _ => hb⟩
  unfold boundObjective
  cases hm : V.minimise with
  | none => exact .inr ⟨false, _, s, rfl, hplain fun o x h => by rw [hm] at h; cases h⟩
  | some o =>
    cases hv : t.objective with
    | none => exact .inr ⟨false, _, s, rfl, hplain fun o x _ h => by rw [hv] at h; cases h⟩
    | some v =>
      have hnode : NodeOK n m V.engine s := by
        cases ha with
        | root _ _ h1 h2 h3 h4 => exact (h4 (by rw [hv]; nofun)).1
        | child p _ _ g h1 _ _ h4 => exact h4.nodeOK h1
      have hl : (Lit.cond (Cond.lt o v)).Valid n := ⟨(hC.objective o hm).1, ho.2 v hv, show InI64 0 by decide⟩
      have hrep : ∀ a, ¬ (Lit.cond (Cond.lt o v)).holds a → Reported V.minimise t.objective [] a := by
        intro a h
        refine .inr ⟨o, v, hm, hv, ?_⟩
        have : ¬ (o.eval a < v) := h
        omega
      rcases infer_objective hnode hl with e | ⟨inf, st1, e, h1, h2, h3, h4⟩
      · left; exact ⟨.overflow, by simp [e, bind, Except.bind], .inl rfl⟩
      · right
        obtain ⟨d, h4⟩ := h4
        have heq : ∃ d, ({ s with st := st1 } : Sys σ μ) = { s with st := { s.st with vars := d :: s.st.vars.tail } } := ⟨d, by rw [h4]⟩
        by_cases hc : inf = .contradiction
        · subst hc
          refine ⟨true, _, { s with st := st1 }, by simp [e, bind, Except.bind, pure, Except.pure], heq, fun _ a h => hrep a (h1 rfl a h), nofun, hseed, nofun, nofun, nofun⟩
        · have hinf := h3 hc
          have hkeep : ∀ a, Within s.doms a → Within ({ s with st := st1 } : Sys σ μ).doms a ∨ Reported V.minimise t.objective [] a := by
            intro a h
            by_cases hh : (Lit.cond (Cond.lt o v)).holds a
            · exact .inl ((hinf.narrow.within a).2 ⟨h, hh⟩)
            · exact .inr (hrep a hh)
          have hev : ∃ cs, Evolve s.doms cs ({ s with st := st1 } : Sys σ μ).doms := by obtain ⟨cs, h, _⟩ := hinf.narrow.evolve; exact ⟨cs, h⟩
          by_cases hn : inf = .noChange
          · subst hn
            have hst : ({ s with st := st1 } : Sys σ μ) = s := by rw [(h2 rfl).1]
            refine ⟨false, _, s, ?_, hplain fun o' x' ho' hx' a hwa => ?_⟩
            rotate_left
            · rw [hm] at ho'; cases ho'; rw [hv] at hx'; cases hx'; exact (h2 rfl).2 a hwa
            rw [← hst]
            simp [e, bind, Except.bind, pure, Except.pure, (h2 rfl).1]
          · refine ⟨false, guess.toList.map .cond ++ [.cond (.lt o v)], { s with st := st1 }, ?_, heq, nofun, fun _ => ?_, fun _ => by simp, fun _ => hev, fun _ => hkeep, fun _ o' x' ho' hx' a hwa => ?_⟩
            · show ((s.st.infer (Lit.cond (Cond.lt o v))).bind _) = _; rw [e]; cases inf <;> first | rfl | exact absurd rfl hc | exact absurd rfl hn
            rotate_left
            · rw [hm] at ho'; cases ho'; rw [hv] at hx'; cases hx'; exact ((hinf.narrow.within a).1 hwa).2
            · cases ha with
              | root _ _ h5 h6 h7 h8 => exact .again s _ _ hnode (h8 (by rw [hv]; nofun)).2 hl hinf
              | child p _ _ g h5 h6 h7 h8 => exact .childBound p s _ _ _ h5 h6 h7 h8 hl hinf

/-! ## The loop over the branches -/

theorem TallySpec.failed {o : Option VarId} {t t' : Tally} {f : List Doms} {P vs : List (List Lit)} {as : List Bool} {b : Bool} (h : TallySpec o t t' f P vs as b) (k : Nat) :
    TallySpec o t { t' with failures := k } f P vs as b :=
  ⟨h.found, h.solved, h.visited, h.answers, h.solutions, h.recursions, h.restarts, h.maxDepth, h.has, h.len, h.improves⟩

theorem TallySpec.objOK {o : Option VarId} {t t' : Tally} {f : List Doms} {P vs : List (List Lit)} {as : List Bool} {b : Bool} (h : TallySpec o t t' f P vs as b) (k : ObjOK o t.objective) :
    ObjOK o t'.objective := k.improves h.improves

theorem failures_join {g : List Lit} {ref : List Cond} {b : Cond} (hb : b ∉ ref) {P P' vs vs' : List (List Lit)}
    (h : ∀ q, q ∈ vs ∨ q ∈ P → ∃ c ∈ ref, g ++ [Lit.cond c] <+: q) (k : ∀ q, q ∈ vs' ∨ q ∈ P' → g ++ [Lit.cond b] <+: q) :
    (vs ++ vs').countP (noExt (P ++ P')) = vs.countP (noExt P) + vs'.countP (noExt P') := by
  have key : ∀ q q', (∃ c ∈ ref, g ++ [Lit.cond c] <+: q) → g ++ [Lit.cond b] <+: q' → ¬ q <+: q' ∧ ¬ q' <+: q := by
    rintro q q' ⟨c, hc, h1⟩ h2
    constructor <;> intro h3
    · have := prefix_snoc_inj (h1.trans h3) h2
      cases this; exact hb hc
    · have := prefix_snoc_inj h1 (h2.trans h3)
      cases this; exact hb hc
  rw [List.countP_append]
  congr 1
  · apply countP_congr'
    intro q hq
    have : P'.any (fun p => decide (q <+: p)) = false := by
      simp only [List.any_eq_false, decide_eq_true_eq]
      exact fun p hp => (key q p (h q (.inl hq)) (k p (.inr hp))).1
    simp only [noExt, List.any_append, this, Bool.or_false]
  · apply countP_congr'
    intro q hq
    have : P.any (fun p => decide (q <+: p)) = false := by
      simp only [List.any_eq_false, decide_eq_true_eq]
      exact fun p hp => (key p q (h p (.inr hp)) (k q (.inl hq))).2
    simp only [noExt, List.any_append, this, Bool.false_or]

theorem failures_child {t t' : Tally} {g : List Lit} {P vs : List (List Lit)} {f : List Doms} {has : Bool} (h1 : ∃ ws, vs = g :: ws ∧ t'.failures = t.failures + ws.countP (noExt P))
    (h2 : has = true ↔ f ≠ []) (h3 : P.length = f.length) (h4 : ∀ q ∈ P, g <+: q) :
    (if has then t' else { t' with failures := t'.failures + 1 }).failures = t.failures + vs.countP (noExt P) := by
  obtain ⟨ws, rfl, h⟩ := h1
  rw [List.countP_cons]
  cases hh : has with
  | true =>
    have hf := h2.1 hh
    obtain ⟨q, r, hP⟩ := List.exists_cons_of_ne_nil (l := P) (by intro h; rw [h] at h3; exact hf (List.eq_nil_of_length_eq_zero h3.symm))
    have : noExt P g = false := by
      have := h4 q (by simp [hP])
      simp [noExt, hP, this]
    rw [this]; simpa using h
  | false =>
    have hf : f = [] := Classical.byContradiction fun hc => by have := h2.2 hc; rw [hh] at this; cases this
    have hP : P = [] := List.eq_nil_of_length_eq_zero (by rw [h3, hf]; rfl)
    subst hP
    simp [noExt, h]; omega

theorem siblings_spec (hC : SearchContract n m R V Sol Leaf store Le J I) {k : Nat} {cut : Option Nat} {F : Nat} {pfx bs : List Cond} {p : Sys σ μ} {t0 : Tally}
    {rec : Cond → List Cond → Sys σ μ → Tally → Chk (Explored σ μ)}
    (hrec : ∀ g pf s t, Arrive V store J I n m k (some g) s t → PfxOK n Leaf pf s.doms → ObjOK V.minimise t.objective → s.st.guesses.length = p.st.guesses.length + 1 → s.doms.card < F →
      Thrown R (rec g pf s t) ∨ ∃ res has s' t' f P vs as L, rec g pf s t = .ok (res, has, s', t') ∧
        NodeSpec V Sol Leaf store Le I n m k cut (some g) pf s t res has s' t' f P vs as L)
    (hp : NodeOK n m V.engine p) (hI : I k p) (hpf : PfxOK n Leaf pfx p.doms) (hB : BranchOK n p.doms bs) (hBd : ∀ b ∈ bs, Decided Leaf b) (hF : p.doms.card ≤ F) (hobj : ObjOK V.minimise t0.objective) :
    ∀ (gs ref : List Cond) (has : Bool) (s : Sys σ μ) (t : Tally) (f : List Doms) (P vs : List (List Lit)) (as : List Bool), bs = ref ++ gs →
      LoopInv V Sol Leaf store Le n k p t0 ref s t has f P vs as →
      Thrown R (siblings V rec pfx bs.head? ref.length gs ref has s t) ∨ ∃ ref' res has' s' t' f' P' vs' as' L,
        siblings V rec pfx bs.head? ref.length gs ref has s t = .ok (ref', res, has', s', t') ∧
        LoopSpec V Sol Leaf store Le n k cut pfx bs p t0 ref' res has' s' t' f' P' vs' as' L := by
  intro gs
  induction gs with
  | nil =>
    intro ref has s t f P vs as hbs h
    right
    rw [List.append_nil] at hbs
    subst hbs
    refine ⟨bs, .complete, has, s, t, f, P, vs, as, [], rfl, ?_⟩
    exact {
      tally := h.tally, failures := h.failures
      below := fun q hq => by obtain ⟨b, _, hb⟩ := h.below q hq; exact List.IsPrefix.trans ⟨_, rfl⟩ hb
      good := fun d hd => ⟨(h.good d hd).1, (h.good d hd).2.1, (h.good d hd).2.2.1, fun a ha => by have := (h.good d hd).2.2.2 a ha; exact ⟨this.1, this.2.1, this.2.2.2⟩⟩
      apart := h.apart
      complete := fun _ a hw ha => h.done a hw ha (hB.covers a ha)
      le := h.le, stored := by rw [h.stored, List.append_nil]
      learned := fun _ => rfl, prefixes := (by simp), lost := (by simp)
      refs := fun b hb => ⟨hb, fun a hw ha hba => h.done a hw ha ⟨b, hb, hba⟩⟩
      excluded := nofun
      answered := ⟨fun _ => h.answers, nofun⟩
      conflicts := Nat.le_trans h.conflicts (Nat.add_le_add_left (count_le_size _ _) _)
      spent := nofun, same := h.same }
  | cons g gs ih =>
    intro ref has s t f P vs as hbs h
    have hgb : g ∈ bs := by rw [hbs]; simp
    have hs : NodeOK n m V.engine s := hp.same h.same
    have hIs : I k s := hC.back k p s hp hI h.same h.le
    have hsd : s.doms = p.doms := h.same.doms
    have hsg : s.st.guesses = p.st.guesses := by rw [h.same.st]
    have hdisj : ∀ b ∈ ref, ∀ a, Within p.doms a → ¬ (b.holds a ∧ g.holds a) := by
      have := hB.apart
      rw [hbs, List.pairwise_append] at this
      exact fun b hb => this.2.2 b hb g (by simp)
    have hgref : g ∉ ref := by
      intro hc
      obtain ⟨a, ha, hga⟩ := hB.possible g hgb
      exact hdisj g hc a ha ⟨hga, hga⟩
    have hobjt := h.tally.objOK hobj
    rw [siblings]
    by_cases hab : V.abort s.clock = true
    · rw [if_pos hab]
      right
      refine ⟨ref, .stop, has, s.tick, t.told false, f, P, vs, as ++ [false], [], rfl, ?_⟩
      have htl := h.tally.trans (TallySpec.told t hobjt.1 false)
      simp only [List.append_nil, Bool.or_false] at htl
      exact {
        tally := htl, failures := h.failures
        below := fun q hq => by obtain ⟨b, _, hb⟩ := h.below q hq; exact List.IsPrefix.trans ⟨_, rfl⟩ hb
        good := fun d hd => ⟨(h.good d hd).1, (h.good d hd).2.1, (h.good d hd).2.2.1, fun a ha => by have := (h.good d hd).2.2.2 a ha; exact ⟨this.1, this.2.1, this.2.2.2⟩⟩
        apart := h.apart, complete := nofun
        le := h.le, stored := by rw [List.append_nil]; exact h.stored
        learned := fun _ => rfl, prefixes := (by simp), lost := (by simp)
        refs := fun b hb => ⟨by rw [hbs]; simp [hb], fun a hw ha hba => h.done a hw ha ⟨b, hb, hba⟩⟩
        excluded := nofun
        answered := ⟨fun hc => absurd rfl hc, fun _ => ⟨⟨s.clock, [], .inl hab⟩, as, rfl, h.answers⟩⟩
        conflicts := Nat.le_trans h.conflicts (Nat.add_le_add_left (count_le_size _ _) _)
        spent := nofun, same := h.same.ticks _ (Nat.le_succ _) }
    · rw [if_neg hab]
      have hgv := hB.valid g hgb
      obtain ⟨st1, e1, h1⟩ := open_child hs hgv.1 (by rw [hsd]; exact hB.possible g hgb) (s.clock + 1) (Nat.le_succ _)
      rw [e1]
      show Thrown R ((st1.guess (.cond g)).bind _) ∨ ∃ ref' res has' s' t' f' P' vs' as' L, (st1.guess (.cond g)).bind _ = _ ∧ _
      rcases h1 with e2 | ⟨st2, e2, hc⟩
      · left; rw [e2]; exact ⟨.overflow, rfl, .inl rfl⟩
      rw [e2]
      generalize hcs : ({ s with st := st2, clock := s.clock + 1 } : Sys σ μ) = c at hc
      have hcs' : ({ s.tick with st := st2 } : Sys σ μ) = c := hcs
      show Thrown R ((rec g (childPrefix V pfx bs.head? ref.length g) { s.tick with st := st2 } (t.told true)).bind _) ∨
        ∃ ref' res has' s' t' f' P' vs' as' L, (rec g (childPrefix V pfx bs.head? ref.length g) { s.tick with st := st2 } (t.told true)).bind _ = _ ∧ _
      rw [hcs']
      have hcd : ∀ a, Within c.doms a ↔ Within p.doms a ∧ g.holds a := by intro a; rw [← hsd]; exact hc.narrow.within a
      have hcm : c.mem = s.mem := hc.mem
      have hcstore : store c.mem = store p.mem := by rw [hcm]; exact h.stored
      have hcg : c.st.guesses = p.st.guesses ++ [.cond g] := by rw [hc.guesses, hsg]
      have hcl : c.doms.length = p.doms.length := by obtain ⟨cs, hev, _⟩ := hc.narrow.evolve; rw [hev.length, hsd]
      have hcpf : PfxOK n Leaf (childPrefix V pfx bs.head? ref.length g) c.doms ∧
          ∀ a, Forbids (childPrefix V pfx bs.head? ref.length g) a → Forbids pfx a ∧ (V.learn.isSome = true → g.holds a ∨ (∃ b ∈ ref, b.holds a)) := by
        have h0 : PfxOK n Leaf pfx c.doms := ⟨hpf.valid, fun a ha => hpf.holds a ((hcd a).1 ha).1⟩
        unfold childPrefix
        by_cases hl : V.learn.isSome = true
        · rw [if_pos hl]
          split
          · rename_i hx
            refine ⟨h0, fun a ha => ⟨ha, fun _ => ?_⟩⟩
            obtain ⟨b, r, hr⟩ := List.exists_cons_of_ne_nil (l := ref) (by intro hc; rw [hc] at hx; simp at hx)
            have hh : bs.head? = some b := by rw [hbs, hr]; rfl
            rw [hh] at hx
            have hx := hx.2
            simp at hx
            by_cases hb : b.holds a
            · exact .inr ⟨b, by simp [hr], hb⟩
            · left; rw [← hx]; exact (b.not_holds a).2 hb
          · refine ⟨⟨?_, ?_⟩, fun a ha => ⟨fun x hx => ha x (by simp [hx]), fun _ => .inl (ha g (by simp))⟩⟩
            · intro x hx
              rcases List.mem_append.1 hx with hx | hx
              · exact hpf.valid x hx
              · simp at hx; rw [hx]; exact ⟨hgv, hBd g hgb⟩
            · intro a ha x hx
              rcases List.mem_append.1 hx with hx | hx
              · exact h0.holds a ha x hx
              · simp at hx; rw [hx]; exact ((hcd a).1 ha).2
        · rw [if_neg hl]
          exact ⟨h0, fun a ha => ⟨ha, fun hc => absurd hc hl⟩⟩
      rcases hrec g (childPrefix V pfx bs.head? ref.length g) c (t.told true) (.child s c _ g hs hIs hgv.1 hc) hcpf.1 hobjt (by rw [hcg]; simp)
        (Nat.lt_of_lt_of_le (narrow_card hc.narrow (by rw [hsd]; exact hB.strict g hgb)) (hsd ▸ hF)) with e3 | ⟨res, hs2, c', t', fc, Pc, vc, ac, L, e3, hN⟩
      · left; exact e3.bind _
      rw [e3]
      obtain ⟨s1, hin, hsm⟩ := hN.child nofun
      obtain ⟨s4, e4, hsame, hmem, hclk⟩ := back_restores hs hc hin hsm
      show Thrown R ((c'.backtrack (stamp s)).bind _) ∨ ∃ ref' res has' s' t' f' P' vs' as' L, (c'.backtrack (stamp s)).bind _ = _ ∧ _
      rw [e4]
      generalize ht1 : (if hs2 then t' else { t' with failures := t'.failures + 1 }) = t1
      -- everything known about the two parts together
      have hobj1 : t1.objective = t'.objective := by rw [← ht1]; cases hs2 <;> rfl
      have hcon1 : t1.conflicts = t'.conflicts := by rw [← ht1]; cases hs2 <;> rfl
      have hfail := failures_child hN.failures hN.tally.has hN.tally.len (fun q hq => hN.below q (.inr hq))
      rw [ht1] at hfail
      have htl1 : TallySpec V.minimise (t.told true) t1 fc Pc vc ac hs2 := by
        rw [← ht1]
        split
        · exact hN.tally
        · exact hN.tally.failed _
      have htally : TallySpec V.minimise t0 t1 (f ++ fc) (P ++ Pc) (vs ++ vc) (as ++ ([true] ++ ac)) (has || hs2) := by
        have := h.tally.trans ((TallySpec.told t hobjt.1 true).trans htl1)
        simpa only [List.nil_append, Bool.false_or] using this
      have himp : Improves V.minimise t.objective fc t1.objective := htl1.improves
      have hbelow' : ∀ q, q ∈ vc ∨ q ∈ Pc → p.st.guesses ++ [.cond g] <+: q := by rw [← hcg]; exact hN.below
      have hfails : t1.failures = t0.failures + (vs ++ vc).countP (noExt (P ++ Pc)) := by
        rw [hfail, failures_join hgref h.below hbelow', ← Nat.add_assoc]
        show t.failures + _ = _
        rw [h.failures]
      have hbelow : ∀ q, q ∈ vs ++ vc ∨ q ∈ P ++ Pc → ∃ b ∈ ref ++ [g], p.st.guesses ++ [.cond b] <+: q := by
        intro q hq
        have : (q ∈ vs ∨ q ∈ P) ∨ (q ∈ vc ∨ q ∈ Pc) := by simp only [List.mem_append] at hq; rcases hq with (h | h) | (h | h) <;> simp [h]
        rcases this with hq | hq
        · obtain ⟨b, hb, hq⟩ := h.below q hq; exact ⟨b, by simp [hb], hq⟩
        · exact ⟨g, by simp, hbelow' q hq⟩
      have hgood : ∀ d ∈ f ++ fc, DomsOK d ∧ d.length = n ∧ Leaf d ∧ ∀ a, Within d a → Sol a ∧ Within p.doms a ∧ (∃ b ∈ ref ++ [g], b.holds a) ∧ ∀ g ∈ (store p.mem).take k, ¬ Forbids g a := by
        intro d hd
        rcases List.mem_append.1 hd with hd | hd
        · obtain ⟨x1, x2, x3, x4⟩ := h.good d hd
          refine ⟨x1, x2, x3, fun a ha => ?_⟩
          obtain ⟨y1, y2, ⟨b, y3, y4⟩, y5⟩ := x4 a ha
          exact ⟨y1, y2, ⟨b, by simp [y3], y4⟩, y5⟩
        · obtain ⟨x1, x2, x3, x4⟩ := hN.good d hd
          refine ⟨x1, x2, x3, fun a ha => ?_⟩
          obtain ⟨y1, y2, y3⟩ := x4 a ha
          rw [hcstore] at y3
          exact ⟨y1, ((hcd a).1 y2).1, ⟨g, by simp, ((hcd a).1 y2).2⟩, y3⟩
      have hgood' : ∀ d ∈ f ++ fc, DomsOK d ∧ d.length = n ∧ Leaf d ∧ ∀ a, Within d a → Sol a ∧ Within p.doms a ∧ ∀ g ∈ (store p.mem).take k, ¬ Forbids g a :=
        fun d hd => ⟨(hgood d hd).1, (hgood d hd).2.1, (hgood d hd).2.2.1, fun a ha => by have := (hgood d hd).2.2.2 a ha; exact ⟨this.1, this.2.1, this.2.2.2⟩⟩
      have hapart : (f ++ fc).Pairwise (Parted Leaf) := by
        rw [List.pairwise_append]
        refine ⟨h.apart, hN.apart, fun d hd e he => ?_⟩
        obtain ⟨a, hda⟩ := exists_within (h.good d hd).1
        obtain ⟨b, hb, hba⟩ := ((h.good d hd).2.2.2 a hda).2.2.1
        have hdec : Decided Leaf b := hBd b (by rw [hbs]; simp [hb])
        refine ⟨[b], fun c hc => by rw [List.mem_singleton.1 hc]; exact hdec, fun a' ha' c hc => ?_, fun a' ha' hc => ?_⟩
        · rw [List.mem_singleton.1 hc]; exact hdec d a a' (h.good d hd).2.2.1 hda ha' hba
        · have hga := (hcd a').1 ((hN.good e he).2.2.2 a' ha').2.1
          exact hdisj b hb a' hga.1 ⟨hc b (by simp), hga.2⟩
      have hdone : ∀ a, Wanted Sol store p.mem a → Within p.doms a → (∃ b ∈ ref, b.holds a) → Reported V.minimise t1.objective (f ++ fc) a :=
        fun a hw ha hb => (h.done a hw ha hb).later himp
      have hle : Le p.mem s4.mem := by rw [hmem]; exact hC.le_trans _ _ _ h.le (hcm ▸ hN.le (by simp))
      have hstored : store s4.mem = store p.mem ++ L := by rw [hmem, hN.stored, hcstore]
      have hwant : ∀ a, Wanted Sol store p.mem a → Wanted Sol store c.mem a := fun a hw => ⟨hw.1, by rw [hcstore]; exact hw.2⟩
      have hsize : c.doms.size ≤ p.doms.count (fun a => decide (g.holds a)) := size_le_count hc.narrow.ok hcl (fun a ha => ⟨((hcd a).1 ha).1, decide_eq_true ((hcd a).1 ha).2⟩)
      have hcount : p.doms.count (fun a => (ref ++ [g]).any (fun b => decide (b.holds a))) =
          p.doms.count (fun a => ref.any (fun b => decide (b.holds a))) + p.doms.count (fun a => decide (g.holds a)) := by
        rw [← count_or]
        · congr 1; funext a; simp
        · rintro a ha ⟨x1, x2⟩
          simp only [List.any_eq_true, decide_eq_true_eq] at x1 x2
          obtain ⟨b, hb, hba⟩ := x1
          exact hdisj b hb a ha ⟨hba, x2⟩
      have hconf : t1.conflicts ≤ t0.conflicts + p.doms.count (fun a => (ref ++ [g]).any (fun b => decide (b.holds a))) := by
        have y1 := hN.conflicts
        have y2 := h.conflicts
        have y3 : (t.told true).conflicts = t.conflicts := rfl
        rw [hcon1, hcount]; omega
      have hsamep : Same V.engine.progs.length p s4 := h.same.trans hsame
      have hrefs : ∀ b ∈ ref, b ∈ bs ∧ ∀ a, Wanted Sol store p.mem a → Within p.doms a → b.holds a → Reported V.minimise t1.objective (f ++ fc) a :=
        fun b hb => ⟨by rw [hbs]; simp [hb], fun a hw ha hba => hdone a hw ha ⟨b, hb, hba⟩⟩
      cases hres : res with
      | stop =>
        right
        subst hres
        have hL := hN.learned (.inl nofun)
        refine ⟨ref, .stop, has || hs2, s4, t1, f ++ fc, P ++ Pc, vs ++ vc, as ++ ([true] ++ ac), L, rfl, ?_⟩
        exact {
          tally := htally, failures := hfails
          below := fun q hq => by obtain ⟨b, _, hb⟩ := hbelow q hq; exact List.IsPrefix.trans ⟨_, rfl⟩ hb
          good := hgood', apart := hapart, complete := nofun
          le := hle, stored := hstored, learned := fun _ => hL, prefixes := by rw [hL]; simp
          lost := by rw [hL]; simp
          refs := hrefs, excluded := nofun
          answered := ⟨fun hc => absurd rfl hc, fun _ => by
            obtain ⟨y1, bs', y2, y3⟩ := hN.answered.2 rfl
            refine ⟨y1, as ++ ([true] ++ bs'), by rw [y2]; simp, ?_⟩
            intro b hb
            simp only [List.mem_append] at hb
            rcases hb with hb | hb | hb
            · exact h.answers b hb
            · simpa using hb
            · exact y3 b hb⟩
          conflicts := Nat.le_trans hconf (Nat.add_le_add_left (count_le_size _ _) _)
          spent := nofun, same := hsamep }
      | cutoff =>
        right
        subst hres
        refine ⟨ref, .cutoff, has || hs2, s4, t1, f ++ fc, P ++ Pc, vs ++ vc, as ++ ([true] ++ ac), L, rfl, ?_⟩
        have hlearn : ∀ g' ∈ L, V.learn.isSome = true := by
          intro g' hg'
          cases hx : V.learn with
          | none => have := hN.learned (.inr hx); rw [this] at hg'; simp at hg'
          | some => rfl
        exact {
          tally := htally, failures := hfails
          below := fun q hq => by obtain ⟨b, _, hb⟩ := hbelow q hq; exact List.IsPrefix.trans ⟨_, rfl⟩ hb
          good := hgood', apart := hapart, complete := nofun
          le := hle, stored := hstored, learned := hN.learned
          prefixes := fun g' hg' a ha => (hcpf.2 a (hN.prefixes g' hg' a ha)).1
          lost := by
            intro g' hg' a hw ha hf
            rcases (hcpf.2 a (hN.prefixes g' hg' a hf)).2 (hlearn g' hg') with hga | hr
            · have := hN.lost g' hg' a (hwant a hw) ((hcd a).2 ⟨ha, hga⟩) hf
              rw [hobj1]; exact this.earlier
            · exact hdone a hw ha hr
          refs := hrefs
          excluded := by
            intro _ hl d hd a ha
            rcases List.mem_append.1 hd with hd | hd
            · exact .inr ((h.good d hd).2.2.2 a ha).2.2.1
            · exact .inl (hN.excluded rfl hl d hd a ha)
          answered := ⟨fun _ b hb => by
            simp only [List.mem_append] at hb
            rcases hb with hb | hb | hb
            · exact h.answers b hb
            · simpa using hb
            · exact hN.answered.1 nofun b hb, nofun⟩
          conflicts := Nat.le_trans hconf (Nat.add_le_add_left (count_le_size _ _) _)
          spent := fun _ => by obtain ⟨x, y1, y2⟩ := hN.spent rfl; exact ⟨x, y1, by rw [hcon1]; exact y2⟩
          same := hsamep }
      | complete =>
        subst hres
        have hL := hN.learned (.inl nofun)
        have := ih (ref ++ [g]) (has || hs2) s4 t1 (f ++ fc) (P ++ Pc) (vs ++ vc) (as ++ ([true] ++ ac)) (by rw [hbs]; simp) {
          tally := htally, failures := hfails, below := hbelow, good := hgood, apart := hapart
          done := by
            rintro a hw ha ⟨b, hb, hba⟩
            rcases List.mem_append.1 hb with hb | hb
            · exact hdone a hw ha ⟨b, hb, hba⟩
            · simp at hb; subst hb
              have := hN.complete rfl a (hwant a hw) ((hcd a).2 ⟨ha, hba⟩)
              rw [hobj1]; exact this.earlier
          le := hle, stored := by rw [hstored, hL, List.append_nil]
          answers := by
            intro b hb
            simp only [List.mem_append] at hb
            rcases hb with hb | hb | hb
            · exact h.answers b hb
            · simpa using hb
            · exact hN.answered.1 nofun b hb
          conflicts := hconf, same := hsamep }
        rw [List.length_append] at this
        exact this

/-! ## A node -/

/-- `p` is the node `s` with propagation finished. -/
structure Settled (n m : Nat) (V : SearchEnv σ μ) (Sol : Asg → Prop) (store : μ → List (List Cond)) (Le : μ → μ → Prop) (I : Nat → Sys σ μ → Prop) (k : Nat) (guess : Option Cond) (s : Sys σ μ)
    (t : Tally) (p : Sys σ μ) : Prop where
  node : NodeOK n m V.engine p
  inv : I k p
  guesses : p.st.guesses = s.st.guesses
  evolve : ∃ cs, Evolve s.doms cs p.doms
  le : guess ≠ none → Le s.mem p.mem
  stored : store p.mem = store s.mem
  keeps : ∀ a, Wanted Sol store s.mem a → Within s.doms a → Within p.doms a ∨ Reported V.minimise t.objective [] a
  clock : s.clock ≤ p.clock
  bounded : ∀ o x, V.minimise = some o → t.objective = some x → ∀ a, Within p.doms a → o.eval a < x
  child : guess ≠ none → ∃ s1, Inside n V.engine s s1 ∧ Same V.engine.progs.length s1 p
  settles : ∃ d gs b p0, Sys.propagate V.engine gs V.abort { s with st := { s.st with vars := d :: s.st.vars.tail } } = .ok (b, p0) ∧ Same V.engine.progs.length p0 p

theorem Settled.settles' {k : Nat} {guess : Option Cond} {s : Sys σ μ} {t : Tally} {p s' : Sys σ μ} (h : Settled n m V Sol store Le I k guess s t p) (hs : Same V.engine.progs.length p s') : Settles V s s' := by
  obtain ⟨d, gs, b, p0, h1, h2⟩ := h.settles
  exact ⟨d, .inr ⟨gs, b, p0, h1, h2.trans hs⟩⟩

theorem Settled.ticks (hC : SearchContract n m R V Sol Leaf store Le J I) {k : Nat} {guess : Option Cond} {s : Sys σ μ} {t : Tally} {p : Sys σ μ}
    (h : Settled n m V Sol store Le I k guess s t p) : Settled n m V Sol store Le I k guess s t p.tick := by
  have hs : Same V.engine.progs.length p p.tick := .of_eq h.node.inv h.node.call.boxes rfl rfl rfl (Nat.le_succ _)
  refine ⟨h.node.same hs, hC.back k p _ h.node h.inv hs (hC.le_refl _), h.guesses, h.evolve, h.le, h.stored, h.keeps, Nat.le_trans h.clock (Nat.le_succ _), h.bounded, fun hg => ?_, ?_⟩
  · obtain ⟨s1, h1, h2⟩ := h.child hg
    exact ⟨s1, h1, h2.trans hs⟩
  · obtain ⟨d, gs, b, p0, h1, h2⟩ := h.settles
    exact ⟨d, gs, b, p0, h1, h2.trans hs⟩

theorem learnFrom_spec (hC : SearchContract n m R V Sol Leaf store Le J I) {pfx ref : List Cond} (hp : ∀ c ∈ pfx, GuessOK n Leaf c)
    (hr : ∀ c ∈ ref, GuessOK n Leaf c) (x : μ) :
    Le x (learnFrom V pfx ref x) ∧ store (learnFrom V pfx ref x) = store x ++ (if V.learn.isSome then ref.map (fun g => pfx ++ [g]) else []) := by
  unfold learnFrom
  cases hl : V.learn with
  | none => exact ⟨hC.le_refl x, by simp⟩
  | some add =>
    simp only [Option.isSome_some, if_true]
    induction ref generalizing x with
    | nil => exact ⟨hC.le_refl x, by simp⟩
    | cons g ref ih =>
      have hg := hC.learned add hl (pfx ++ [g]) x (by
        intro c hc
        rcases List.mem_append.1 hc with hc | hc
        · exact hp c hc
        · simp at hc; rw [hc]; exact hr g (by simp))
      have := ih (fun c hc => hr c (by simp [hc])) (add (pfx ++ [g]) x)
      simp only [List.foldl_cons]
      exact ⟨hC.le_trans _ _ _ hg.1 this.1, by rw [this.2, hg.2]; simp⟩

/-- The tally on entering a node. -/
def Tally.enter (t : Tally) (depth : Nat) (q : List Lit) : Tally := { t with maxDepth := max t.maxDepth depth, recursions := t.recursions + 1, visited := t.visited ++ [q] }

theorem TallySpec.enter {o : Option VarId} {t : Tally} {q : List Lit} (h : o = none → t.objective = none) : TallySpec o t (t.enter q.length q) [] [] [q] [] false :=
  ⟨by simp [Tally.enter], by simp [Tally.enter], by simp [Tally.enter], by simp [Tally.enter], rfl, rfl, rfl, by simp [Tally.enter, deepest], by simp, rfl, .nil h⟩

theorem TallySpec.conflict {o : Option VarId} {t t' : Tally} {f : List Doms} {P vs : List (List Lit)} {as : List Bool} {b : Bool} (h : TallySpec o t t' f P vs as b) (k : Nat) :
    TallySpec o t { t' with conflicts := k } f P vs as b :=
  ⟨h.found, h.solved, h.visited, h.answers, h.solutions, h.recursions, h.restarts, h.maxDepth, h.has, h.len, h.improves⟩

/-- A node at which nothing is found and nothing is learned. -/
theorem node_barren {k : Nat} {cut : Option Nat} {guess : Option Cond} {pfx : List Cond} {s s' : Sys σ μ} {t t' : Tally} {res : SearchResult} {as : List Bool}
    (htally : TallySpec V.minimise t t' [] [] [s.st.guesses] as false) (hfail : t'.failures = t.failures)
    (hcomplete : res = .complete → ∀ a, Wanted Sol store s.mem a → Within s.doms a → Reported V.minimise t'.objective [] a)
    (hle : guess ≠ none → Le s.mem s'.mem) (hst : store s'.mem = store s.mem) (hclk : s.clock ≤ s'.clock) (hans : Answered V res as) (hconf : t'.conflicts ≤ t.conflicts + s.doms.size)
    (hspent : res = .cutoff → (∃ c, cut = some c ∧ c ≤ t'.conflicts) ∧ s' = s) (hchild : guess ≠ none → ∃ s1, Inside n V.engine s s1 ∧ Same V.engine.progs.length s1 s')
    (hset : Settles V s s') : NodeSpec V Sol Leaf store Le I n m k cut guess pfx s t res false s' t' [] [] [s.st.guesses] as [] where
  tally := htally
  failures := ⟨[], rfl, by simpa using hfail⟩
  below := by intro q hq; simp at hq; rw [hq]; exact List.prefix_refl _
  good := by simp
  apart := .nil
  complete := hcomplete
  le := hle
  stored := by rw [hst, List.append_nil]
  learned := fun _ => rfl
  prefixes := by simp
  lost := by simp
  excluded := by simp
  clock := hclk
  answered := hans
  conflicts := hconf
  spent := fun h => (hspent h).1
  child := hchild
  settles := hset
  root := fun _ h => .inl ⟨(hspent h).2, rfl⟩

theorem leaf_spec (hC : SearchContract n m R V Sol Leaf store Le J I) {k : Nat} {cut : Option Nat} {guess : Option Cond} {pfx : List Cond} {s p : Sys σ μ} {t0 t : Tally} {as : List Bool}
    (hp : Settled n m V Sol store Le I k guess s t0 p) (hlf : Leaf p.doms) (htally : TallySpec V.minimise t0 t [] [] [s.st.guesses] as false) (hfail : t.failures = t0.failures)
    (hconf : t.conflicts = t0.conflicts)
    (hobj : ObjOK V.minimise t0.objective) (hobjt : t.objective = t0.objective)
    (hans : ∀ b ∈ as, b = true) : Thrown R (leaf V p t) ∨ ∃ res has s' t' f P vs as' L, leaf V p t = .ok (res, has, s', t') ∧
      NodeSpec V Sol Leaf store Le I n m k cut guess pfx s t0 res has s' t' f P vs as' L := by
  have hval : Thrown R (newObjective V p.doms t.objective) ∨
      ∃ v, (newObjective V p.doms t.objective) = .ok v ∧
        Improves V.minimise t0.objective [p.doms] v := by
    unfold newObjective
    cases hm : V.minimise with
    | none =>
      refine .inr ⟨t.objective, rfl, ?_⟩
      rw [hobjt, hobj.1 hm]; exact .free _
    | some o =>
      obtain ⟨ho, hsame⟩ := hC.objective o hm
      have hov : o.Valid p.doms.length := by rw [hp.node.call.domsLen]; exact ho
      obtain ⟨a0, ha0⟩ := exists_within hp.node.call.domsOK
      have huniq : ∀ z, Poss p.doms o z ↔ z = o.eval a0 := by
        intro z
        constructor
        · rintro ⟨a, ha, rfl⟩; exact hsame _ _ _ hlf ha ha0
        · rintro rfl; exact ⟨a0, ha0, rfl⟩
      rcases single_roo hp.node.call.domsOK hov with e | ⟨r, e, hr⟩
      · left; exact ⟨.overflow, by simp [valueOf, e, bind, Except.bind], .inl rfl⟩
      · right
        have hr0 := ((hr (o.eval a0)).1).2 huniq
        subst hr0
        refine ⟨some (o.eval a0), by simp [valueOf, e, bind, Except.bind, pure, Except.pure], ?_⟩
        have := Improves.better (d := p.doms) (w := o.eval a0) (.start o t0.objective) (fun x hx => hp.bounded o x hm hx a0 ha0)
          (fun a ha => hsame _ _ _ hlf ha ha0) ((hr _).2 rfl)
        simpa using this
  unfold leaf
  rcases hval with e | ⟨v, e, himp⟩
  · left; exact e.bind _
  · right
    rw [e]
    refine ⟨_, _, _, _, [p.doms], [p.st.guesses], [s.st.guesses], as ++ [V.solution p.clock p.doms], [], rfl, ?_⟩
    have hp' := hp.ticks hC
    obtain ⟨cs, hev⟩ := hp.evolve
    refine {
      tally := ⟨?_, ?_, ?_, ?_, ?_, ?_, ?_, ?_, by simp, rfl, himp⟩
      failures := ⟨[], rfl, hfail⟩
      below := ?_
      good := ?_
      apart := by simp
      complete := ?_
      le := hp.le
      stored := by rw [List.append_nil]; exact hp.stored
      learned := fun _ => rfl, prefixes := by simp, lost := by simp
      excluded := fun h => by split at h <;> cases h
      clock := hp'.clock
      answered := ?_
      conflicts := by show t.conflicts ≤ _; omega
      spent := fun h => by split at h <;> cases h
      child := hp'.child
      settles := hp'.settles' (.refl hp'.node.inv hp'.node.call.boxes)
      root := fun _ h => by split at h <;> cases h }
    · show t.found ++ _ = _; rw [htally.found, List.append_nil]
    · show t.solved ++ _ = _; rw [htally.solved, List.append_nil]
    · exact htally.visited
    · show t.answers ++ _ = _; rw [htally.answers, List.append_assoc]
    · show t.solutions + 1 = _; rw [htally.solutions]; rfl
    · exact htally.recursions
    · exact htally.restarts
    · exact htally.maxDepth
    · intro q hq
      have : q = s.st.guesses := by simp at hq; rcases hq with h | h; exact h; rw [h]; exact hp.guesses
      rw [this]; exact List.prefix_refl _
    · intro d hd
      simp at hd; subst hd
      refine ⟨hp.node.call.domsOK, hp.node.call.domsLen, hlf, fun a ha => ?_⟩
      have := hC.leaf k p hp.node hp.inv hlf a ha
      rw [hp.stored] at this
      exact ⟨this.1, hev.within ha, this.2⟩
    · intro _ a hw ha
      rcases hp.keeps a hw ha with h | h
      · exact .inl ⟨p.doms, by simp, h⟩
      · exact h.later himp
    · constructor
      · intro h b hb
        rcases List.mem_append.1 hb with hb | hb
        · exact hans b hb
        · simp at hb; subst hb
          cases hx : V.solution p.clock p.doms with
          | true => rfl
          | false => rw [hx] at h; exact absurd rfl h
      · intro h
        cases hx : V.solution p.clock p.doms with
        | true => rw [hx] at h; cases h
        | false => exact ⟨⟨p.clock, p.doms, .inr (.inl hx)⟩, as, rfl, hans⟩

theorem Inside.vars {E : Engine σ μ} {s s1 : Sys σ μ} (hs : NodeOK n m E s) (he : ∃ d, s1 = { s with st := { s.st with vars := d :: s.st.vars.tail } }) : Inside n E s s1 := by
  obtain ⟨d, rfl⟩ := he
  exact ⟨rfl, by simp, rfl, hs.cstatesNe, rfl, rfl, rfl, rfl, Nat.le_refl _, .inl ⟨rfl, rfl, rfl⟩⟩

theorem node_spec (hC : SearchContract n m R V Sol Leaf store Le J I) {k : Nat} {cut : Option Nat} :
    ∀ (fuel depth : Nat) (guess : Option Cond) (pfx : List Cond) (s : Sys σ μ) (t : Tally), Arrive V store J I n m k guess s t → PfxOK n Leaf pfx s.doms → ObjOK V.minimise t.objective →
      depth = s.st.guesses.length → s.doms.card < fuel →
      Thrown R (node V cut fuel depth guess pfx s t) ∨ ∃ res has s' t' f P vs as L, node V cut fuel depth guess pfx s t = .ok (res, has, s', t') ∧
        NodeSpec V Sol Leaf store Le I n m k cut guess pfx s t res has s' t' f P vs as L := by
  intro fuel
  induction fuel with
  | zero => intro _ _ _ s _ _ _ _ _ hf; omega
  | succ fuel ih =>
    intro depth guess pfx s t0 harr hpf hobj hdep hfuel
    subst hdep
    have hroot := harr.rootOK
    have hdok := hroot.1.call.domsOK
    rw [node]
    show Thrown R (if cut.any (· ≤ (t0.enter s.st.guesses.length s.st.guesses).conflicts) = true then _ else _) ∨
      ∃ res has s' t' f P vs as L, (if cut.any (· ≤ (t0.enter s.st.guesses.length s.st.guesses).conflicts) = true then _ else _) = _ ∧ _
    have hent : TallySpec V.minimise t0 (t0.enter s.st.guesses.length s.st.guesses) [] [] [s.st.guesses] [] false := .enter hobj.1
    generalize ht : t0.enter s.st.guesses.length s.st.guesses = t at hent
    have htf : t.failures = t0.failures := by rw [← ht]; rfl
    have htc : t.conflicts = t0.conflicts := by rw [← ht]; rfl
    have hto : t.objective = t0.objective := by rw [← ht]; rfl
    have hpos := size_pos hdok
    have hte : ({ t0 with maxDepth := max t0.maxDepth s.st.guesses.length, recursions := t0.recursions + 1, visited := t0.visited ++ [s.st.guesses] } : Tally) = t := ht
    by_cases hcut : cut.any (· ≤ t.conflicts) = true
    · rw [if_pos hcut]
      right
      rw [hte]
      refine ⟨.cutoff, false, s, t, [], [], [s.st.guesses], [], [], rfl, ?_⟩
      refine node_barren hent htf nofun (fun _ => hC.le_refl _) rfl (Nat.le_refl _) ⟨by simp, nofun⟩ (by omega) (fun _ => ⟨?_, rfl⟩) (fun hg => ⟨s, (hroot.2 hg).inside, .refl (hroot.2 hg).inv (hroot.2 hg).call.boxes⟩)
        (by obtain ⟨d, h⟩ := vars_self hroot.1.call.varsNe; exact ⟨d, .inl h⟩)
      cases cut with
      | none => cases hcut
      | some c => exact ⟨c, rfl, by simpa using hcut⟩
    rw [if_neg hcut, hte]
    have hb0 : boundObjective V (guess.toList.map .cond) s t = boundObjective V (guess.toList.map .cond) s t0 := by unfold boundObjective; rw [hto]
    rw [hb0]
    rcases bound_spec hC harr hobj with e | ⟨fail, gs, s1, e, hb⟩
    · left; exact e.bind _
    rw [e]
    show Thrown R (if fail = true then _ else _) ∨ ∃ res has s' t' f P vs as L, (if fail = true then _ else _) = _ ∧ _
    have hs1mem : s1.mem = s.mem := by obtain ⟨d, he⟩ := hb.eq; rw [he]
    have hs1clk : s1.clock = s.clock := by obtain ⟨d, he⟩ := hb.eq; rw [he]
    have hs1g : s1.st.guesses = s.st.guesses := by obtain ⟨d, he⟩ := hb.eq; rw [he]
    have hs1q : s1.q = s.q ∧ s1.w = s.w := by obtain ⟨d, he⟩ := hb.eq; rw [he]; exact ⟨rfl, rfl⟩
    by_cases hf : fail = true
    · rw [if_pos hf]
      right
      refine ⟨.complete, false, s1, _, [], [], [s.st.guesses], [], [], rfl, ?_⟩
      refine node_barren (hent.conflict _) htf (fun _ a _ ha => ?_) (fun _ => by rw [hs1mem]; exact hC.le_refl _) (by rw [hs1mem]) (by omega) ⟨by simp, nofun⟩ ?_ nofun
        (fun hg => ⟨s1, .vars (hroot.2 hg) hb.eq, .refl (by rw [hs1q.1]; exact (hroot.2 hg).inv) (by rw [hs1q.2]; exact (hroot.2 hg).call.boxes)⟩) (by obtain ⟨d, h⟩ := hb.eq; exact ⟨d, .inl h⟩)
      · show Reported V.minimise t.objective [] a
        rw [hto]; exact hb.failed hf a ha
      · show t.conflicts + 1 ≤ _; omega
    rw [if_neg hf]
    have hf' : fail = false := by simpa using hf
    have hentry := hb.entry hf'
    have hr1 := hentry.rootOK
    have hcall : CallOK n m V.engine gs s1 := hr1.1.call.of_nil gs fun hg => (hr1.2 hg).inv
    show Thrown R ((Sys.propagate V.engine gs V.abort s1).bind _) ∨ ∃ res has s' t' f P vs as L, (Sys.propagate V.engine gs V.abort s1).bind _ = _ ∧ _
    rcases hC.runs k gs s1 hentry with e2 | ⟨b, s2, e2, hcs⟩
    · left; exact Thrown.bind (R := R) e2 _
    rw [e2]
    show Thrown R (if b = false then _ else if V.abort s2.clock = true then _ else _) ∨
      ∃ res has s' t' f P vs as L, (if b = false then _ else if V.abort s2.clock = true then _ else _) = _ ∧ _
    obtain ⟨hk1, hk2, hk3, hk4⟩ := hC.call k gs s1 b s2 hentry e2
    have hcsn : s1.st.cstates ≠ [] := by
      intro hc
      have := hr1.1.aligned.1; rw [hc] at this
      exact hcall.varsNe (List.eq_nil_of_length_eq_zero (by simpa using this.symm))
    have hprop : ∃ d gs b p0, Sys.propagate V.engine gs V.abort { s with st := { s.st with vars := d :: s.st.vars.tail } } = .ok (b, p0) ∧ Same V.engine.progs.length p0 s2 := by
      obtain ⟨d, h⟩ := hb.eq
      exact ⟨d, gs, b, s2, by rw [← h]; exact e2, .refl hcs.inv hcs.boxes⟩
    have hins : guess ≠ none → Inside n V.engine s s2 := fun hg => (hcs.inside (hb.seeds hg) hcsn).before hb.eq
    have hle2 : guess ≠ none → Le s.mem s2.mem := fun hg => hs1mem ▸ hk2 (hb.seeds hg)
    have hst2 : store s2.mem = store s.mem := by rw [hk3, hs1mem]
    have hclk2 : s.clock ≤ s2.clock := by have := hcs.clock; omega
    have hkeep : ∀ a, Wanted Sol store s.mem a → Within s.doms a → (b = true ∧ Within s2.doms a) ∨ Reported V.minimise t0.objective [] a := by
      intro a hw ha
      rcases hb.keeps hf' a ha with h | h
      · exact .inl (hk1 a hw.1 (by rw [hs1mem]; exact hw.2) h)
      · exact .inr h
    by_cases hbt : b = false
    · rw [if_pos hbt]
      right
      refine ⟨.complete, false, s2, _, [], [], [s.st.guesses], [], [], rfl, ?_⟩
      refine node_barren (hent.conflict _) htf (fun _ a hw ha => ?_) hle2 hst2 hclk2 ⟨by simp, nofun⟩ ?_ nofun (fun hg => ⟨s2, hins hg, .refl hcs.inv hcs.boxes⟩)
        (by obtain ⟨d, gs, b, p0, h1, h2⟩ := hprop; exact ⟨d, .inr ⟨gs, b, p0, h1, h2⟩⟩)
      · show Reported V.minimise t.objective [] a
        rw [hto]
        rcases hkeep a hw ha with h | h
        · rw [hbt] at h; cases h.1
        · exact h
      · show t.conflicts + 1 ≤ _; omega
    rw [if_neg hbt]
    have hbt' : b = true := by simpa using hbt
    subst hbt'
    have hnode2 := hcs.nodeOK hcall hr1.1.ids hr1.1.aligned
    by_cases hab : V.abort s2.clock = true
    · rw [if_pos hab]
      right
      refine ⟨.stop, false, s2.tick, t.told false, [], [], [s.st.guesses], [false], [], rfl, ?_⟩
      have htl := hent.trans (TallySpec.told t (fun h => by rw [hto]; exact hobj.1 h) false)
      exact node_barren htl htf nofun hle2 hst2 (Nat.le_trans hclk2 (Nat.le_succ _)) ⟨fun h => absurd rfl h, fun _ => ⟨⟨s2.clock, [], .inl hab⟩, [], rfl, by simp⟩⟩
        (by show t.conflicts ≤ _; omega) nofun (fun hg => ⟨s2, hins hg, .of_eq hcs.inv hcs.boxes rfl rfl rfl (Nat.le_succ _)⟩)
        (by obtain ⟨d, gs, b, p0, h1, h2⟩ := hprop; exact ⟨d, .inr ⟨gs, b, p0, h1, h2.trans (.of_eq hcs.inv hcs.boxes rfl rfl rfl (Nat.le_succ _))⟩⟩)
    rw [if_neg hab]
    have hI2 : I k s2 := by
      refine hk4 rfl fun i hi => ?_
      cases hx : V.abort i with
      | false => rfl
      | true => exact absurd (hC.monotone i s2.clock (Nat.le_of_lt hi) hx) hab
    have hset2 : Settled n m V Sol store Le I k guess s t0 s2 := by
      obtain ⟨cs, hev⟩ := hb.evolve hf'
      obtain ⟨cs', hev'⟩ := hcs.good rfl
      exact ⟨hnode2, hI2, by rw [hcs.guesses, hs1g], ⟨_, hev.trans hev'⟩, hle2, hst2, fun a hw ha => (hkeep a hw ha).imp And.right id, hclk2,
        fun o x ho hx a ha => hb.bounded hf' o x ho hx a (hev'.within ha), fun hg => ⟨s2, hins hg, .refl hcs.inv hcs.boxes⟩, hprop⟩
    have htold := hent.trans (TallySpec.told t (fun h => by rw [hto]; exact hobj.1 h) true)
    have hset3 := hset2.ticks hC
    generalize hs3 : s2.tick = s3 at hset3
    show Thrown R ((V.branch s3.clock s3).bind _) ∨ ∃ res has s' t' f P vs as L, (V.branch s3.clock s3).bind _ = _ ∧ _
    rcases hC.branch s3.clock s3 hset3.node with e3 | ⟨bs, e3, hbs⟩
    · left; exact Thrown.bind (R := R) e3 _
    rw [e3]
    show Thrown R (if bs = [] then leaf V s3.tick (t.told true) else if V.trace s3.tick.clock s3.tick.doms = false then _ else if V.abort s3.tick.tick.clock = true then _ else _) ∨
      ∃ res has s' t' f P vs as L, (if bs = [] then leaf V s3.tick (t.told true) else if V.trace s3.tick.clock s3.tick.doms = false then _ else
        if V.abort s3.tick.tick.clock = true then _ else _) = _ ∧ _
    have hset4 := hset3.ticks hC
    have hd4 : s3.tick.doms = s3.doms := rfl
    by_cases hnil : bs = []
    · rw [if_pos hnil]
      rw [if_pos hnil] at hbs
      exact leaf_spec hC hset4 (hd4 ▸ hbs) htold htf htc hobj hto (by simp)
    rw [if_neg hnil]
    rw [if_neg hnil] at hbs
    have hset5 := hset4.ticks hC
    have hset6 := hset5.ticks hC
    have hobjt : V.minimise = none → t.objective = none := fun h => by rw [hto]; exact hobj.1 h
    by_cases htr : V.trace s3.tick.clock s3.tick.doms = false
    · rw [if_pos htr]
      right
      refine ⟨.stop, false, s3.tick.tick, (t.told true).told false, [], [], [s.st.guesses], [true, false], [], rfl, ?_⟩
      have htl := htold.trans (TallySpec.told (t.told true) hobjt false)
      exact node_barren htl htf nofun hset5.le hset5.stored hset5.clock ⟨fun h => absurd rfl h, fun _ => ⟨⟨_, _, .inr (.inr htr)⟩, [true], rfl, by simp⟩⟩
        (by show t.conflicts ≤ _; omega) nofun hset5.child (hset5.settles' (.refl hset5.node.inv hset5.node.call.boxes))
    rw [if_neg htr]
    by_cases hab2 : V.abort s3.tick.tick.clock = true
    · rw [if_pos hab2]
      right
      refine ⟨.stop, false, s3.tick.tick.tick, ((t.told true).told true).told false, [], [], [s.st.guesses], [true, true, false], [], rfl, ?_⟩
      have htl := (htold.trans (TallySpec.told (t.told true) hobjt true)).trans (TallySpec.told ((t.told true).told true) hobjt false)
      exact node_barren htl htf nofun hset6.le hset6.stored hset6.clock ⟨fun h => absurd rfl h, fun _ => ⟨⟨s3.tick.tick.clock, [], .inl hab2⟩, [true, true], rfl, by simp⟩⟩
        (by show t.conflicts ≤ _; omega) nofun hset6.child (hset6.settles' (.refl hset6.node.inv hset6.node.call.boxes))
    rw [if_neg hab2]
    have htl := (htold.trans (TallySpec.told (t.told true) hobjt true)).trans (TallySpec.told ((t.told true).told true) hobjt true)
    generalize ht3 : ((t.told true).told true).told true = t3 at htl
    have h3f : t3.failures = t0.failures := by rw [← ht3]; exact htf
    have h3c : t3.conflicts = t0.conflicts := by rw [← ht3]; exact htc
    have h3o : t3.objective = t0.objective := by rw [← ht3]; exact hto
    have hd6 : s3.tick.tick.tick.doms = s3.doms := rfl
    generalize hp : s3.tick.tick.tick = p at hset6 hd6
    have hobj3 : ObjOK V.minimise t3.objective := by rw [h3o]; exact hobj
    obtain ⟨cs, hev⟩ := hset6.evolve
    have hB : BranchOK n p.doms bs := by rw [hd6]; exact hbs.1
    have hBd := hbs.2
    have hsib := siblings_spec hC (k := k) (cut := cut) (F := fuel) (pfx := pfx) (bs := bs) (p := p) (t0 := t3) (rec := fun g pf s t => node V cut fuel (s3.tick.tick.st.guesses.length + 1) (some g) pf s t)
      (fun g pf c tc h1 h2 h3 h4 h5 => ih _ (some g) pf c tc h1 h2 h3 (by rw [h4, ← hp]; rfl) h5) hset6.node hset6.inv ⟨hpf.valid, fun a ha => hpf.holds a (hev.within ha)⟩ hB hBd
      (by have := hev.card; omega) hobj3 bs [] false p t3 [] [] [] [] rfl
      { tally := .refl t3 hobj3.1, failures := by simp, below := (by simp), good := (by simp), apart := .nil, done := (by simp), le := hC.le_refl _, stored := rfl, answers := (by simp)
        conflicts := Nat.le_add_right _ _, same := .refl hset6.node.inv hset6.node.call.boxes }
    have hgl : s3.tick.tick.st.guesses.length = s.st.guesses.length := by rw [← hset6.guesses, ← hp]; rfl
    rw [hgl] at hsib
    show Thrown R ((siblings V (fun g pf s' t => node V cut fuel (s.st.guesses.length + 1) (some g) pf s' t) pfx bs.head? 0 bs [] false p t3).bind _) ∨
      ∃ res has s' t' f P vs as L, (siblings V (fun g pf s' t => node V cut fuel (s.st.guesses.length + 1) (some g) pf s' t) pfx bs.head? 0 bs [] false p t3).bind _ = _ ∧ _
    rcases hsib with e4 | ⟨ref, res, has, s', t', f, P, vs, as, L, e4, hL⟩
    · left; exact Thrown.bind (R := R) e4 _
    have e4 : siblings V (fun g pf s' t => node V cut fuel (s.st.guesses.length + 1) (some g) pf s' t) pfx bs.head? 0 bs [] false p t3 = .ok (ref, res, has, s', t') := e4
    rw [e4]
    right
    -- what the loop says, seen from the node
    have htally : TallySpec V.minimise t0 t' f P (s.st.guesses :: vs) ([true, true, true] ++ as) has := by
      have := htl.trans hL.tally
      simpa only [List.nil_append, List.append_nil, Bool.false_or, List.cons_append] using this
    have hwant : ∀ a, Wanted Sol store s.mem a → Wanted Sol store p.mem a := fun a hw => ⟨hw.1, by rw [hset6.stored]; exact hw.2⟩
    have hrep : ∀ a, Wanted Sol store s.mem a → Within s.doms a → Within p.doms a ∨ Reported V.minimise t'.objective f a := by
      intro a hw ha
      rcases hset6.keeps a hw ha with h | h
      · exact .inl h
      · exact .inr (by have := Reported.later (h3o ▸ h) hL.tally.improves; simpa using this)
    have hbelow : ∀ q, q ∈ s.st.guesses :: vs ∨ q ∈ P → s.st.guesses <+: q := by
      intro q hq
      rcases hq with hq | hq
      · rcases List.mem_cons.1 hq with rfl | hq
        · exact List.prefix_refl _
        · rw [← hset6.guesses]; exact hL.below q (.inl hq)
      · rw [← hset6.guesses]; exact hL.below q (.inr hq)
    have hgood : ∀ d ∈ f, DomsOK d ∧ d.length = n ∧ Leaf d ∧ ∀ a, Within d a → Sol a ∧ Within s.doms a ∧ ∀ g ∈ (store s.mem).take k, ¬ Forbids g a := by
      intro d hd
      obtain ⟨x1, x2, x3, x4⟩ := hL.good d hd
      refine ⟨x1, x2, x3, fun a ha => ?_⟩
      obtain ⟨y1, y2, y3⟩ := x4 a ha
      rw [hset6.stored] at y3
      exact ⟨y1, hev.within y2, y3⟩
    have hconf : t'.conflicts ≤ t0.conflicts + s.doms.size := by
      have h1 := hL.conflicts
      have h2 := size_le hev.ok hev.length (fun a ha => hev.within ha)
      rw [h3c] at h1; omega
    have hansw : Answered V res ([true, true, true] ++ as) := by
      refine ⟨fun h b hb => ?_, fun h => ?_⟩
      · rcases List.mem_append.1 hb with hb | hb
        · simpa using hb
        · exact hL.answered.1 h b hb
      · obtain ⟨y1, zs, y2, y3⟩ := hL.answered.2 h
        refine ⟨y1, [true, true, true] ++ zs, by rw [y2]; simp, fun b hb => ?_⟩
        rcases List.mem_append.1 hb with hb | hb
        · simpa using hb
        · exact y3 b hb
    have hlep : guess ≠ none → Le s.mem s'.mem := fun hg => hC.le_trans _ _ _ (hset6.le hg) hL.le
    have hclkp : s.clock ≤ s'.clock := Nat.le_trans hset6.clock hL.same.clock
    by_cases hcu : res = .cutoff
    · subst hcu
      have hlf := learnFrom_spec hC hpf.valid (fun c hc => ⟨hB.valid c (hL.refs c hc).1, hBd c (hL.refs c hc).1⟩) s'.mem (ref := ref)
      have hsm : Same V.engine.progs.length p { s' with mem := learnFrom V pfx ref s'.mem } := hL.same.mem _
      refine ⟨.cutoff, has, { s' with mem := learnFrom V pfx ref s'.mem }, t', f, P, s.st.guesses :: vs, [true, true, true] ++ as,
        L ++ (if V.learn.isSome then ref.map (fun g => pfx ++ [g]) else []), rfl, ?_⟩
      have hin : ∀ g ∈ L ++ (if V.learn.isSome then ref.map (fun g => pfx ++ [g]) else []), g ∈ L ∨ ∃ b ∈ ref, g = pfx ++ [b] := by
        intro g hg
        rcases List.mem_append.1 hg with hg | hg
        · exact .inl hg
        · right
          split at hg
          · obtain ⟨b, hb, rfl⟩ := List.mem_map.1 hg; exact ⟨b, hb, rfl⟩
          · simp at hg
      exact {
        tally := htally, failures := ⟨vs, rfl, by rw [hL.failures, h3f]⟩, below := hbelow, good := hgood, apart := hL.apart, complete := nofun
        le := fun hg => hC.le_trans _ _ _ (hlep hg) hlf.1
        stored := by show store (learnFrom V pfx ref s'.mem) = _; rw [hlf.2, hL.stored, hset6.stored, List.append_assoc]
        learned := by
          intro h
          rcases h with h | h
          · exact absurd rfl h
          · rw [hL.learned (.inr h), h]; rfl
        prefixes := by
          intro g hg a ha
          rcases hin g hg with h | ⟨b, _, rfl⟩
          · exact hL.prefixes g h a ha
          · exact fun c hc => ha c (by simp [hc])
        lost := by
          intro g hg a hw ha hfb
          rcases hrep a hw ha with h | h
          · rcases hin g hg with hg | ⟨b, hb, rfl⟩
            · exact hL.lost g hg a (hwant a hw) h hfb
            · exact (hL.refs b hb).2 a (hwant a hw) h (hfb b (by simp))
          · exact h
        excluded := by
          intro _ hl d hd a ha
          rcases hL.excluded rfl hl d hd a ha with ⟨g, hg, hh⟩ | ⟨b, hb, hh⟩
          · exact ⟨g, by simp [hg], hh⟩
          · refine ⟨pfx ++ [b], by simp [hl, hb], fun c hc => ?_, fun c hc => ?_⟩
            · rcases List.mem_append.1 hc with hc | hc
              · exact (hpf.valid c hc).2
              · simp at hc; rw [hc]; exact hBd b (hL.refs b hb).1
            rcases List.mem_append.1 hc with hc | hc
            · exact hpf.holds a ((hgood d hd).2.2.2 a ha).2.1 c hc
            · simp at hc; rw [hc]; exact hh
        clock := hclkp, answered := hansw, conflicts := hconf, spent := hL.spent
        child := fun hg => by obtain ⟨s1', h1, h2⟩ := hset6.child hg; exact ⟨s1', h1, h2.trans hsm⟩
        settles := hset6.settles' hsm
        root := fun _ _ => .inr ⟨hset6.node.same hsm, hC.back k p _ hset6.node hset6.inv hsm (hC.le_trans _ _ _ hL.le hlf.1), by
          rw [show ({ s' with mem := learnFrom V pfx ref s'.mem } : Sys σ μ).st = p.st from hsm.st]; exact hset6.guesses, ⟨cs, by rw [hsm.doms]; exact hev⟩, by rw [hsm.doms]; exact hrep⟩ }
    · have hnl := hL.learned (.inl hcu)
      refine ⟨res, has, s', t', f, P, s.st.guesses :: vs, [true, true, true] ++ as, L, ?_, ?_⟩
      · show (if res = .cutoff then _ else _) = _
        rw [if_neg hcu]; rfl
      exact {
        tally := htally, failures := ⟨vs, rfl, by rw [hL.failures, h3f]⟩, below := hbelow, good := hgood, apart := hL.apart
        complete := fun h a hw ha => (hrep a hw ha).elim (fun h' => hL.complete h a (hwant a hw) h') id
        le := hlep, stored := by rw [hL.stored, hset6.stored]
        learned := hL.learned, prefixes := by rw [hnl]; simp
        lost := by rw [hnl]; simp
        excluded := fun h => absurd h hcu
        clock := hclkp, answered := hansw, conflicts := hconf, spent := hL.spent
        child := fun hg => by obtain ⟨s1', h1, h2⟩ := hset6.child hg; exact ⟨s1', h1, h2.trans hL.same⟩
        settles := hset6.settles' hL.same
        root := fun _ h => absurd h hcu }

end
end Gcs
