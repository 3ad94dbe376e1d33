import Verif.Lemmas.Posts
import Verif.Props.Nogoods

namespace Gcs
open IntervalSet Queue

section
variable {σ μ : Type} {n m : Nat} {R : Err → Prop}

/-- An installed item, what it enforces, and the constraint it was installed for. -/
abbrev Tag (σ μ : Type) := Item σ μ × (Asg → Prop) × Posted σ μ

/-- `Item.OK`, but a propagation function may write constraint states. -/
def Item.Good (n m : Nat) (R : Err → Prop) (root : Doms) (C : Asg → Prop) (xs : List VarId) (e : Asg → Prop) : Item σ μ → Prop
  | .init _ f => ∀ d, DomsOK d → d.length = n →
    f.Ver { n, m, R, C := fun a => Within root a ∧ C a, watch := False } (fun _ => False) (fun _ d' => ∀ a, Within d' a → Within root a → e a) d
  | .prop f t => ∃ own ys, (∀ y ∈ ys, y ∈ xs) ∧ Implements n m R root f t C e ys own

theorem Item.OK.good {root : Doms} {C : Asg → Prop} {xs : List VarId} {e : Asg → Prop} : ∀ {it : Item σ μ}, it.OK n m R root C xs e → it.Good n m R root C xs e
  | .init _ _, h => h
  | .prop _ _, ⟨ys, h1, h2⟩ => ⟨_, ys, h1, h2⟩

/-- A constraint, with the items it installs and what each enforces. -/
abbrev Parts (σ μ : Type) := Posted σ μ × List (Item σ μ × (Asg → Prop))

structure Parts.Good (n m : Nat) (R : Err → Prop) (root : Doms) (x : Parts σ μ) : Prop where
  installs : x.1.install root = .ok (x.2.map (·.1))
  items : ∀ p ∈ x.2, p.1.Good n m R root x.1.holds x.1.about p.2
  together : ∀ a, Within root a → (x.1.holds a ↔ ∀ p ∈ x.2, p.2 a)

theorem create_installs {root : Doms} : ∀ {is : List (Doms → Chk (List (Item σ μ)))} {k : Nat} {S S' : Setup σ μ}, Setup.create root k is S = .ok S' → ∀ i ∈ is, ∃ items, i root = .ok items
  | [], _, _, _, _, i, h => by cases h
  | j :: is, k, S, S', e, i, h => by
    simp only [Setup.create] at e
    obtain ⟨items, e1, e⟩ := bind_ok e
    rcases List.mem_cons.1 h with rfl | h
    · exact ⟨items, e1⟩
    · exact create_installs e i h

theorem parts_of {root : Doms} : ∀ {cs : List (Posted σ μ)}, (∀ c ∈ cs, c.OK n m R root) → (∀ c ∈ cs, ∃ items, c.install root = .ok items) →
    ∃ css : List (Parts σ μ), css.map (·.1) = cs ∧ ∀ x ∈ css, x.Good n m R root
  | [], _, _ => ⟨[], rfl, by simp⟩
  | c :: cs, h, hi => by
    obtain ⟨css, h1, h2⟩ := parts_of (cs := cs) (fun c hc => h c (by simp [hc])) fun c hc => hi c (by simp [hc])
    obtain ⟨items, e⟩ := hi c (by simp)
    obtain ⟨es, h3, h4, h5⟩ := h c (by simp) items e
    refine ⟨(c, es) :: css, by simp [h1], fun x hx => ?_⟩
    rcases List.mem_cons.1 hx with rfl | hx
    · exact ⟨by rw [h3]; exact e, fun p hp => (h4 p hp).good, h5⟩
    · exact h2 x hx

def Tag.OK (n m : Nat) (R : Err → Prop) (root : Doms) (t : Tag σ μ) : Prop := t.1.Good n m R root t.2.2.holds t.2.2.about t.2.1

/-- All items. -/
def Parts.tags (x : Parts σ μ) : List (Tag σ μ) := x.2.map fun p => (p.1, p.2, x.1)

/-- The propagators among the items. -/
def propsOf (L : List (Tag σ μ)) : List (Prog σ μ PState × Triggers) :=
  L.filterMap fun t => match t.1 with
    | .prop f tr => some (f, tr)
    | .init _ _ => none

/-- The initialisers among the items, and what they enforce. -/
def initsOf (L : List (Tag σ μ)) : List (Priority × Prog σ μ Unit × (Asg → Prop)) :=
  L.filterMap fun t => match t.1 with
    | .prop _ _ => none
    | .init p f => some (p, f, t.2.1)

/-- The setup was made by installing these items in order. -/
structure Made (n m : Nat) (R : Err → Prop) (S : Setup σ μ) (L : List (Tag σ μ)) : Prop where
  built : Built n m R S.engine (propsOf L)
  enabled : ∀ p, p < S.engine.progs.length → S.engine.permDisabled[p]? = some false
  inits : S.inits = (initsOf L).map fun x => (x.1, x.2.1)
  watches : WatchesOK n S.engine.progs.length S.watches
  ids : IdsOK S.watches
  inbox : S.watches.inbox = []

theorem Made.empty : Made n m R (Setup.empty : Setup σ μ) [] where
  built := .empty
  enabled := by intro p hp; simp [Setup.empty, Engine.empty] at hp
  inits := rfl
  watches := by intro v ws x hv; simp [Setup.empty, Watches.empty] at hv
  ids := by simp [IdsOK, Setup.empty, Watches.empty, armed]
  inbox := rfl

theorem register_ids {w : Watches} (h : IdsOK w) (o : Nat) (l : Lit) (p : Nat) (b : Bool) (h1 : l.Valid n) (h2 : l.RangeOK) : IdsOK (w.register o l p b) := by
  have := (WStep.ids (WStep.register (n := n) (np := o + 1) w o l p (Nat.lt_succ_self _) h1 h2) h).1
  have e1 : (w.register o l p b).byVar = (w.register o l p true).byVar := by unfold Watches.register; cases l.underlyingIndex <;> rfl
  have e2 : (w.register o l p b).nextId = (w.register o l p true).nextId := by unfold Watches.register; cases l.underlyingIndex <;> rfl
  unfold IdsOK armed at this ⊢
  rw [e1, e2]; exact this

theorem installWatches_ids {w : Watches} (h : IdsOK w) (o : Nat) (t : Triggers) (ht : ∀ r ∈ t.refined, r.1.Valid n ∧ r.1.RangeOK) :
    IdsOK (Engine.installWatches w o t) ∧ (Engine.installWatches w o t).inbox = w.inbox := by
  unfold Engine.installWatches
  revert ht
  generalize t.refined = l
  intro ht
  induction l generalizing w with
  | nil => exact ⟨h, rfl⟩
  | cons r l ih =>
    obtain ⟨h1, h2⟩ := ih (register_ids h o r.1 r.2 false (ht r (by simp)).1 (ht r (by simp)).2) (fun x hx => ht x (by simp [hx]))
    refine ⟨h1, h2.trans ?_⟩
    unfold Watches.register; cases r.1.underlyingIndex <;> rfl

theorem Made.add {S : Setup σ μ} {L : List (Tag σ μ)} {root : Doms} (h : Made n m R S L) (c : Nat) {t : Tag σ μ} (ht : t.OK n m R root) : Made n m R (S.add c t.1) (L ++ [t]) := by
  obtain ⟨it, e, q⟩ := t
  cases it with
  | init p f =>
    refine ⟨?_, h.enabled, ?_, h.watches, h.ids, h.inbox⟩
    · have : propsOf (L ++ [(Item.init p f, e, q)]) = propsOf L := by simp [propsOf]
      rw [this]; exact h.built
    · have : initsOf (L ++ [(Item.init p f, e, q)]) = initsOf L ++ [(p, f, e)] := by simp [initsOf]
      rw [this]; show S.inits ++ _ = _; rw [h.inits, List.map_append]; rfl
  | prop f tr =>
    obtain ⟨own, ys, _, hi⟩ := ht
    have hlen := (install_fields S.engine c f tr).1
    have hlen' : (S.engine.install c f tr).progs.length = S.engine.progs.length + 1 := by rw [hlen]; simp
    obtain ⟨hids, hbox⟩ := installWatches_ids (n := n) h.ids S.engine.progs.length tr hi.refined
    refine ⟨?_, ?_, ?_, ?_, hids, hbox.trans h.inbox⟩
    · have : propsOf (L ++ [(Item.prop f tr, e, q)]) = propsOf L ++ [(f, tr)] := by simp [propsOf]
      rw [this]
      exact .install c f tr h.built hi.safe hi.refined
    · intro p hp
      have hp : p < S.engine.progs.length + 1 := by rw [← hlen']; exact hp
      show (S.engine.install c f tr).permDisabled[p]? = _
      rw [(install_fields S.engine c f tr).2.1]
      have hl := h.built.wf.permLen
      by_cases hlt : p < S.engine.progs.length
      · rw [List.getElem?_append_left (by omega)]; exact h.enabled p hlt
      · rw [List.getElem?_append_right (by omega), show p - S.engine.permDisabled.length = 0 by omega]; rfl
    · have : initsOf (L ++ [(Item.prop f tr, e, q)]) = initsOf L := by simp [initsOf]
      rw [this]; exact h.inits
    · show WatchesOK n (S.engine.install c f tr).progs.length _
      rw [hlen']
      exact installWatches_ok (h.watches.mono (by omega)) (by omega) tr hi.refined

theorem Made.foldl {root : Doms} (c : Nat) : ∀ (ts : List (Tag σ μ)) {S : Setup σ μ} {L : List (Tag σ μ)}, Made n m R S L → (∀ t ∈ ts, t.OK n m R root) → Made n m R ((ts.map (·.1)).foldl (Setup.add c) S) (L ++ ts)
  | [], _, _, h, _ => by simpa using h
  | t :: ts, S, L, h, ht => by
    have := Made.foldl c ts (h.add c (ht t (by simp))) (fun x hx => ht x (by simp [hx]))
    simpa using this

/-- Installing a list of constraints. -/
theorem create_spec {root : Doms} : ∀ (css : List (Parts σ μ)) (k : Nat) {S S' : Setup σ μ} {L : List (Tag σ μ)}, Made n m R S L → (∀ x ∈ css, x.Good n m R root) →
    Setup.create root k (css.map (·.1.install)) S = .ok S' → Made n m R S' (L ++ css.flatMap Parts.tags)
  | [], _, S, S', L, h, _, e => by cases e; simpa using h
  | x :: css, k, S, S', L, h, hc, e => by
    have hx := hc x (by simp)
    simp only [List.map_cons, Setup.create, hx.installs] at e
    have hts : x.tags.map (·.1) = x.2.map (·.1) := by simp [Parts.tags]
    have ht : ∀ t ∈ x.tags, t.OK n m R root := by
      intro t hm
      obtain ⟨p, hp, rfl⟩ := List.mem_map.1 hm
      exact hx.items p hp
    rw [← hts] at e
    rw [List.flatMap_cons, ← List.append_assoc]
    exact create_spec css (k + 1) (h.foldl (k + 1) x.tags ht) (fun x hx => hc x (by simp [hx])) e

theorem mem_tags {css : List (Parts σ μ)} {t : Tag σ μ} : t ∈ css.flatMap Parts.tags ↔ ∃ x ∈ css, ∃ p ∈ x.2, t = (p.1, p.2, x.1) := by
  simp only [List.mem_flatMap, Parts.tags, List.mem_map]
  constructor
  · rintro ⟨x, hx, p, hp, rfl⟩; exact ⟨x, hx, p, hp, rfl⟩
  · rintro ⟨x, hx, p, hp, rfl⟩; exact ⟨x, hx, p, hp, rfl⟩

/-- The propagators among right items, with what they enforce. -/
theorem postings_of {root : Doms} : ∀ (L : List (Tag σ μ)), (∀ t ∈ L, t.OK n m R root) →
    ∃ ps : List (Posting σ μ), propsOf L = ps.map (fun p => (p.prog, p.triggers)) ∧
      (∀ p ∈ ps, ∃ t ∈ L, ∃ own ys, (∀ y ∈ ys, y ∈ t.2.2.about) ∧ p.about = ys.filterMap VarId.underlyingIndex ∧ Implements n m R root p.prog p.triggers t.2.2.holds p.holds ys own) ∧
      ∀ a, (∀ t ∈ L, t.2.1 a) ↔ (∀ p ∈ ps, p.holds a) ∧ ∀ x ∈ initsOf L, x.2.2 a
  | [], _ => ⟨[], rfl, by simp, by simp [initsOf]⟩
  | (it, e, q) :: L, h => by
    obtain ⟨ps, h1, h2, h3⟩ := postings_of L fun t ht => h t (by simp [ht])
    cases it with
    | init p f =>
      refine ⟨ps, by simpa [propsOf] using h1, fun p hp => ?_, fun a => ?_⟩
      · obtain ⟨t, ht, k⟩ := h2 p hp
        exact ⟨t, by simp [ht], k⟩
      · have : initsOf ((Item.init p f, e, q) :: L) = (p, f, e) :: initsOf L := by simp [initsOf]
        rw [this]
        simp only [List.forall_mem_cons]
        rw [h3 a]
        exact ⟨fun h => ⟨h.2.1, h.1, h.2.2⟩, fun h => ⟨h.2.1, h.1, h.2.2⟩⟩
    | prop f tr =>
      obtain ⟨own, ys, hy, him⟩ := h (Item.prop f tr, e, q) (by simp)
      refine ⟨⟨f, tr, e, ys.filterMap VarId.underlyingIndex⟩ :: ps, ?_, fun p hp => ?_, fun a => ?_⟩
      · have : propsOf ((Item.prop f tr, e, q) :: L) = (f, tr) :: propsOf L := by simp [propsOf]
        rw [this, h1]; rfl
      · rcases List.mem_cons.1 hp with rfl | hp
        · exact ⟨_, by simp, own, ys, hy, rfl, him⟩
        · obtain ⟨t, ht, k⟩ := h2 p hp
          exact ⟨t, by simp [ht], k⟩
      · have : initsOf ((Item.prop f tr, e, q) :: L) = initsOf L := by simp [initsOf]
        rw [this]
        simp only [List.forall_mem_cons]
        rw [h3 a]
        exact and_assoc.symm

/-- The initialisers in the order they are run, with what they enforce. -/
def sorted (I : List (Priority × Prog σ μ Unit × (Asg → Prop))) : List (Prog σ μ Unit × (Asg → Prop)) :=
  ((I.filter (·.1 = .simpleDefinition)) ++ (I.filter (·.1 = .cheap)) ++ (I.filter (·.1 = .expensive))).map (·.2)

theorem mem_sorted {I : List (Priority × Prog σ μ Unit × (Asg → Prop))} {x : Prog σ μ Unit × (Asg → Prop)} : x ∈ sorted I ↔ ∃ p, (p, x) ∈ I := by
  simp only [sorted, List.mem_map, List.mem_append, List.mem_filter, decide_eq_true_eq]
  constructor
  · rintro ⟨⟨p, y⟩, (⟨h, _⟩ | ⟨h, _⟩) | ⟨h, _⟩, rfl⟩ <;> exact ⟨p, h⟩
  · rintro ⟨p, h⟩
    refine ⟨(p, x), ?_, rfl⟩
    cases p
    · exact .inl (.inl ⟨h, rfl⟩)
    · exact .inl (.inr ⟨h, rfl⟩)
    · exact .inr ⟨h, rfl⟩

theorem order_eq {S : Setup σ μ} {I : List (Priority × Prog σ μ Unit × (Asg → Prop))} (h : S.inits = I.map fun x => (x.1, x.2.1)) : S.order = (sorted I).map (·.1) := by
  unfold Setup.order sorted
  rw [h]
  simp only [List.filter_map, List.map_append, List.map_map]
  rfl

theorem initsOf_ok {root : Doms} {L : List (Tag σ μ)} (h : ∀ t ∈ L, t.OK n m R root) {p : Priority} {f : Prog σ μ Unit} {e : Asg → Prop} (hm : (p, f, e) ∈ initsOf L) :
    ∃ t ∈ L, (Item.init p f).Good n m R root t.2.2.holds t.2.2.about e := by
  obtain ⟨⟨it, e', q⟩, ht, k⟩ := List.mem_filterMap.1 hm
  cases it with
  | prop f tr => cases k
  | init p' f' => cases k; exact ⟨_, ht, h _ ht⟩

/-- After installing constraints and running their initialisers, everything is in place for the search. -/
structure Prepared (n m : Nat) (R : Err → Prop) (cs : List (Posted σ μ)) (root : Doms) (S : Setup σ μ) (s : Sys σ μ) (ps : List (Posting σ μ)) : Prop where
  built : Built n m R S.engine (ps.map fun p => (p.prog, p.triggers))
  enabled : ∀ p, p < ps.length → S.engine.permDisabled[p]? = some false
  sound : ∀ p ∈ ps, ∀ a, Within s.doms a → (∀ q ∈ ps, q.holds a) → p.prog.Truthful n a
  checks : ∀ p ∈ ps, Checks n p.prog p.triggers (fun a => Within s.doms a → p.holds a) p.about
  spares : ∀ p ∈ ps, ∀ cell : Cell μ NogoodMem, Spares n m cell p.prog
  about : ∀ p ∈ ps, ∀ v ∈ p.about, ∃ c ∈ cs, ∃ x ∈ c.about, x.underlyingIndex = some v
  ready : RootOK n m S.engine s
  guesses : s.st.guesses = []
  same : ∀ a, (∀ c ∈ cs, c.holds a) ∧ Within root a ↔ (∀ p ∈ ps, p.holds a) ∧ Within s.doms a
  smaller : s.doms.card ≤ root.card
  inside : ∀ a, Within s.doms a → Within root a
  watches : s.w = S.watches

theorem prepare_parts {css : List (Parts σ μ)} {root : Doms} {S : Setup σ μ} {sts : List σ} {x : μ} (hd : DomsOK root) (hl : root.length = n) (hm : sts.length = m) (hcs : ∀ x ∈ css, x.Good n m R root)
    (hc : Setup.create root 0 (css.map (·.1.install)) Setup.empty = .ok S) {b : Bool} {s : Sys σ μ} (hi : Sys.initialise S.order (Sys.start root sts x S.watches) = .ok (b, s)) :
    if b then (∃ ps, Prepared n m R (css.map (·.1)) root S s ps) ∧ s.mem = x ∧ s.top = sts ∧ ∀ y ∈ css, ∀ p ∈ y.2, (∃ q f, p.1 = .init q f) → ∀ a, Within s.doms a → p.2 a
    else ∀ a, Within root a → ¬ ∀ c ∈ css.map (·.1), c.holds a := by
  have hmade := create_spec css 0 Made.empty hcs hc
  rw [List.nil_append] at hmade
  generalize hL : css.flatMap Parts.tags = L at hmade
  generalize hcs' : css.map (·.1) = cs
  have hok : ∀ t ∈ L, t.OK n m R root ∧ t.2.2 ∈ cs := by
    intro t ht
    rw [← hL] at ht
    obtain ⟨y, hy, p, hp, rfl⟩ := mem_tags.1 ht
    exact ⟨(hcs y hy).items p hp, hcs' ▸ List.mem_map.2 ⟨y, hy, rfl⟩⟩
  have hall : ∀ a, Within root a → ((∀ c ∈ cs, c.holds a) ↔ ∀ t ∈ L, t.2.1 a) := by
    intro a ha
    rw [← hL, ← hcs']
    constructor
    · intro h t ht
      obtain ⟨y, hy, p, hp, rfl⟩ := mem_tags.1 ht
      exact ((hcs y hy).together a ha).1 (h _ (List.mem_map.2 ⟨y, hy, rfl⟩)) p hp
    · intro h c hc
      obtain ⟨y, hy, rfl⟩ := List.mem_map.1 hc
      exact ((hcs y hy).together a ha).2 fun p hp => h _ (mem_tags.2 ⟨y, hy, p, hp, rfl⟩)
  obtain ⟨ps, hps, himp, hsplit⟩ := postings_of L fun t ht => (hok t ht).1
  rw [order_eq hmade.inits] at hi
  have hinit : ∀ p ∈ (sorted (initsOf L)).map (fun q => (q.1, fun a => Within root a → q.2 a)), ∀ d, DomsOK d → d.length = n →
      p.1.Ver { n, m, R, C := fun a => Within root a ∧ ∀ c ∈ cs, c.holds a, watch := False } (fun _ => False) (fun _ d' => ∀ a, Within d' a → p.2 a) d := by
    intro p hp d h1 h2
    obtain ⟨q, hq, rfl⟩ := List.mem_map.1 hp
    obtain ⟨pr, hq⟩ := mem_sorted.1 hq
    obtain ⟨t, ht, hver⟩ := initsOf_ok (fun t ht => (hok t ht).1) hq
    exact ver_weaken (J := { n, m, R, C := fun a => Within root a ∧ t.2.2.holds a, watch := False }) q.1 d (fun a _ ha => ⟨ha.1, ha.2 _ (hok t ht).2⟩) (hver d h1 h2)
  have hmap : (sorted (initsOf L)).map (·.1) = ((sorted (initsOf L)).map (fun q => (q.1, fun a => Within root a → q.2 a))).map (·.1) := by simp [Function.comp_def]
  rw [hmap] at hi
  have key := initialise_spec _ (Sys.start root sts x S.watches) hd hl (by simp [Sys.start]) hm hinit b s hi
  cases b with
  | false => exact fun a ha hh => key a ha ⟨ha, hh⟩
  | true =>
    obtain ⟨o, k1, k2⟩ := key
    have hin : ∀ a, Within s.doms a → Within root a := o.within
    have he : ∀ a, Within s.doms a → ∀ y ∈ initsOf L, y.2.2 a := fun a ha y hy =>
      k2 (y.2.1, fun a => Within root a → y.2.2 a) (List.mem_map.2 ⟨y.2, mem_sorted.2 ⟨y.1, hy⟩, rfl⟩) a ha (hin a ha)
    have hsame : ∀ a, (∀ c ∈ cs, c.holds a) ∧ Within root a ↔ (∀ p ∈ ps, p.holds a) ∧ Within s.doms a := by
      intro a
      constructor
      · rintro ⟨h1, h2⟩
        exact ⟨((hsplit a).1 ((hall a h2).1 h1)).1, k1 a h2 ⟨h2, h1⟩⟩
      · rintro ⟨h1, h2⟩
        exact ⟨(hall a (hin a h2)).2 ((hsplit a).2 ⟨h1, he a h2⟩), hin a h2⟩
    have hlen : S.engine.progs.length = ps.length := by rw [hmade.built.progs, hps]; simp
    refine ⟨⟨ps, ⟨hps ▸ hmade.built, fun p hp => hmade.enabled p (by omega), ?_, ?_, ?_, ?_, ?_, o.guesses, hsame, ?_, hin, o.w⟩⟩, o.mem, o.top, fun y hy p hp ⟨q, f, hpf⟩ a ha => he a ha (q, f, p.2) ?_⟩
    · intro p hp a ha hall'
      obtain ⟨t, ht, _, ys, _, _, him⟩ := himp p hp
      have := (hsame a).2 ⟨hall', ha⟩
      exact him.truthful (hin a ha) (this.1 _ (hok t ht).2)
    · intro p hp
      obtain ⟨t, ht, _, ys, _, ha, him⟩ := himp p hp
      rw [ha]
      exact him.checks.mono fun a h hw => h (hin a hw)
    · intro p hp cell
      obtain ⟨t, ht, _, ys, _, ha, him⟩ := himp p hp
      exact him.spares cell
    · intro p hp v hv
      obtain ⟨t, ht, _, ys, hys, ha, him⟩ := himp p hp
      rw [ha] at hv
      obtain ⟨y, hy, e⟩ := List.mem_filterMap.1 hv
      exact ⟨_, (hok t ht).2, y, hys y hy, e⟩
    · have hvt : s.st.vars.tail = [] := o.tail
      have hct : s.st.cstates.tail = [] := o.cstatesTail
      have hvn : s.st.vars ≠ [] := o.varsNe (by simp [Sys.start])
      have hcn : s.st.cstates ≠ [] := o.cstatesNe (by simp [Sys.start])
      have hob : s.st.onBacktracks = [[]] := o.onBacktracks
      have hw : s.w = S.watches := o.w
      refine ⟨⟨o.domsOK, o.domsLen.trans hl, hvn, o.cstatesLen.trans hm, by rw [hob]; simp, by rw [hw]; exact hmade.watches, ?_, fun h => absurd rfl h⟩, by rw [hw]; exact hmade.ids, ?_⟩
      · intro p; rw [hw]; unfold box; rw [hmade.inbox]; rfl
      · constructor
        · cases hv : s.st.vars with
          | nil => exact absurd hv hvn
          | cons d r =>
            rw [hv] at hvt
            cases hcs : s.st.cstates with
            | nil => exact absurd hcs hcn
            | cons d' r' => rw [hcs] at hct; simp at hvt hct; simp [hvt, hct]
        · cases hv : s.st.vars with
          | nil => exact absurd hv hvn
          | cons d r => rw [hv] at hvt; simp at hvt; simp [hvt, hob]
    · obtain ⟨ds, hev⟩ := o.evolve
      have h1 := hev.card
      have h2 : (Sys.start root sts x S.watches).doms = root := rfl
      rw [h2] at h1; omega
    · refine List.mem_filterMap.2 ⟨(p.1, p.2, y.1), hL ▸ mem_tags.2 ⟨y, hy, p, hp, rfl⟩, ?_⟩
      rw [hpf]

theorem prepare_spec {cs : List (Posted σ μ)} {root : Doms} {S : Setup σ μ} {sts : List σ} {x : μ} (hd : DomsOK root) (hl : root.length = n) (hm : sts.length = m) (hcs : ∀ c ∈ cs, c.OK n m R root)
    (hc : Setup.create root 0 (cs.map (·.install)) Setup.empty = .ok S) {b : Bool} {s : Sys σ μ} (hi : Sys.initialise S.order (Sys.start root sts x S.watches) = .ok (b, s)) :
    if b then ∃ ps, Prepared n m R cs root S s ps ∧ s.mem = x else ∀ a, Within root a → ¬ ∀ c ∈ cs, c.holds a := by
  obtain ⟨css, rfl, hg⟩ := parts_of hcs fun c hc' => create_installs hc c.install (List.mem_map.2 ⟨c, hc', rfl⟩)
  have key := prepare_parts hd hl hm hg (by rw [List.map_map] at hc; exact hc) hi
  cases b with
  | false => exact key
  | true =>
    obtain ⟨⟨ps, h1⟩, h2, _⟩ := key
    exact ⟨ps, h1, h2⟩

end
end Gcs
