import Verif.Lemmas.Twin
import Verif.Lemmas.Problem

/-! Problems whose constraints keep state: cut the propagation functions off outside the invariants of the constraints, and compare. -/

namespace Gcs
open IntervalSet Queue Nogoods

section
variable {σ μ α β : Type} {n m : Nat} {R : Err → Prop}

/-! ## Functions that write no constraint state -/

def Prog.Stateless : Prog σ μ α → Prop
  | .ret _ => True
  | .raise _ => True
  | .fail => True
  | .read k => ∀ s, (k s).Stateless
  | .infer _ _ k => ∀ b, (k b).Stateless
  | .progress k => ∀ b, (k b).Stateless
  | .watch _ _ k => k.Stateless
  | .clearWatches k => k.Stateless
  | .setWatchState _ _ k => k.Stateless
  | .setState _ _ _ => False
  | .setMem _ k => k.Stateless

theorem Prog.Stateless.bind {f : α → Prog σ μ β} (hf : ∀ v, (f v).Stateless) : ∀ (p : Prog σ μ α), p.Stateless → (p.bind f).Stateless
  | .ret v, _ => hf v
  | .raise _, _ => trivial
  | .fail, _ => trivial
  | .read k, h => fun s => bind hf (k s) (h s)
  | .infer _ _ k, h => fun b => bind hf (k b) (h b)
  | .progress k, h => fun b => bind hf (k b) (h b)
  | .watch _ _ k, h => bind hf k h
  | .clearWatches k, h => bind hf k h
  | .setWatchState _ _ k, h => bind hf k h
  | .setState _ _ _, h => h.elim
  | .setMem _ k, h => bind hf k h

theorem run_stateless (ctx : Ctx) {r : Res α} {s' : Sys σ μ} : ∀ (p : Prog σ μ α) (s : Sys σ μ), p.Stateless → runProg ctx p s = .ok (r, s') → s'.top = s.top
  | .ret _, _, _, e => by cases e; rfl
  | .raise _, _, _, e => by cases e
  | .fail, _, _, e => by cases e; rfl
  | .read k, s, h, e => run_stateless ctx (k s) s (h s) e
  | .infer l o k, s, h, e => by
    simp only [runProg] at e
    split at e
    · exact run_stateless ctx (k false) s (h _) e
    · cases ei : s.st.infer l with
      | error x => rw [ei] at e; cases e
      | ok x =>
        rw [ei] at e
        dsimp only at e
        have ht : (s.track x.1 l x.2).1.top = s.top := by
          unfold Sys.top; rw [track_cstates, infer_cstates (ei.trans rfl)]
        split at e
        · exact (run_stateless ctx (k true) _ (h _) e).trans ht
        · split at e
          · exact (run_stateless ctx (k false) _ (h _) e).trans ht
          · cases e; exact ht
  | .progress k, s, h, e => run_stateless ctx (k s.tr.madeProgress) { s with tr := { s.tr with madeProgress := false } } (h _) e
  | .watch l x k, s, h, e => run_stateless ctx k { s with w := s.w.register ctx.owner l x true } h e
  | .clearWatches k, s, h, e => by
    simp only [runProg] at e
    cases ew : s.w.clear ctx.owner ctx.scope with
    | error x => rw [ew] at e; cases e
    | ok w => rw [ew] at e; exact run_stateless ctx k { s with w := w } h e
  | .setWatchState x y k, s, h, e => run_stateless ctx k { s with w := s.w.stateSet ctx.owner x y } h e
  | .setState _ _ _, _, h, _ => h.elim
  | .setMem x k, s, h, e => run_stateless ctx k { s with mem := x } h e

theorem ask_stateless {f : Doms → Chk α} : (Prog.ask f : Prog σ μ α).Stateless := by
  intro s
  dsimp only
  cases f s.doms <;> trivial

theorem inferNot_stateless (g : List Cond) (p : Nat) {k : Prog σ μ PState} (hk : k.Stateless) : (inferNot g p k).Stateless := by
  unfold inferNot
  split
  · intro b; exact hk
  · trivial

theorem scan_stateless (cell : Cell μ NogoodMem) : (scan cell : Prog σ μ PState).Stateless := by
  have hset : ∀ ni p q (k : Prog σ μ PState), k.Stateless → (setPair cell ni p q k).Stateless := fun _ _ _ _ hk _ => hk
  have hadd : ∀ p q (k : Prog σ μ PState), k.Stateless → (addPair cell p q k).Stateless := fun _ _ _ hk _ => hk
  have hone : ∀ g ni p q (k : Prog σ μ PState), k.Stateless → (scanOne cell g ni p q k).Stateless := by
    intro g ni p q k hk
    refine Prog.Stateless.bind (fun b1 => Prog.Stateless.bind (fun b2 => ?_) _ ask_stateless) _ ask_stateless
    split
    · split
      · refine Prog.Stateless.bind (fun o => ?_) _ ask_stateless
        split
        · trivial
        · refine Prog.Stateless.bind (fun o => ?_) _ ask_stateless
          split
          · exact inferNot_stateless _ _ hk
          · exact hset _ _ _ _ hk
      · refine Prog.Stateless.bind (fun o => ?_) _ ask_stateless
        split
        · exact inferNot_stateless _ _ hk
        · exact hset _ _ _ _ hk
    · split
      · refine Prog.Stateless.bind (fun o => ?_) _ ask_stateless
        split
        · exact inferNot_stateless _ _ hk
        · exact hset _ _ _ _ hk
      · exact hk
  have hall : ∀ gs ni, (scanAll cell ni gs : Prog σ μ PState).Stateless := by
    intro gs
    induction gs with
    | nil => intro _; trivial
    | cons g gs ih =>
      intro ni s
      dsimp only
      split
      · trivial
      · exact hone _ _ _ _ _ (ih _)
  have hpair : ∀ g (k : Prog σ μ PState), k.Stateless → (initPair cell g k).Stateless := by
    intro g k hk
    refine Prog.Stateless.bind (fun o => ?_) _ ask_stateless
    split
    · trivial
    · refine Prog.Stateless.bind (fun o => ?_) _ ask_stateless
      split
      · exact inferNot_stateless _ _ (hadd _ _ _ hk)
      · exact hadd _ _ _ hk
  have hinit : ∀ gs (k : Prog σ μ PState), k.Stateless → (initPairs cell k gs).Stateless := by
    intro gs
    induction gs with
    | nil => intro k hk; exact hk
    | cons g gs ih => intro k hk; exact hpair _ _ (ih k hk)
  intro s
  dsimp only
  split
  · exact hinit _ _ (hall _ _)
  · trivial

/-! ## Installing guarded functions -/

noncomputable def Item.guard (K : Doms → List σ → Prop) : Item σ μ → Item σ μ
  | .init p f => .init p f
  | .prop f t => .prop (f.guard K) t

noncomputable def Posted.guard (K : Doms → List σ → Prop) (c : Posted σ μ) : Posted σ μ :=
  { c with install := fun d => (c.install d).map (·.map (Item.guard K)) }

theorem addTrigger_progs (E : Engine σ μ) (ps : List (Prog σ μ PState)) (p : Nat) (mk : Mask) (v : VarId) : ({ E with progs := ps } : Engine σ μ).addTrigger p mk v = { E.addTrigger p mk v with progs := ps } := by
  unfold Engine.addTrigger
  cases v.underlyingIndex <;> rfl

theorem foldl_progs (ps : List (Prog σ μ PState)) (p : Nat) (mk : Mask) : ∀ (xs : List VarId) (E : Engine σ μ),
    xs.foldl (fun E v => E.addTrigger p mk v) ({ E with progs := ps } : Engine σ μ) = { xs.foldl (fun E v => E.addTrigger p mk v) E with progs := ps }
  | [], _ => rfl
  | x :: xs, E => by rw [List.foldl_cons, addTrigger_progs, foldl_progs ps p mk xs, List.foldl_cons]

theorem install_progs (E : Engine σ μ) (ps : List (Prog σ μ PState)) (hl : ps.length = E.progs.length) (c : Nat) (f g : Prog σ μ PState) (t : Triggers) :
    ({ E with progs := ps } : Engine σ μ).install c f t = { E.install c g t with progs := ps ++ [f] } := by
  unfold Engine.install
  simp only [Engine.triggerOnChange, Engine.triggerOnBounds, Engine.triggerOnInstantiated, hl]
  rw [← foldl_progs, ← foldl_progs, ← foldl_progs]

/-- The same setup with guarded functions. -/
noncomputable def Setup.guard (K : Doms → List σ → Prop) (S : Setup σ μ) : Setup σ μ := { S with engine := { S.engine with progs := S.engine.progs.map (·.guard K) } }

theorem add_guard (K : Doms → List σ → Prop) (c : Nat) (S : Setup σ μ) (it : Item σ μ) : (S.guard K).add c (it.guard K) = (S.add c it).guard K := by
  cases it with
  | init p f => rfl
  | prop f t =>
    simp only [Setup.add, Setup.guard, Item.guard, List.length_map]
    rw [install_progs S.engine _ (by simp) c (f.guard K) f t, (install_fields S.engine c f t).1]
    simp

theorem adds_guard (K : Doms → List σ → Prop) (c : Nat) : ∀ (is : List (Item σ μ)) (S : Setup σ μ), (is.map (Item.guard K)).foldl (Setup.add c) (S.guard K) = (is.foldl (Setup.add c) S).guard K
  | [], _ => rfl
  | it :: is, S => by rw [List.map_cons, List.foldl_cons, add_guard, adds_guard K c is, List.foldl_cons]

theorem create_guard (K : Doms → List σ → Prop) {root : Doms} : ∀ (cs : List (Posted σ μ)) (k : Nat) {S S' : Setup σ μ}, Setup.create root k (cs.map (·.install)) S = .ok S' →
    Setup.create root k ((cs.map (Posted.guard K)).map (·.install)) (S.guard K) = .ok (S'.guard K)
  | [], _, S, S', e => by cases e; rfl
  | c :: cs, k, S, S', e => by
    simp only [List.map_cons, Setup.create] at e ⊢
    obtain ⟨items, e1, e⟩ := bind_ok e
    have : (c.guard K).install root = .ok (items.map (Item.guard K)) := by
      show (c.install root).map _ = _
      rw [e1]; rfl
    rw [this]
    show Setup.create root (k + 1) _ (List.foldl _ _ _) = _
    rw [adds_guard]
    exact create_guard K cs (k + 1) e

theorem guard_twin (K : Doms → List σ → Prop) (S : Setup σ μ) : Twin S.engine (S.guard K).engine := ⟨rfl, by simp [Setup.guard]⟩

/-! ## The invariants of all constraints -/

/-- A constraint with its invariant, the items it installs and what each enforces. -/
abbrev Family (σ μ : Type) := Posted σ μ × (Doms → List σ → Prop) × List (Item σ μ × (Asg → Prop))

/-- Each constraint is served. -/
structure Family.OK (n m : Nat) (R : Err → Prop) (root : Doms) (z0 : List σ) (own : Nat → Prop) (x : Family σ μ) : Prop where
  installs : x.1.install root = .ok (x.2.2.map (·.1))
  served : Served n m R root z0 x.2.1 own x.1.holds x.1.about x.2.2

/-- All invariants hold. -/
def Together (m : Nat) (fam : List (Family σ μ)) (d : Doms) (z : List σ) : Prop := z.length = m ∧ ∀ x ∈ fam, x.2.1 d z

theorem family_of {root : Doms} {z0 : List σ} {own : Nat → Nat → Prop} : ∀ {cs : List (Posted σ μ)} (j : Nat), (∀ (i : Nat) (c : Posted σ μ), cs[i]? = some c → c.Serves n m R root z0 (own (j + i))) →
    (∀ c ∈ cs, ∃ items, c.install root = .ok items) → ∃ fam : List (Family σ μ), fam.map (·.1) = cs ∧ ∀ (i : Nat) x, fam[i]? = some x → x.OK n m R root z0 (own (j + i))
  | [], _, _, _ => ⟨[], rfl, by simp⟩
  | c :: cs, j, h, hi => by
    obtain ⟨fam, h1, h2⟩ := family_of (own := own) (cs := cs) (j + 1) (fun i c hc => by have := h (i + 1) c (by simpa using hc); rwa [show j + (i + 1) = j + 1 + i by omega] at this) fun c hc => hi c (by simp [hc])
    obtain ⟨items, e⟩ := hi c (by simp)
    obtain ⟨I, es, h3, h4⟩ := h 0 c rfl items e
    refine ⟨(c, I, es) :: fam, by simp [h1], fun i x hx => ?_⟩
    cases i with
    | zero => cases hx; exact ⟨by rw [h3]; exact e, h4⟩
    | succ i => have := h2 i x (by simpa using hx); rwa [show j + 1 + i = j + (i + 1) by omega] at this

noncomputable def Family.guard (K : Doms → List σ → Prop) (x : Family σ μ) : Parts σ μ := (x.1.guard K, x.2.2.map fun p => (p.1.guard K, p.2))

variable {root : Doms} {z0 : List σ} {own : Nat → Nat → Prop} {fam : List (Family σ μ)}

theorem Serves.guarded (ho : R .overflow) {K I : Doms → List σ → Prop} (hK : ∀ d z, K d z → z.length = m ∧ I d z) {own : Nat → Prop} {f : Prog σ μ PState} {t : Triggers} {C c : Asg → Prop} {xs : List VarId}
    (h : Serves n m R root I own f t C c xs) : Implements n m R root (f.guard K) t C c xs own where
  wakes := h.wakes
  refined := h.refined
  ver := by
    intro d hd hl s hs
    subst hs
    dsimp only
    split
    · rename_i hk
      obtain ⟨h1, h2⟩ := hK _ _ hk
      exact ver_mono (fun _ _ ⟨_, hq⟩ => hq.1) _ _ (VerS.pin (J := { n, m, R, C := fun a => Within root a ∧ C a, own }) ho f s.doms s.top (h.ver s.doms s.top hd hl h1 h2))
    · exact ho

theorem Family.OK.good (ho : R .overflow) {K : Doms → List σ → Prop} {own : Nat → Prop} {x : Family σ μ} (h : x.OK n m R root z0 own) (hK : ∀ d z, K d z → z.length = m ∧ x.2.1 d z) :
    (x.guard K).Good n m R root where
  installs := by
    show (x.1.install root).map _ = _
    rw [h.installs]
    simp [Except.map, Family.guard]
  items := by
    intro p hp
    obtain ⟨q, hq, rfl⟩ := List.mem_map.1 hp
    have := h.served.items q hq
    obtain ⟨it, e⟩ := q
    cases it with
    | init p f => exact this
    | prop f t =>
      obtain ⟨ys, h1, h2⟩ := this
      exact ⟨own, ys, h1, h2.guarded ho hK⟩
  together := by
    intro a ha
    show x.1.holds a ↔ _
    rw [h.served.together a ha]
    constructor
    · intro hh p hp
      obtain ⟨q, hq, rfl⟩ := List.mem_map.1 hp
      exact hh q hq
    · exact fun hh q hq => hh (q.1.guard K, q.2) (List.mem_map.2 ⟨q, hq, rfl⟩)

theorem Serves.keeps {I : Doms → List σ → Prop} {own : Nat → Prop} {f : Prog σ μ PState} {t : Triggers} {C c : Asg → Prop} {xs : List VarId} (h : Serves n m R root I own f t C c xs)
    {ctx : Ctx} {s s' : Sys σ μ} {r : Res PState} (hs : Runnable n m s) (hI : I s.doms s.top) (hr : runProg ctx f s = .ok (r, s')) (hf : ¬ Failed r s') :
    I s'.doms s'.top ∧ DomsOK s'.doms ∧ s'.doms.length = n ∧ (∀ a, Within s'.doms a → Within s.doms a) ∧ s'.top.length = m ∧ ∀ h, ¬ own h → s'.top[h]? = s.top[h]? := by
  obtain ⟨v, _, h1, h2, h3, h4, h5, h6⟩ := verS_run (J := { n, m, R, C := fun a => Within root a ∧ C a, own }) f s
    (verS_frame (J := { n, m, R, C := fun a => Within root a ∧ C a, own }) f s.doms s.top hs.domsOK hs.domsLen (h.ver s.doms s.top hs.domsOK hs.domsLen hs.cstatesLen hI)) hs hr hf
  exact ⟨h1.2, h2, h3, h4, h5.trans hs.cstatesLen, h6⟩

theorem together_shrinks (h : ∀ (i : Nat) x, fam[i]? = some x → x.OK n m R root z0 (own i)) : Shrinks n (Together m fam) := by
  intro d d' z h1 h2 h3 ⟨hz, hx⟩
  refine ⟨hz, fun x hm => ?_⟩
  obtain ⟨i, hi⟩ := List.mem_iff_getElem?.1 hm
  exact (h i x hi).served.shrink d d' z h1 h2 h3 (hx x hm)

/-- The engine with guarded functions does the same as the real one where all invariants hold. -/
theorem family_agree {S : Setup σ μ} (ho : R .overflow) (h : ∀ (i : Nat) x, fam[i]? = some x → x.OK n m R root z0 (own i)) (ha : ∀ i j k, own i k → own j k → i = j)
    (hc : Setup.create root 0 ((fam.map (·.1)).map (·.install)) Setup.empty = .ok S) : Agree n m (Together m fam) S.engine (S.guard (Together m fam)).engine where
  toTwin := guard_twin _ S
  same := by
    intro p f f' h1 h2 c s hs
    have h2 : (S.engine.progs.map (·.guard (Together m fam)))[p]? = some f' := h2
    rw [List.getElem?_map, h1] at h2
    cases h2
    exact run_guard c f hs
  keeps := by
    intro f' hf' c s r s' hs hK hr hfl
    have hg : ∀ x ∈ fam.map (Family.guard (Together m fam)), x.Good n m R root := by
      intro y hy
      obtain ⟨x, hx, rfl⟩ := List.mem_map.1 hy
      obtain ⟨i, hi⟩ := List.mem_iff_getElem?.1 hx
      exact (h i x hi).good ho fun d z hk => ⟨hk.1, hk.2 x hx⟩
    have hcr := create_guard (Together m fam) (fam.map (·.1)) 0 hc
    have hm : ((fam.map (·.1)).map (Posted.guard (Together m fam))).map (·.install) = (fam.map (Family.guard (Together m fam))).map (·.1.install) := by simp [Family.guard, Function.comp_def]
    rw [hm] at hcr
    have hmade := create_spec _ 0 (n := n) (m := m) (R := R) Made.empty hg hcr
    rw [hmade.built.progs] at hf'
    obtain ⟨⟨f1, t⟩, hp, rfl⟩ := List.mem_map.1 hf'
    obtain ⟨tg, htg, hsel⟩ := List.mem_filterMap.1 hp
    rw [List.nil_append] at htg
    obtain ⟨y, hy, p, hpy, rfl⟩ := mem_tags.1 htg
    obtain ⟨x, hx, rfl⟩ := List.mem_map.1 hy
    obtain ⟨q, hq, rfl⟩ := List.mem_map.1 hpy
    obtain ⟨i, hi⟩ := List.mem_iff_getElem?.1 hx
    obtain ⟨it, e⟩ := q
    cases it with
    | init _ _ => cases hsel
    | prop f tr =>
      cases hsel
      obtain ⟨ys, _, hsv⟩ := (h i x hi).served.items _ hq
      have hr : runProg c f s = .ok (r, s') := by rw [← run_guard (K := Together m fam) c f hK]; exact hr
      obtain ⟨k1, k2, k3, k4, k5, k6⟩ := hsv.keeps hs (hK.2 x hx) hr hfl
      refine ⟨k5, fun z hz => ?_⟩
      obtain ⟨j, hj⟩ := List.mem_iff_getElem?.1 hz
      by_cases hij : j = i
      · subst hij; rw [hi] at hj; cases hj; exact k1
      · have hv := (h j z hj).served
        exact hv.shrink _ _ _ k2 k3 k4 (hv.only _ _ _ (fun l hl => k6 l fun hl' => hij (ha j i l hl hl')) (hK.2 z hz))

/-- The same if a function that writes no constraint state is installed last. -/
theorem Agree.install {E E' : Engine σ μ} {K : Doms → List σ → Prop} (h : Agree n m K E E') (hK : Shrinks n K) {f : Prog σ μ PState} (hf : f.Stateless) (hs : f.Safe n m R) (c : Nat) (t : Triggers) :
    Agree n m K (E.install c f t) (E'.install c f t) where
  eq := by
    have h1 := h.eq
    have h2 := install_progs E E'.progs h.len c f f t
    rw [← h1] at h2
    rw [h2]
  len := by rw [(install_fields E' c f t).1, (install_fields E c f t).1]; simp [h.len]
  same := by
    intro p g g' h1 h2 ctx s hs
    rw [(install_fields E c f t).1] at h1
    rw [(install_fields E' c f t).1] at h2
    by_cases hlt : p < E.progs.length
    · rw [List.getElem?_append_left hlt] at h1
      rw [List.getElem?_append_left (by rw [h.len]; exact hlt)] at h2
      exact h.same p g g' h1 h2 ctx s hs
    · rw [List.getElem?_append_right (by omega)] at h1
      rw [List.getElem?_append_right (by rw [h.len]; omega), h.len] at h2
      rw [h1] at h2; cases h2; rfl
  keeps := by
    intro g hg ctx s r s' hr hk e hfl
    rw [(install_fields E' c f t).1] at hg
    rcases List.mem_append.1 hg with hg | hg
    · exact h.keeps g hg ctx s r s' hr hk e hfl
    · simp only [List.mem_singleton] at hg
      subst hg
      have htop := run_stateless ctx g s hf e
      rcases runProg_spec (np := ctx.owner + 1) (R := R) ctx (Nat.lt_succ_self _) g s hr (hs s.doms hr.domsOK hr.domsLen) with ⟨_, e3, _⟩ | ⟨r', s1', e3, hfr, hout⟩
      · rw [e3] at e; cases e
      · rw [e3] at e; cases e
        obtain ⟨_, cs, _, hran⟩ := hout.resolve_left hfl
        show K s'.doms s'.top
        rw [htop]
        exact hK s.doms s'.doms s.top hran.evolve.ok (hfr.domsLen.trans hr.domsLen) (fun a ha => hran.evolve.within ha) hk

end
end Gcs
