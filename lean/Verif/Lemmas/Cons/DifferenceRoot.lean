import Verif.Model.Cons.DifferenceRoot
import Verif.Lemmas.Cons.DifferenceProp
import Verif.Props.Cons.DifferenceSimplify

/-!
# Differences, simplified at the root: lemmas
-/

namespace Gcs.Difference

/-- What a role says. -/
structure RoleSpec (d : Doms) (dropped : List Nat) (j : Nat) (e : Arc) (r : Role) : Prop where
  base : r = .base → j ∉ dropped ∧ Sure d e.cond
  candidate : r = .candidate → j ∉ dropped ∧ (∃ c, e.cond = some c) ∧ ¬ Sure d e.cond
  ignored : r = .ignored → j ∈ dropped ∨ ∀ b, Within d b → ¬ On e.cond b

structure RolesOK (d : Doms) (dropped : List Nat) (arcs : List Arc) (roles : List Role) : Prop where
  len : roles.length = arcs.length
  get : ∀ (j : Nat) (e : Arc), arcs[j]? = some e → ∃ r, roles[j]? = some r ∧ RoleSpec d dropped j e r

section
variable {σ μ : Type} {J : Job} {d : Doms} {dropped : List Nat} {arcs : List Arc} {roles : List Role} {nodes : List Nat} {n : Nat}

theorem roleOf_roo (hd : DomsOK d) {e : Arc} (hc : CondOK d.length e.cond) (i : Nat) : RightOrOverflow (roleOf d dropped i e) (RoleSpec d dropped i e) := by
  unfold roleOf
  split
  · rename_i h
    exact .pure ⟨nofun, nofun, fun _ => .inl h⟩
  · rename_i h
    split
    · rename_i hcond
      exact .pure ⟨fun _ => ⟨h, fun a _ c hc => by rw [hcond] at hc; cases hc⟩, nofun, nofun⟩
    · rename_i c hcond
      have fine := hc c hcond
      refine (testLiteral_spec d _ hd fine.1 fine.2).bind fun r hr => ?_
      have on : ∀ a, On e.cond a ↔ (Lit.cond c).holds a := fun a => ⟨fun k => k c hcond, fun k c' hc' => by rw [hcond] at hc'; cases hc'; exact k⟩
      cases r with
      | definitelyTrue => exact .pure ⟨fun _ => ⟨h, fun a ha => (on a).2 (hr.1.1 rfl a ha)⟩, nofun, nofun⟩
      | definitelyFalse => exact .pure ⟨nofun, nofun, fun _ => .inr fun a ha k => hr.2.1 rfl a ha ((on a).1 k)⟩
      | undecided => exact .pure ⟨nofun, fun _ => ⟨h, ⟨c, hcond⟩, fun k => nomatch hr.1.2 fun a ha => (on a).1 (k a ha)⟩, nofun⟩

theorem classify_roo (hd : DomsOK d) : ∀ (es : List Arc) (i : Nat), (∀ e ∈ es, CondOK d.length e.cond) →
    RightOrOverflow (classify d dropped i es) (fun rs => rs.length = es.length ∧ ∀ (j : Nat) (e : Arc), es[j]? = some e → ∃ r, rs[j]? = some r ∧ RoleSpec d dropped (i + j) e r)
  | [], i, _ => .pure ⟨rfl, fun j e h => by simp at h⟩
  | e :: es, i, hc => by
    refine (roleOf_roo hd (hc e (by simp)) i).bind fun r hr => ?_
    refine (classify_roo hd es (i + 1) fun f hf => hc f (by simp [hf])).bind fun rs ⟨h1, h2⟩ => .pure ⟨by simp [h1], fun j f hj => ?_⟩
    cases j with
    | zero => cases hj; exact ⟨r, rfl, hr⟩
    | succ j =>
      obtain ⟨q, k1, k2⟩ := h2 j f hj
      exact ⟨q, k1, by rwa [show i + (j + 1) = i + 1 + j by omega]⟩

theorem rolesOK_roo (hd : DomsOK d) (hc : ∀ e ∈ arcs, CondOK d.length e.cond) : RightOrOverflow (classify d dropped 0 arcs) (RolesOK d dropped arcs) :=
  (classify_roo hd arcs 0 hc).mono fun rs ⟨h1, h2⟩ => ⟨h1, fun j e hj => by simpa using h2 j e hj⟩

theorem mem_ignored {j : Nat} : j ∈ ignored roles ↔ roles[j]? = some .ignored := by
  unfold ignored
  simp only [List.mem_filter, List.mem_range, decide_eq_true_iff]
  exact ⟨fun h => h.2, fun h => ⟨(List.getElem?_eq_some_iff.1 h).1, h⟩⟩

/-- The edges that are left and have no condition, or one that is true. -/
def LeftHold (arcs : List Arc) (dropped : List Nat) (d : Doms) (x : Nat → Int) : Prop :=
  ∀ (j : Nat) (e : Arc), arcs[j]? = some e → j ∉ dropped → Sure d e.cond → e.Holds x

/-- They imply every edge that is gone, unless its condition is false. -/
def Enough (arcs : List Arc) (dropped : List Nat) (d : Doms) : Prop :=
  ∀ x, LeftHold arcs dropped d x → ∀ (j : Nat) (e : Arc), arcs[j]? = some e → j ∈ dropped → e.Holds x ∨ ∀ b, Within d b → ¬ On e.cond b

/-- No edge that is left has a condition that could be decided. -/
def Tight (arcs : List Arc) (dropped : List Nat) (d : Doms) : Prop :=
  (¬ ∃ x, LeftHold arcs dropped d x) ∨ ∀ (j : Nat) (e : Arc), arcs[j]? = some e → j ∉ dropped → (∃ x, LeftHold arcs dropped d x ∧ e.Holds x) ∧ (¬ Sure d e.cond → ∃ x, LeftHold arcs dropped d x ∧ ¬ e.Holds x)

/-- Edges that are left with true conditions are in the base. -/
theorem leftHold_of {x : Nat → Int} (hr : RolesOK d dropped arcs roles) {l : List Nat} (hx : BaseHolds arcs roles x) : LeftHold arcs (ignored roles ++ l) d x := fun j e hj hn hs => by
  obtain ⟨r, h1, h2⟩ := hr.get j e hj
  cases r with
  | base => exact hx j e hj h1
  | candidate => exact absurd hs (h2.candidate rfl).2.2
  | ignored => exact absurd (List.mem_append.2 (.inl (mem_ignored.2 h1))) hn

theorem enough_ignored (hd : DomsOK d) (h : Enough arcs dropped d) (hr : RolesOK d dropped arcs roles) : Enough arcs (ignored roles) d := fun x hx j e hj hm => by
  obtain ⟨r, h1, h2⟩ := hr.get j e hj
  have := mem_ignored.1 hm
  rw [h1] at this; cases this
  rcases h2.ignored rfl with q | q
  · refine h x (fun i a hi hn hs => ?_) j e hj q
    obtain ⟨r, k1, k2⟩ := hr.get i a hi
    refine hx i a hi (fun hm => ?_) hs
    have := mem_ignored.1 hm
    rw [k1] at this; cases this
    obtain ⟨b, hb⟩ := exists_within hd
    exact (k2.ignored rfl).elim hn fun k => k b hb (hs b hb)
  · exact .inr q

theorem enough_removed {o : Difference.Outcome} (hd : DomsOK d) (h : Enough arcs dropped d) (hr : RolesOK d dropped arcs roles) (ho : Simplified arcs roles o) : Enough arcs (ignored roles ++ o.removed) d := fun x hx j e hj hm => by
  have base : BaseHolds arcs roles x := by
    refine ho.kept _ fun i a hi hb hnr => ?_
    obtain ⟨r, h1, h2⟩ := hr.get i a hi
    rw [hb] at h1; cases h1
    refine hx i a hi (fun q => ?_) (h2.base rfl).2
    rcases List.mem_append.1 q with q | q
    · have := mem_ignored.1 q; rw [hb] at this; cases this
    · exact hnr q
  obtain ⟨r, h1, h2⟩ := hr.get j e hj
  cases r with
  | base => exact .inl (base j e hj h1)
  | candidate =>
    rcases List.mem_append.1 hm with q | q
    · have := mem_ignored.1 q; rw [h1] at this; cases this
    · exact .inl ((ho.implied j e hj h1).1 q x base)
  | ignored =>
    have k := leftHold_of (l := []) hr base
    rw [List.append_nil] at k
    exact enough_ignored hd h hr x k j e hj (mem_ignored.2 h1)

theorem tight_none (hr : RolesOK d dropped arcs roles) (h : ¬ ∃ x, BaseHolds arcs roles x) : Tight arcs (ignored roles) d := .inl fun ⟨x, hx⟩ => h ⟨x, fun j e hj hb => by
  obtain ⟨r, h1, h2⟩ := hr.get j e hj
  rw [hb] at h1; cases h1
  exact hx j e hj (fun q => by have := mem_ignored.1 q; rw [hb] at this; cases this) (h2.base rfl).2⟩

theorem tight_some {o : Difference.Outcome} (hr : RolesOK d dropped arcs roles) (ho : Simplified arcs roles o) (hf : o.fix = []) : Tight arcs (ignored roles ++ o.removed) d := .inr fun j e hj hn => by
  obtain ⟨r, h1, h2⟩ := hr.get j e hj
  cases r with
  | base =>
    obtain ⟨x, hx⟩ := ho.sat
    exact ⟨⟨x, leftHold_of hr hx, hx j e hj h1⟩, fun k => absurd (h2.base rfl).2 k⟩
  | candidate =>
    constructor
    · apply Classical.byContradiction
      intro k
      obtain ⟨p, hp⟩ := (ho.excluded j e hj h1).2 fun x hx hh => k ⟨x, leftHold_of hr hx, hh⟩
      rw [hf] at hp; cases hp
    · intro _
      apply Classical.byContradiction
      intro k
      exact hn (List.mem_append.2 (.inr ((ho.implied j e hj h1).2 fun x hx => Classical.byContradiction fun hh => k ⟨x, leftHold_of hr hx, hh⟩)))
  | ignored => exact absurd (List.mem_append.2 (.inl (mem_ignored.2 h1))) hn

theorem follow_roo (ha : ArcsOK n arcs) {u v : Nat} {p : List Nat} {w : Int} (h : BasePath arcs roles u p v w) : ∀ (z : Int), InI64 z → RightOrOverflow (follow arcs p u z) (fun r => r = (v, z + w)) := by
  induction h with
  | nil u => exact fun z _ => .pure (by simp)
  | @cons e a es v w h1 h2 _ ih =>
    intro z hz
    unfold follow
    rw [vecAt_ok.2 h1]
    refine RightOrOverflow.bind (.pure (R := fun x => x = a) rfl) fun x hx => ?_
    subst hx
    rw [if_neg (by simp)]
    refine (add_roo hz (ha _ (List.mem_of_getElem? h1)).2.2).bind fun t ⟨ht, ht'⟩ => (ih t ht').mono fun r hr => ?_
    rw [hr, ht, Int.add_assoc]

theorem check_roo (ha : ArcsOK n arcs) {e : Nat} {p : List Nat} {a : Arc} {w : Int} {c : Cond} (h1 : arcs[e]? = some a) (h2 : BasePath arcs roles a.dst p a.src w) (h3 : a.d + w < 0) (h4 : a.cond = some c) :
    RightOrOverflow (check arcs e p) (fun r => r = c) := by
  unfold check
  rw [vecAt_ok.2 h1]
  refine RightOrOverflow.bind (.pure (R := fun x => x = a) rfl) fun x hx => ?_
  subst hx
  refine (follow_roo ha h2 _ (ha _ (List.mem_of_getElem? h1)).2.2).bind fun r hr => ?_
  subst hr
  rw [if_neg (by simp), if_neg (by simp only; omega), h4]
  exact .pure rfl

/-- How many edges are left. -/
def left (arcs : List Arc) (dropped : List Nat) : Nat := ((List.range arcs.length).filter fun j => j ∉ dropped).length

theorem left_mono {l l' : List Nat} (h : ∀ j ∈ l, j ∈ l') : left arcs l' ≤ left arcs l := by
  unfold left
  refine nodup_sub _ _ (List.nodup_range.filter _) fun j hj => ?_
  simp only [List.mem_filter, decide_not, Bool.not_eq_true', decide_eq_false_iff_not] at hj ⊢
  exact ⟨hj.1, fun k => hj.2 (h j k)⟩

theorem left_cons {l : List Nat} {j : Nat} (h1 : j < arcs.length) (h2 : j ∉ l) : left arcs (j :: l) < left arcs l := by
  unfold left
  have := nodup_sub (j :: (List.range arcs.length).filter fun i => i ∉ j :: l) ((List.range arcs.length).filter fun i => i ∉ l)
    (List.nodup_cons.2 ⟨by simp, List.nodup_range.filter _⟩) fun i hi => by
      rcases List.mem_cons.1 hi with rfl | hi
      · simp [h1, h2]
      · simp only [List.mem_filter, List.mem_range, List.mem_cons, decide_not, Bool.not_eq_true', decide_eq_false_iff_not] at hi ⊢
        exact ⟨hi.1, fun k => hi.2 (.inr k)⟩
  rw [List.length_cons] at this
  exact this

/-- What is true while conditions are being fixed. -/
structure Fixing (arcs : List Arc) (d : Doms) (start : List Nat) (fix : List (Nat × List Nat)) (st : List Nat × Bool) (xs : List (Nat × List Nat)) (d' : Doms) : Prop where
  sub : ∀ a, Within d' a → Within d a
  enough : Enough arcs st.1 d'
  rest : ∀ f ∈ xs, f ∈ fix
  grown : if st.2 then left arcs st.1 < left arcs start else st.1 = start ∧ xs = fix

theorem ver_fixOne {o : Difference.Outcome} (ho : J.R .overflow) (ha : ArcsOK n arcs) (hc : ∀ e ∈ arcs, CondOK J.n e.cond) (hr : RolesOK d dropped arcs roles) (hsim : Simplified arcs roles o)
    (hs : ∀ a, Within d a → J.C a → ∀ e ∈ arcs, On e.cond a → e.Sat nodes a) {st : List Nat × Bool} {f : Nat × List Nat} {xs : List (Nat × List Nat)} {d1 : Doms}
    (hi : Fixing arcs d (ignored roles ++ o.removed) o.fix st (f :: xs) d1) :
    (fixOne arcs st f : Prog σ μ (List Nat × Bool)).Ver J (fun _ => False) (fun st' d' => Fixing arcs d (ignored roles ++ o.removed) o.fix st' xs d') d1 := by
  obtain ⟨e, p⟩ := f
  have hm : (e, p) ∈ o.fix := hi.rest _ (by simp)
  obtain ⟨a, w, k1, k2, k3, k4⟩ := hsim.witness e p hm
  obtain ⟨r, q1, q2⟩ := hr.get e a k1
  rw [k2] at q1; cases q1
  obtain ⟨-, ⟨c, hcond⟩, -⟩ := q2.candidate rfl
  have excl := (hsim.excluded e a k1 k2).1 ⟨p, hm⟩
  have lt := (List.getElem?_eq_some_iff.1 k1).1
  have fresh : e ∉ ignored roles ++ o.removed := fun h => by
    rcases List.mem_append.1 h with h | h
    · have := mem_ignored.1 h; rw [k2] at this; cases this
    · obtain ⟨x, hx⟩ := hsim.sat
      exact excl x hx ((hsim.implied e a k1 k2).1 h x hx)
  unfold fixOne
  by_cases hmem : e ∈ st.1
  · rw [if_pos hmem]
    refine ⟨hi.sub, hi.enough, fun f hf => hi.rest f (by simp [hf]), ?_⟩
    have := hi.grown
    split at this
    · rename_i h; rw [if_pos h]; exact this
    · exact absurd (this.1 ▸ hmem) fresh
  · rw [if_neg hmem]
    refine ver_lift ho (check_roo ha k1 k3 k4 hcond) fun c' hc' => ?_
    subst hc'
    have fine := hc a (List.mem_of_getElem? k1) c' hcond
    have on : ∀ b, On a.cond b ↔ (Lit.cond c').holds b := fun b => ⟨fun k => k c' hcond, fun k c hc => by rw [hcond] at hc; cases hc; exact k⟩
    refine ver_tell (l := (Lit.cond c').not) fine.1.not (fun b hb hC => (Lit.not_holds ..).2 fun h => ?_) fun d2 h1 h2 h3 => ?_
    · refine excl (nodeVal nodes b) (fun j x hj hb' => ?_) (hs b (hi.sub b hb) hC a (List.mem_of_getElem? k1) ((on b).2 h))
      obtain ⟨r, z1, z2⟩ := hr.get j x hj
      rw [hb'] at z1; cases z1
      exact hs b (hi.sub b hb) hC x (List.mem_of_getElem? hj) ((z2.base rfl).2 b (hi.sub b hb))
    · refine ⟨fun b hb => hi.sub b ((h3 b).1 hb).1, fun x hx j y hj hjm => ?_, fun f hf => hi.rest f (by simp [hf]), ?_⟩
      · have dead : ∀ b, Within d2 b → ¬ On a.cond b := fun b hb h => (Lit.not_holds ..).1 ((h3 b).1 hb).2 ((on b).1 h)
        rcases List.mem_cons.1 hjm with rfl | hjm
        · rw [k1] at hj; cases hj
          exact .inr dead
        · refine (hi.enough x (fun i z hz hn hsu => hx i z hz (fun q => ?_) fun b hb => hsu b ((h3 b).1 hb).1) j y hj hjm).imp id fun q b hb => q b ((h3 b).1 hb).1
          rcases List.mem_cons.1 q with rfl | q
          · rw [k1] at hz; cases hz
            obtain ⟨b, hb⟩ := exists_within h1
            exact dead b hb (hsu b ((h3 b).1 hb).1)
          · exact hn q
      · show left arcs (e :: st.1) < _
        have := hi.grown
        have k := left_cons lt hmem
        split at this
        · omega
        · rw [this.1] at k ⊢; exact k

theorem ver_rootLoop (ho : J.R .overflow) (ha : ArcsOK nodes.length arcs) (hc : ∀ e ∈ arcs, CondOK J.n e.cond) :
    ∀ (k : Nat) (dropped : List Nat) (d : Doms), DomsOK d → d.length = J.n → (∀ a, Within d a → J.C a → ∀ e ∈ arcs, On e.cond a → e.Sat nodes a) → Enough arcs dropped d → left arcs dropped < k →
    (rootLoop nodes.length arcs k dropped : Prog σ μ (List Nat)).Ver J (fun _ => False) (fun dr d' => Enough arcs dr d' ∧ Tight arcs dr d') d
  | 0, _, _, _, _, _, _, hk => by omega
  | k + 1, dropped, d, hd, hl, hs, he, hk => by
    refine ver_ask (f := (classify · dropped 0 arcs)) ho (rolesOK_roo hd fun e he => hl.symm ▸ hc e he) fun roles hr => ?_
    have sim : RightOrOverflow (simplify nodes.length arcs roles) (fun r => (r = none → ¬ ∃ x, BaseHolds arcs roles x) ∧ ∀ o, r = some o → Simplified arcs roles o) := by
      have := simplify_right (n := nodes.length) (arcs := arcs) (roles := roles) ha hr.len
      revert this
      cases simplify nodes.length arcs roles with
      | error e => exact fun h => .inl (by rw [h])
      | ok o =>
        cases o with
        | none => exact fun h => .pure ⟨fun _ => h, nofun⟩
        | some o => exact fun h => .pure ⟨nofun, fun o' h' => by cases h'; exact h⟩
    refine ver_lift ho sim fun o hsim => ?_
    cases o with
    | none => exact ⟨enough_ignored hd he hr, tight_none hr (hsim.1 rfl)⟩
    | some o =>
      have hsim := hsim.2 o rfl
      show Prog.Ver J _ _ (if o.fix = [] then _ else _) d
      by_cases hf : o.fix = []
      · rw [if_pos hf]
        exact ⟨enough_removed hd he hr hsim, tight_some hr hsim hf⟩
      · rw [if_neg hf]
        refine ver_seq (S := fun _ => False) hd hl (fun _ h => h) (ver_forEachWith (J := J) (Fixing arcs d (ignored roles ++ o.removed) o.fix)
          (fun st f xs d1 _ _ hi => ver_fixOne ho ha hc hr hsim hs hi) o.fix _ d hd hl ⟨fun _ h => h, enough_removed hd he hr hsim, fun _ h => h, ⟨rfl, rfl⟩⟩) fun st d1 hd1 hl1 s1 hi => ?_
        have hg := hi.grown
        split at hg
        · rename_i h2
          rw [if_pos h2]
          refine ver_rootLoop ho ha hc k st.1 d1 hd1 hl1 (fun a h => hs a (s1 a h)) hi.enough ?_
          have : left arcs (ignored roles ++ o.removed) ≤ left arcs dropped := by
            unfold left
            refine nodup_sub _ _ (List.nodup_range.filter _) fun j hj => ?_
            simp only [List.mem_filter, List.mem_range, decide_not, Bool.not_eq_true', decide_eq_false_iff_not] at hj ⊢
            refine ⟨hj.1, fun hm => hj.2 (List.mem_append.2 (.inl (mem_ignored.2 ?_)))⟩
            obtain ⟨r, q1, q2⟩ := hr.get j arcs[j] (List.getElem?_eq_getElem hj.1)
            cases r with
            | base => exact absurd hm (q2.base rfl).1
            | candidate => exact absurd hm (q2.candidate rfl).1
            | ignored => exact q1
          omega
        · exact absurd hg.2.symm hf

theorem mem_keep {e : Arc} : e ∈ keep dropped arcs ↔ ∃ j, arcs[j]? = some e ∧ j ∉ dropped := by
  unfold keep
  simp only [List.mem_map, List.mem_filter, decide_not, Bool.not_eq_true', decide_eq_false_iff_not]
  constructor
  · rintro ⟨⟨x, j⟩, ⟨h1, h2⟩, rfl⟩
    exact ⟨j, List.mem_zipIdx_iff_getElem?.1 h1, h2⟩
  · rintro ⟨j, h1, h2⟩
    exact ⟨(e, j), ⟨List.mem_zipIdx_iff_getElem?.2 h1, h2⟩, rfl⟩

theorem live_count (ha : ArcsOK n arcs) : Live (liveCount n arcs) n arcs := by
  refine ⟨(List.range n).filter fun v => arcs.any fun a => a.src = v || a.dst = v, Nat.le_refl _, ?_, fun a h => ?_⟩
  · have := List.length_filter_le (fun v => arcs.any fun a => a.src = v || a.dst = v) (List.range n)
    simpa using this
  · have := ha a h
    simp only [List.mem_filter, List.mem_range, List.any_eq_true]
    exact ⟨⟨this.1, a, h, by simp⟩, ⟨this.2.1, a, h, by simp⟩⟩

/-- The edges that have no condition, or one that is true. -/
def SureHold (g : Graph) (d : Doms) (x : Nat → Int) : Prop := ∀ e ∈ g.arcs, Sure d e.cond → e.Holds x

/-- What is left of a graph. -/
structure Rest (n : Nat) (g : Graph) (d : Doms) (r : Graph × Nat) : Prop where
  nodes : r.1.nodes = g.nodes
  bounds : r.1.bounds = g.bounds
  arcs : ∀ e ∈ r.1.arcs, e ∈ g.arcs
  ok : r.1.OK n
  live : Live r.2 r.1.nodes.length r.1.arcs
  few : r.2 ≤ g.nodes.length
  enough : ∀ x, SureHold r.1 d x → ∀ e ∈ g.arcs, e ∈ r.1.arcs ∨ e.Holds x ∨ ∀ b, Within d b → ¬ On e.cond b
  tight : (¬ ∃ x, SureHold r.1 d x) ∨ ∀ e ∈ r.1.arcs, (∃ x, SureHold r.1 d x ∧ e.Holds x) ∧ (¬ Sure d e.cond → ∃ x, SureHold r.1 d x ∧ ¬ e.Holds x)

variable {g : Graph}

theorem ver_simplifyRoot (ho : J.R .overflow) (hd : DomsOK d) (hl : d.length = J.n) (hg : g.OK J.n) (hs : ∀ a, Within d a → J.C a → ∀ e ∈ g.arcs, On e.cond a → e.Sat g.nodes a) :
    (simplifyRoot g : Prog σ μ (Graph × Nat)).Ver J (fun _ => False) (fun r d' => Rest J.n g d' r) d := by
  unfold simplifyRoot
  by_cases he : g.arcs = []
  · rw [if_pos he]
    exact ⟨rfl, rfl, fun _ h => h, hg, hg.live, Nat.le_refl _, fun _ _ e h => .inl h, .inr fun e h => by rw [he] at h; cases h⟩
  · rw [if_neg he]
    have fuel : left g.arcs [] < g.arcs.length + 1 := by
      have := List.length_filter_le (fun j => decide (j ∉ ([] : List Nat))) (List.range g.arcs.length)
      rw [List.length_range] at this
      exact Nat.lt_succ_of_le this
    refine ver_seq (S := fun _ => False) hd hl (fun _ h => h) (ver_rootLoop (nodes := g.nodes) ho hg.arcs hg.arcConds _ [] d hd hl hs (fun _ _ _ _ _ h => by cases h) fuel) fun dr d1 hd1 hl1 _ hq => ?_
    have sub : ∀ e ∈ keep dr g.arcs, e ∈ g.arcs := fun e h => by
      obtain ⟨j, h1, -⟩ := mem_keep.1 h
      exact List.mem_of_getElem? h1
    have ok : ({ g with arcs := keep dr g.arcs } : Graph).OK J.n := ⟨hg.nodes, fun a h => hg.arcs a (sub a h), fun e h => hg.arcConds e (sub e h), hg.bounds, hg.disallowed⟩
    have iff : ∀ x, SureHold { g with arcs := keep dr g.arcs } d1 x ↔ LeftHold g.arcs dr d1 x := fun x =>
      ⟨fun h j e h1 h2 h3 => h e (mem_keep.2 ⟨j, h1, h2⟩) h3, fun h e he hs => by
        obtain ⟨j, h1, h2⟩ := mem_keep.1 he
        exact h j e h1 h2 hs⟩
    refine ⟨rfl, rfl, sub, ok, live_count ok.arcs, ?_, fun x hx e hm => ?_, ?_⟩
    · have := List.length_filter_le (fun v => (keep dr g.arcs).any fun a => a.src = v || a.dst = v) (List.range g.nodes.length)
      rw [List.length_range] at this
      exact this
    · obtain ⟨j, hj⟩ := List.mem_iff_getElem?.1 hm
      by_cases h : j ∈ dr
      · exact .inr (hq.1 x ((iff x).1 hx) j e hj h)
      · exact .inl (mem_keep.2 ⟨j, hj, h⟩)
    · refine hq.2.imp (fun h ⟨x, hx⟩ => h ⟨x, (iff x).1 hx⟩) fun h e hm => ?_
      obtain ⟨j, h1, h2⟩ := mem_keep.1 hm
      obtain ⟨⟨x, k1, k2⟩, k3⟩ := h j e h1 h2
      refine ⟨⟨x, (iff x).2 k1, k2⟩, fun hn => ?_⟩
      obtain ⟨x, k1, k2⟩ := k3 hn
      exact ⟨x, (iff x).2 k1, k2⟩

theorem ver_startRoot (ho : J.R .overflow) (hd : DomsOK d) (hl : d.length = J.n) (hg : g.OK J.n) (hs : ∀ a, Within d a → J.C a → g.Main a ∧ g.Side a) :
    (startRoot g : Prog σ μ (Graph × Nat)).Ver J (fun _ => False) (fun r d' => Rest J.n g d' r ∧ ∀ a, Within d' a → g.Side a) d := by
  refine ver_seq (S := fun _ => False) hd hl (fun _ h => h) (ver_start ho hd hl hg hs) fun _ d1 hd1 hl1 s1 h1 => ?_
  exact ver_mono (fun _ d' hq => ⟨hq.2, fun a ha => h1 a (hq.1.2.2 a ha)⟩) _ _ (ver_facts _ _ hd1 hl1 (ver_simplifyRoot ho hd1 hl1 hg fun a ha hC => (hs a (s1 a ha) hC).1.1))

/-- From what holds of the rest to what holds of the graph. -/
theorem Rest.main {r : Graph × Nat} (h : Rest n g d r) {a : Asg} (hw : Within d a) (hm : r.1.Main a) : g.Main a := by
  refine ⟨fun e he hon => ?_, fun b hb hon => ?_⟩
  · rw [← h.nodes]
    rcases h.enough (nodeVal r.1.nodes a) (fun f hf hsu => hm.1 f hf (hsu a hw)) e he with k | k | k
    · exact hm.1 e k hon
    · exact k
    · exact absurd hon (k a hw)
  · rw [← h.nodes]
    exact hm.2 b (h.bounds ▸ hb) hon

theorem Rest.sub {r : Graph × Nat} (h : Rest n g d r) {a : Asg} (hm : g.Main a) : r.1.Main a :=
  ⟨fun e he hon => by rw [h.nodes]; exact hm.1 e (h.arcs e he) hon, fun b hb hon => by rw [h.nodes]; exact hm.2 b (h.bounds ▸ hb) hon⟩

/-- The same for edges whose conditions are true later. -/
theorem Rest.sure {r : Graph × Nat} (h : Rest n g d r) {t : Doms} (ht : DomsOK t) (hsub : ∀ a, Within t a → Within d a) {a : Asg} (hm : ∀ e ∈ r.1.arcs, Sure t e.cond → e.Sat r.1.nodes a) : ∀ e ∈ g.arcs, Sure t e.cond → e.Sat g.nodes a := fun e he hs => by
  rw [← h.nodes]
  rcases h.enough (nodeVal r.1.nodes a) (fun f hf hsu => hm f hf (sure_sub hsu hsub)) e he with k | k | k
  · exact hm e k hs
  · exact k
  · obtain ⟨b, hb⟩ := exists_within ht
    exact absurd (hs b hb) (k b (hsub b hb))

end
end Gcs.Difference
