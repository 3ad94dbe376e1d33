import Verif.Lemmas.Refined

/-! Nogoods with refined watches: the rules for propagation functions are followed. -/

namespace Gcs
open IntervalSet Queue

section
variable {σ μ α β : Type} {n m : Nat} {R : Err → Prop}

/-- Whatever the function returns satisfies `P`. -/
def Prog.Ends (P : α → Prop) : Prog σ μ α → Prop
  | .ret v => P v
  | .raise _ => True
  | .fail => True
  | .read k => ∀ s, (k s).Ends P
  | .infer _ _ k => (k true).Ends P ∧ (k false).Ends P
  | .progress k => ∀ b, (k b).Ends P
  | .watch _ _ k => k.Ends P
  | .clearWatches k => k.Ends P
  | .setWatchState _ _ k => k.Ends P
  | .setState _ _ k => k.Ends P
  | .setMem _ k => k.Ends P

theorem Prog.Ends.wp {P : α → Prop} : ∀ {f : Prog σ μ α}, f.Ends P → ∀ d, f.Wp n (fun v _ => P v) d
  | .ret _, h, _ => h
  | .raise _, _, _ => trivial
  | .fail, _, _ => trivial
  | .read _, h, d => fun s _ => (h s).wp d
  | .infer _ _ _, h, _ => fun d' _ _ _ => h.1.wp d'
  | .progress _, h, d => fun b => (h b).wp d
  | .watch _ _ k, h, d => Prog.Ends.wp (f := k) h d
  | .clearWatches k, h, d => Prog.Ends.wp (f := k) h d
  | .setWatchState _ _ k, h, d => Prog.Ends.wp (f := k) h d
  | .setState _ _ k, h, d => Prog.Ends.wp (f := k) h d
  | .setMem _ k, h, d => Prog.Ends.wp (f := k) h d

theorem ends_ask {P : β → Prop} {f : Doms → Chk α} {k : α → Prog σ μ β} (h : ∀ v, (k v).Ends P) : ((Prog.ask f).bind k).Ends P := by
  intro s
  show (Prog.bind (match f s.doms with | .ok a => .ret a | .error e => .raise e) k).Ends P
  cases f s.doms with
  | ok v => exact h v
  | error e => trivial

theorem arms_ask {f : Doms → Chk α} {k : α → Prog σ μ β} {d : Doms} (h : ∀ v, f d = .ok v → (k v).ArmsOpen n d) : ((Prog.ask f).bind k).ArmsOpen n d := by
  intro s hs
  subst hs
  show (Prog.bind (match f s.doms with | .ok a => .ret a | .error e => .raise e) k).ArmsOpen n s.doms
  cases hv : f s.doms with
  | ok v => exact h v hv
  | error e => trivial

namespace Nogoods

/-! ## Well-formed -/

theorem setUpAll_ok (ho : R .overflow) (hu : R .ub) {k : Prog σ μ PState} (hk : k.OK n m R) : ∀ (gs : List (List Cond)) (ni : Nat), (∀ g ∈ gs, Proper n g) → (setUpAll k ni gs).OK n m R
  | [], _, _ => hk
  | g :: gs, ni, h => by
    have hg := h g (by simp)
    have hr := setUpAll_ok ho hu hk gs (ni + 1) fun x hx => h x (by simp [hx])
    refine find_ok hg ho _ fun v => ?_
    cases v with
    | none => trivial
    | some p =>
      refine find_ok hg ho _ fun v => ?_
      cases v with
      | none => exact inferNot_ok hg hu p (watchAt_ok hg hu p ni hr)
      | some q => exact watchAt_ok hg hu p ni (watchAt_ok hg hu q ni hr)

theorem visitAll_ok (ho : R .overflow) (hu : R .ub) (me : Nat) {store : List (List Cond)} (h : ∀ g ∈ store, Proper n g) : ∀ nis : List Nat, (visitAll me store nis : Prog σ μ PState).OK n m R
  | [] => trivial
  | ni :: nis => by
    have hr := visitAll_ok ho hu me h nis
    unfold visitAll
    cases hs : store[ni]? with
    | none => exact hu
    | some g =>
      have hg := h g (List.mem_of_getElem? hs)
      intro s _ _
      refine isBroken_ok hg ho hu _ fun b1 => isBroken_ok hg ho hu _ fun b2 => ?_
      cases b1 <;> cases b2 <;> simp only [if_true, Bool.false_eq_true, if_false]
      · exact hr
      · refine find_ok hg ho _ fun v => ?_
        cases v with
        | none => exact inferNot_ok hg hu _ hr
        | some q' => exact watchAt_ok hg hu _ _ hr
      · refine find_ok hg ho _ fun v => ?_
        cases v with
        | none => exact inferNot_ok hg hu _ hr
        | some q' => exact watchAt_ok hg hu _ _ hr
      · refine find_ok hg ho _ fun v => ?_
        cases v with
        | none => trivial
        | some p' =>
          refine find_ok hg ho _ fun v => ?_
          cases v with
          | none => exact inferNot_ok hg hu _ hr
          | some q' => exact watchAt_ok hg hu _ _ (watchAt_ok hg hu _ _ hr)

theorem refined_ok (cell : Cell μ NogoodMem) (me : Nat) (ho : R .overflow) (hu : R .ub) : (refined cell me : Prog σ μ PState).OK n m R := by
  intro s _ hl
  show (if fits s.doms.length (cell.get s.mem).store = true then
      if s.w.inbox[me]?.getD [] = [] then
        setUpAll (.read fun t => .setMem (cell.set { cell.get t.mem with setUp := (cell.get s.mem).store.length } t.mem) (.ret .enable)) (cell.get s.mem).setUp ((cell.get s.mem).store.drop (cell.get s.mem).setUp)
      else visitAll me (cell.get s.mem).store (firedClauses (s.w.inbox[me]?.getD []))
    else .raise .ub : Prog σ μ PState).OK n m R
  split
  · rename_i hfit
    rw [hl, fits_iff] at hfit
    split
    · refine setUpAll_ok ho hu ?_ _ _ fun g hg => (hfit.2 g (List.mem_of_mem_drop hg)).2
      intro _ _ _; trivial
    · exact visitAll_ok ho hu me (fun g hg => (hfit.2 g hg).2) _
  · exact hu

/-! ## No claim of idempotence -/

theorem inferNot_ends {P : PState → Prop} {g : List Cond} {p : Nat} {k : Prog σ μ PState} (hk : k.Ends P) : (inferNot g p k).Ends P := by
  unfold inferNot; split
  · exact ⟨hk, hk⟩
  · trivial
theorem watchAt_ends {P : PState → Prop} {g : List Cond} {p ni : Nat} {k : Prog σ μ PState} (hk : k.Ends P) : (watchAt g p ni k).Ends P := by
  unfold watchAt; split
  · exact hk
  · trivial

theorem setUpAll_ends {P : PState → Prop} {k : Prog σ μ PState} (hk : k.Ends P) : ∀ (gs : List (List Cond)) (ni : Nat), (setUpAll k ni gs).Ends P
  | [], _ => hk
  | g :: gs, ni => by
    have hr := setUpAll_ends hk gs (ni + 1)
    unfold setUpAll setUpOne
    refine ends_ask fun v => ?_
    cases v with
    | none => trivial
    | some p =>
      refine ends_ask fun v => ?_
      cases v with
      | none => exact inferNot_ends (watchAt_ends hr)
      | some q => exact watchAt_ends (watchAt_ends hr)

theorem visitAll_ends {P : PState → Prop} (hP : P .enable) (me : Nat) (store : List (List Cond)) : ∀ nis : List Nat, (visitAll me store nis : Prog σ μ PState).Ends P
  | [] => hP
  | ni :: nis => by
    have hr := visitAll_ends hP me store nis
    unfold visitAll
    cases store[ni]? with
    | none => trivial
    | some g =>
      intro s
      refine ends_ask fun b1 => ends_ask fun b2 => ?_
      cases b1 <;> cases b2 <;> simp only [if_true, Bool.false_eq_true, if_false]
      · exact hr
      · refine ends_ask fun v => ?_
        cases v with
        | none => exact inferNot_ends hr
        | some q' => exact watchAt_ends hr
      · refine ends_ask fun v => ?_
        cases v with
        | none => exact inferNot_ends hr
        | some q' => exact watchAt_ends hr
      · refine ends_ask fun v => ?_
        cases v with
        | none => trivial
        | some p' =>
          refine ends_ask fun v => ?_
          cases v with
          | none => exact inferNot_ends hr
          | some q' => exact watchAt_ends (watchAt_ends hr)

theorem refined_ends (cell : Cell μ NogoodMem) (me : Nat) : (refined cell me : Prog σ μ PState).Ends (· = .enable) := by
  intro s
  show (if fits s.doms.length (cell.get s.mem).store = true then
      if s.w.inbox[me]?.getD [] = [] then
        setUpAll (.read fun t => .setMem (cell.set { cell.get t.mem with setUp := (cell.get s.mem).store.length } t.mem) (.ret .enable)) (cell.get s.mem).setUp ((cell.get s.mem).store.drop (cell.get s.mem).setUp)
      else visitAll me (cell.get s.mem).store (firedClauses (s.w.inbox[me]?.getD []))
    else .raise .ub : Prog σ μ PState).Ends _
  split
  · split
    · refine setUpAll_ends ?_ _ _
      intro _; exact rfl
    · exact visitAll_ends (P := fun x => x = .enable) rfl _ _ _
  · trivial

/-! ## Watches are armed on literals that are not entailed -/

/-- A position found by `find_unbroken`. -/
theorem found_open {d : Doms} (hd : DomsOK d) (hl : d.length = n) {g : List Cond} (hg : Proper n g) {skip : Option Nat} {p : Nat} (h : findUnbroken d skip 0 g = .ok (some p)) :
    ∃ x, g[p]? = some x ∧ ¬ Entailed d (.cond x) := by
  obtain ⟨i, x, e, hx, _, hn⟩ := (unbroken_spec hd hl skip g 0 (some p) hg h).2 p rfl
  have : p = i := by omega
  subst this
  exact ⟨x, hx, hn⟩

theorem watchAt_arms {g : List Cond} {p ni : Nat} {k : Prog σ μ PState} {d : Doms} (h : ∃ x, g[p]? = some x ∧ ¬ Entailed d (.cond x)) (hk : k.ArmsOpen n d) : (watchAt g p ni k).ArmsOpen n d := by
  obtain ⟨x, hx, hn⟩ := h
  unfold watchAt
  rw [hx]
  exact ⟨hn, hk⟩

theorem inferNot_arms {g : List Cond} {p : Nat} {k : Prog σ μ PState} {d : Doms}
    (hk : ∀ d' x, DomsOK d' → d'.length = n → g[p]? = some x → (∀ b, Within d' b → ¬ x.holds b) → k.ArmsOpen n d') : (inferNot g p k).ArmsOpen n d := by
  unfold inferNot
  cases hx : g[p]? with
  | none => trivial
  | some x =>
    intro d' h1 h2 h3
    exact hk d' x h1 h2 hx fun b hb hh => (Cond.not_holds x b).1 ((h3 b).1 hb).2 hh

theorem setUpAll_arms {k : Prog σ μ PState} (hk : ∀ d, k.ArmsOpen n d) : ∀ (gs : List (List Cond)) (ni : Nat) {d : Doms}, DomsOK d → d.length = n → (∀ g ∈ gs, Proper n g) → (setUpAll k ni gs).ArmsOpen n d
  | [], _, d, _, _, _ => hk d
  | g :: gs, ni, d, hd, hl, h => by
    have hg := h g (by simp)
    have hr : ∀ {d : Doms}, DomsOK d → d.length = n → (setUpAll k (ni + 1) gs).ArmsOpen n d := fun h1 h2 => setUpAll_arms hk gs (ni + 1) h1 h2 fun x hx => h x (by simp [hx])
    unfold setUpAll setUpOne
    refine arms_ask fun v hv => ?_
    cases v with
    | none => trivial
    | some p =>
      refine arms_ask fun v hv' => ?_
      cases v with
      | none =>
        refine inferNot_arms fun d' x h1 h2 hx hn => watchAt_arms ⟨x, hx, fun he => ?_⟩ (hr h1 h2)
        obtain ⟨a, ha⟩ := exists_within h1
        exact hn a ha (he a ha)
      | some q => exact watchAt_arms (found_open hd hl hg hv) (watchAt_arms (found_open hd hl hg hv') (hr hd hl))

theorem visitAll_arms (me : Nat) {store : List (List Cond)} (h : ∀ g ∈ store, Proper n g) : ∀ (nis : List Nat) {d : Doms}, DomsOK d → d.length = n → (visitAll me store nis : Prog σ μ PState).ArmsOpen n d
  | [], _, _, _ => trivial
  | ni :: nis, d, hd, hl => by
    have hr : ∀ {d : Doms}, DomsOK d → d.length = n → (visitAll me store nis : Prog σ μ PState).ArmsOpen n d := fun h1 h2 => visitAll_arms me h nis h1 h2
    unfold visitAll
    cases hs : store[ni]? with
    | none => trivial
    | some g =>
      have hg := h g (List.mem_of_getElem? hs)
      intro s _
      refine arms_ask fun b1 _ => arms_ask fun b2 _ => ?_
      cases b1 <;> cases b2 <;> simp only [if_true, Bool.false_eq_true, if_false]
      · exact hr hd hl
      · refine arms_ask fun v hv => ?_
        cases v with
        | none => exact inferNot_arms fun d' x h1 h2 _ _ => hr h1 h2
        | some q' => exact watchAt_arms (found_open hd hl hg hv) (hr hd hl)
      · refine arms_ask fun v hv => ?_
        cases v with
        | none => exact inferNot_arms fun d' x h1 h2 _ _ => hr h1 h2
        | some q' => exact watchAt_arms (found_open hd hl hg hv) (hr hd hl)
      · refine arms_ask fun v hv => ?_
        cases v with
        | none => trivial
        | some p' =>
          refine arms_ask fun v hv' => ?_
          cases v with
          | none => exact inferNot_arms fun d' x h1 h2 _ _ => hr h1 h2
          | some q' => exact watchAt_arms (found_open hd hl hg hv) (watchAt_arms (found_open hd hl hg hv') (hr hd hl))

theorem refined_arms (cell : Cell μ NogoodMem) (me : Nat) {d : Doms} (hd : DomsOK d) (hl : d.length = n) : (refined cell me : Prog σ μ PState).ArmsOpen n d := by
  intro s hs
  show (if fits s.doms.length (cell.get s.mem).store = true then
      if s.w.inbox[me]?.getD [] = [] then
        setUpAll (.read fun t => .setMem (cell.set { cell.get t.mem with setUp := (cell.get s.mem).store.length } t.mem) (.ret .enable)) (cell.get s.mem).setUp ((cell.get s.mem).store.drop (cell.get s.mem).setUp)
      else visitAll me (cell.get s.mem).store (firedClauses (s.w.inbox[me]?.getD []))
    else .raise .ub : Prog σ μ PState).ArmsOpen n d
  split
  · rename_i hfit
    rw [hs, hl, fits_iff] at hfit
    split
    · refine setUpAll_arms ?_ _ _ hd hl fun g hg => (hfit.2 g (List.mem_of_mem_drop hg)).2
      intro _ _ _; trivial
    · exact visitAll_arms me (fun g hg => (hfit.2 g hg).2) _ hd hl
  · trivial

end Nogoods

/-! ## What others leave alone -/

theorem clear_keeps : ∀ (scope : List Nat) {w w' : Watches} {owner : Nat}, w.clear owner scope = .ok w' →
    (∀ v, ∀ x ∈ armed w v, x.owner ≠ owner → x ∈ armed w' v) ∧ w'.wstate = w.wstate
  | [], w, w', owner, e => by cases e; exact ⟨fun _ _ h _ => h, rfl⟩
  | u :: vs, w, w', owner, e => by
    unfold Watches.clear at e
    cases hc : w.clearVar owner u with
    | error e' => rw [hc] at e; cases e
    | ok w1 =>
      rw [hc] at e
      obtain ⟨h1, h2⟩ := clear_keeps vs (show Watches.clear w1 owner vs = _ from e)
      unfold Watches.clearVar at hc
      cases hb : w.byVar[u]? with
      | none => simp [hb, pure, Except.pure] at hc; subst hc; exact ⟨h1, h2⟩
      | some ws =>
        cases hr : Watches.removeLoop (fun x => .ok (x.owner = owner)) 0 ws with
        | error e' => simp [hb, hr, bind, Except.bind] at hc
        | ok r =>
          simp [hb, hr, bind, Except.bind, pure, Except.pure] at hc
          subst hc
          have hlt : u < w.byVar.length := (List.getElem?_eq_some_iff.1 hb).1
          refine ⟨fun v x hx hne => h1 v x ?_ hne, h2⟩
          have := armed_set (w := { w with trail := (r.2.map (fun x => ⟨false, u, x⟩)).reverse ++ w.trail }) (v := u) hlt r.1 v
          show x ∈ armed { w with byVar := w.byVar.set u r.1, trail := (r.2.map (fun x => ⟨false, u, x⟩)).reverse ++ w.trail } v
          rw [this]
          split
          · next hv =>
            subst hv
            obtain ⟨k1, _, k3, _⟩ := Watches.removeLoop_ok _ _ _ hr
            have hx' : x ∈ ws := by unfold armed at hx; rw [hb] at hx; exact hx
            rcases List.mem_append.1 (k1.mem_iff.2 hx') with h | h
            · exact h
            · have := k3 x h
              simp at this
              exact absurd this hne
          · exact hx

/-- A run of one propagator leaves the watches and notes of the others alone, however it ends. -/
theorem other_run {c : Ctx} {me : Nat} (hne : c.owner ≠ me) : ∀ (p : Prog σ μ α) (s : Sys σ μ) r s', runProg c p s = .ok (r, s') →
    (∀ v, ∀ x ∈ armed s.w v, x.owner = me → x ∈ armed s'.w v) ∧ ∀ i, s'.w.stateGet me i = s.w.stateGet me i
  | .ret x, s, r, s', e => by cases e; exact ⟨fun _ _ h _ => h, fun _ => rfl⟩
  | .raise e, s, _, _, e' => nomatch e'
  | .fail, s, r, s', e => by cases e; exact ⟨fun _ _ h _ => h, fun _ => rfl⟩
  | .read k, s, r, s', e => other_run hne (k s) s r s' e
  | .infer l o k, s, r, s', e => by
    have tw : ∀ i (st : State σ Callback), (s.track i l st).1.w = s.w := by intro i st; cases i <;> rfl
    unfold runProg at e
    split at e
    · exact other_run hne (k false) s r s' e
    · cases hi : s.st.infer l with
      | error e' => rw [hi] at e; cases e
      | ok x =>
        rw [hi] at e
        simp only at e
        split at e
        · have := other_run hne (k true) _ r s' e
          rw [tw] at this; exact this
        · split at e
          · have := other_run hne (k false) _ r s' e
            rw [tw] at this; exact this
          · cases e
            rw [tw]; exact ⟨fun _ _ h _ => h, fun _ => rfl⟩
  | .progress k, s, r, s', e => by
    have := other_run hne (k s.tr.madeProgress) { s with tr := { s.tr with madeProgress := false } } r s' e
    exact this
  | .watch l p k, s, r, s', e => by
    obtain ⟨h1, h2⟩ := other_run hne k _ r s' (show runProg c k { s with w := s.w.register c.owner l p true } = _ from e)
    exact ⟨fun v x hx ho => h1 v x (Nogoods.register_keeps _ _ _ _ hx) ho, fun i => (h2 i).trans (Nogoods.register_stateGet _ _ _ _ _ _)⟩
  | .clearWatches k, s, r, s', e => by
    unfold runProg at e
    cases hc : s.w.clear c.owner c.scope with
    | error e' => rw [hc] at e; cases e
    | ok w =>
      rw [hc] at e
      obtain ⟨h1, h2⟩ := other_run hne k _ r s' e
      obtain ⟨k1, k2⟩ := clear_keeps _ hc
      refine ⟨fun v x hx ho => h1 v x (k1 v x hx (by rw [ho]; exact hne.symm)) ho, fun i => (h2 i).trans ?_⟩
      show w.stateGet me i = s.w.stateGet me i
      rw [stateGet_eq, stateGet_eq, k2]
  | .setWatchState a b k, s, r, s', e => by
    obtain ⟨h1, h2⟩ := other_run hne k _ r s' (show runProg c k { s with w := s.w.stateSet c.owner a b } = _ from e)
    refine ⟨h1, fun i => (h2 i).trans ?_⟩
    show (s.w.stateSet c.owner a b).stateGet me i = _
    rw [Nogoods.stateGet_set, if_neg]
    rintro ⟨h, _⟩; exact hne h.symm
  | .setState h v k, s, r, s', e => by
    unfold runProg at e
    cases hc : s.st.setConstraintState h v with
    | error e' => rw [hc] at e; cases e
    | ok st =>
      rw [hc] at e
      have := other_run hne k { s with st := st } r s' e
      exact this
  | .setMem x k, s, r, s', e => by
    have := other_run hne k { s with mem := x } r s' e
    exact this

end
end Gcs
