import Verif.Model.Cons.Logical
import Verif.Lemmas.Cons.Reified

/-!
# And, Or, ParityOdd
-/

namespace Gcs

theorem exists_cons {α : Type} {p : α → Prop} {x : α} {xs : List α} : (∃ y ∈ x :: xs, p y) ↔ p x ∨ ∃ y ∈ xs, p y := by simp

/-- Variables that decide a literal. -/
def Lit.vars : Lit → List VarId
  | .cond c => [c.var]
  | _ => []

def Lit.Fine (n : Nat) (l : Lit) : Prop := l.Valid n ∧ l.RangeOK

theorem Lit.Fine.not {n : Nat} {l : Lit} (h : l.Fine n) : l.not.Fine n := ⟨h.1.not, h.2.not⟩

theorem Lit.not_vars (l : Lit) : l.not.vars = l.vars := by
  cases l with
  | tt => rfl
  | ff => rfl
  | cond c => obtain ⟨v, op, x, u⟩ := c; cases op <;> rfl

theorem lit_known {d : Doms} {l : Lit} (h : ∀ x ∈ l.vars, Known d x) (hd : DomsOK d) : (∀ a, Within d a → l.holds a) ∨ ∀ a, Within d a → ¬ l.holds a := by
  cases l with
  | tt => exact .inl fun _ _ => trivial
  | ff => exact .inr fun _ _ h => h
  | cond c => exact cond_known (h c.var (by simp [Lit.vars])) hd

theorem answer_known {d : Doms} {l : Lit} {r : LiteralIs} (hd : DomsOK d) (h : ∀ x ∈ l.vars, Known d x) (hr : AnswerRight d l r) : r ≠ .undecided := by
  rintro rfl
  rcases lit_known h hd with k | k
  · cases hr.1.2 k
  · cases hr.2.2 k

theorem foldl_addFor_refined (ls : List Lit) (t : Triggers) : (ls.foldl Triggers.addFor t).refined = t.refined := by
  induction ls generalizing t with
  | nil => rfl
  | cons l ls ih => rw [List.foldl_cons, ih, addFor_refined]

theorem foldl_addFor_keeps {ls : List Lit} {t : Triggers} {y : VarId} (h : y ∈ t.onChange ∨ y ∈ t.onBounds ∨ y ∈ t.onInstantiated) :
    y ∈ (ls.foldl Triggers.addFor t).onChange ∨ y ∈ (ls.foldl Triggers.addFor t).onBounds ∨ y ∈ (ls.foldl Triggers.addFor t).onInstantiated := by
  induction ls generalizing t with
  | nil => exact h
  | cons l ls ih =>
    rw [List.foldl_cons]
    refine ih ?_
    cases l with
    | tt => exact h
    | ff => exact h
    | cond c =>
      simp only [Triggers.addFor]
      split <;> rcases h with h | h | h <;> simp [h]

theorem addFor_has {l : Lit} {t : Triggers} {x : VarId} (hx : x ∈ l.vars) : x ∈ (t.addFor l).onChange ∨ x ∈ (t.addFor l).onBounds ∨ x ∈ (t.addFor l).onInstantiated := by
  cases l with
  | tt => cases hx
  | ff => cases hx
  | cond c =>
    have : x = c.var := by simpa [Lit.vars] using hx
    subst this
    rcases wakes_cond (t := t) c with h | h
    · exact .inl h
    · exact .inr (.inl h)

theorem foldl_addFor_has {ls : List Lit} {t : Triggers} {l : Lit} (hl : l ∈ ls) {x : VarId} (hx : x ∈ l.vars) :
    x ∈ (ls.foldl Triggers.addFor t).onChange ∨ x ∈ (ls.foldl Triggers.addFor t).onBounds ∨ x ∈ (ls.foldl Triggers.addFor t).onInstantiated := by
  induction ls generalizing t with
  | nil => cases hl
  | cons k ls ih =>
    rw [List.foldl_cons]
    rcases List.mem_cons.1 hl with rfl | h
    · exact foldl_addFor_keeps (addFor_has hx)
    · exact ih h

theorem wakes_lits (ls : List Lit) : Wakes (ls.foldl Triggers.addFor {}) (ls.flatMap Lit.vars) := by
  intro x hx v hv
  obtain ⟨l, hl, hx⟩ := List.mem_flatMap.1 hx
  exact ⟨x, foldl_addFor_has hl hx, hv⟩

namespace Logical

section
variable {σ μ : Type} {n m : Nat} {R : Err → Prop} {root d : Doms} {lits : List Lit} {full : Lit}

/-- What the scan of the literals finds when the reification is false. -/
theorem scanOff_spec (hd : DomsOK d) : ∀ (ls : List Lit) (f : Bool) (u : Option Lit), (∀ l ∈ ls, l.Fine d.length) →
    RightOrOverflow (scanOff d f u ls) (fun
      | none => ∃ l ∈ u.toList ++ ls, ¬ (∀ a, Within d a → l.holds a) ∧ ¬ (∀ a, Within d a → ¬ l.holds a)
      | some (f', u') => (f' = true ↔ f = true ∨ ∃ l ∈ ls, ∀ a, Within d a → ¬ l.holds a) ∧ (∀ v, u' = some v → u = some v ∨ v ∈ ls) ∧
        (f' = false → ∀ l ∈ ls, u' = some l ∨ ∀ a, Within d a → l.holds a) ∧ (∀ v, u = some v → u' = some v) ∧
        ((∀ l ∈ ls, ∀ x ∈ l.vars, Known d x) → u' = u))
  | [], f, u, _ => .pure ⟨by simp, fun v h => .inl h, by simp, fun _ h => h, fun _ => rfl⟩
  | l :: ls, f, u, h => by
    refine (testLiteral_spec d l hd (h l List.mem_cons_self).1 (h l List.mem_cons_self).2).bind fun r hr => ?_
    have hls : ∀ k ∈ ls, k.Fine d.length := fun k hk => h k (List.mem_cons_of_mem _ hk)
    cases r with
    | definitelyTrue =>
      refine (scanOff_spec hd ls f u hls).mono fun o ho => ?_
      have ht := hr.1.1 rfl
      have hf : ¬ ∀ a, Within d a → ¬ l.holds a := fun k => by obtain ⟨a, ha⟩ := exists_within hd; exact k a ha (ht a ha)
      match o, ho with
      | none, ⟨k, k1, k2⟩ => exact ⟨k, by simp only [List.mem_append, List.mem_cons] at k1 ⊢; rcases k1 with k1 | k1 <;> simp [k1], k2⟩
      | some (f', u'), ⟨k1, k2, k3, k4, k5⟩ =>
        refine ⟨by rw [k1]; simp [hf], fun v hv => (k2 v hv).imp id (List.mem_cons_of_mem _), fun e => List.forall_mem_cons.2 ⟨.inr ht, k3 e⟩, k4, fun hk => k5 fun k hm => hk k (List.mem_cons_of_mem _ hm)⟩
    | definitelyFalse =>
      refine (scanOff_spec hd ls true u hls).mono fun o ho => ?_
      have hf := hr.2.1 rfl
      match o, ho with
      | none, ⟨k, k1, k2⟩ => exact ⟨k, by simp only [List.mem_append, List.mem_cons] at k1 ⊢; rcases k1 with k1 | k1 <;> simp [k1], k2⟩
      | some (f', u'), ⟨k1, k2, k3, k4, k5⟩ =>
        have ht : f' = true := k1.2 (.inl rfl)
        refine ⟨⟨fun _ => .inr ⟨l, List.mem_cons_self, hf⟩, fun _ => ht⟩, fun v hv => (k2 v hv).imp id (List.mem_cons_of_mem _), fun e => (by rw [ht] at e; cases e), k4, fun hk => k5 fun k hm => hk k (List.mem_cons_of_mem _ hm)⟩
    | undecided =>
      have hu : ¬ (∀ a, Within d a → l.holds a) ∧ ¬ (∀ a, Within d a → ¬ l.holds a) := ⟨fun k => (nomatch hr.1.2 k), fun k => (nomatch hr.2.2 k)⟩
      cases u with
      | some v => exact .pure ⟨l, by simp, hu⟩
      | none =>
        refine (scanOff_spec hd ls f (some l) hls).mono fun o ho => ?_
        match o, ho with
        | none, ⟨k, k1, k2⟩ => exact ⟨k, by simpa using k1, k2⟩
        | some (f', u'), ⟨k1, k2, k3, k4, k5⟩ =>
          have := k4 l rfl
          refine ⟨by rw [k1]; simp [hu.2], fun v hv => ?_, fun e => List.forall_mem_cons.2 ⟨.inl this, k3 e⟩, by rintro v ⟨⟩, fun hk => ?_⟩
          · rcases k2 v hv with h | h
            · cases h; exact .inr List.mem_cons_self
            · exact .inr (List.mem_cons_of_mem _ h)
          · exact absurd rfl (answer_known hd (hk l List.mem_cons_self) hr)

theorem scanOpen_spec (hd : DomsOK d) : ∀ (ls : List Lit) (f : Option Lit) (t : Bool), (∀ l ∈ ls, l.Fine d.length) →
    RightOrOverflow (scanOpen d f t ls) (fun o => (o.1.isSome = true ↔ f.isSome = true ∨ ∃ l ∈ ls, ∀ a, Within d a → ¬ l.holds a) ∧
      (o.2 = true ↔ t = true ∧ ∀ l ∈ ls, ∀ a, Within d a → l.holds a))
  | [], f, t, _ => .pure (by simp)
  | l :: ls, f, t, h => by
    refine (testLiteral_spec d l hd (h l List.mem_cons_self).1 (h l List.mem_cons_self).2).bind fun r hr => ?_
    have hls : ∀ k ∈ ls, k.Fine d.length := fun k hk => h k (List.mem_cons_of_mem _ hk)
    have ex : ¬ ((∀ a, Within d a → l.holds a) ∧ ∀ a, Within d a → ¬ l.holds a) := fun k => by obtain ⟨a, ha⟩ := exists_within hd; exact k.2 a ha (k.1 a ha)
    cases r with
    | definitelyTrue =>
      have ht := hr.1.1 rfl
      refine (scanOpen_spec hd ls f t hls).mono fun o ⟨k1, k2⟩ => ⟨?_, ?_⟩
      · rw [k1, exists_cons]
        exact or_congr_right ⟨.inr, fun h => h.resolve_left fun hf => ex ⟨ht, hf⟩⟩
      · rw [k2, List.forall_mem_cons]
        exact and_congr_right fun _ => ⟨fun h => ⟨ht, h⟩, fun h => h.2⟩
    | definitelyFalse =>
      have hf := hr.2.1 rfl
      refine (scanOpen_spec hd ls (some l) false hls).mono fun o ⟨k1, k2⟩ => ⟨?_, ?_⟩
      · exact ⟨fun _ => .inr ⟨l, List.mem_cons_self, hf⟩, fun _ => k1.2 (.inl rfl)⟩
      · rw [k2, List.forall_mem_cons]
        exact ⟨fun h => (nomatch h.1), fun h => absurd ⟨h.2.1, hf⟩ ex⟩
    | undecided =>
      refine (scanOpen_spec hd ls f false hls).mono fun o ⟨k1, k2⟩ => ⟨?_, ?_⟩
      · rw [k1, exists_cons]
        exact or_congr_right ⟨.inr, fun h => h.resolve_left fun hf => (nomatch hr.2.2 hf)⟩
      · rw [k2, List.forall_mem_cons]
        exact ⟨fun h => (nomatch h.1), fun h => (nomatch hr.1.2 h.2.1)⟩

theorem prop_enforces (ho : R .overflow) (hls : ∀ l ∈ lits, l.Fine n) (hf : full.Fine n) :
    Enforces n m R root (fun a => full.holds a ↔ ∀ l ∈ lits, l.holds a) (lits.flatMap Lit.vars ++ full.vars) (prop (σ := σ) (μ := μ) lits full) := by
  intro d hd hl
  subst hl
  refine ver_ask (f := (testLiteral · full)) ho (testLiteral_spec d full hd hf.1 hf.2) fun r hr => ?_
  have ex : ∀ {p : Asg → Prop}, (∀ a, Within d a → p a) → ¬ ∀ a, Within d a → ¬ p a := fun h k => by obtain ⟨a, ha⟩ := exists_within hd; exact k a ha (h a ha)
  cases r with
  | definitelyTrue =>
    have ht := hr.1.1 rfl
    refine ver_seq (S := fun _ => False) hd rfl (fun _ h => h) (ver_tells (lit := id) hd rfl lits (fun l h => (hls l h).1) fun l h a ha hc => (hc.2.1 (ht a ha)) l h) fun _ d' _ _ _ hq => ?_
    have all : ∀ a, Within d' a → Within root a → (full.holds a ↔ ∀ l ∈ lits, l.holds a) := fun a ha _ => ⟨fun _ => ((hq a).1 ha).2, fun _ => ht a ((hq a).1 ha).1⟩
    exact ⟨fun _ => all, fun _ _ => all, fun _ => all⟩
  | definitelyFalse =>
    have hff := hr.2.1 rfl
    refine ver_ask (f := (scanOff · false none lits)) ho (scanOff_spec hd lits false none hls) fun o hs => ?_
    match o, hs with
    | none, ⟨l, h1, h2, h3⟩ =>
      refine Enforced.intro (fun h => ?_) (by rintro ⟨⟩) (by rintro ⟨⟩)
      have hm : l ∈ lits := by simpa using h1
      rcases lit_known (l := l) (fun x hx => h x (List.mem_append_left _ (List.mem_flatMap.2 ⟨l, hm, hx⟩))) hd with k | k
      · exact absurd k h2
      · exact absurd k h3
    | some (true, u), ⟨k1, _⟩ =>
      obtain ⟨l, hl, hk⟩ := (k1.1 rfl).resolve_left (by simp)
      have all : ∀ a, Within d a → Within root a → (full.holds a ↔ ∀ l ∈ lits, l.holds a) := fun a ha _ => ⟨fun h => absurd h (hff a ha), fun h => absurd (h l hl) (hk a ha)⟩
      exact ⟨fun _ => all, fun _ _ => all, fun _ => all⟩
    | some (false, none), ⟨_, _, k3, _⟩ =>
      refine ver_tell (l := .ff) trivial (fun a ha hc => hff a ha (hc.2.2 fun l hl => ((k3 rfl l hl).resolve_left (by simp)) a ha)) fun d' _ _ h3 => ?_
      have all : ∀ a, Within d' a → Within root a → (full.holds a ↔ ∀ l ∈ lits, l.holds a) := fun a ha _ => ((h3 a).1 ha).2.elim
      exact ⟨fun _ => all, fun _ _ => all, fun _ => all⟩
    | some (false, some u), ⟨_, k2, k3, _⟩ =>
      have hu : u ∈ lits := (k2 u rfl).resolve_left (by simp)
      refine ver_tell (hls u hu).1.not (fun a ha hc => ?_) fun d' _ _ h3 => ?_
      · rw [Lit.not_holds]
        intro hh
        refine hff a ha (hc.2.2 fun l hl => ?_)
        rcases k3 rfl l hl with e | e
        · cases e; exact hh
        · exact e a ha
      · have all : ∀ a, Within d' a → Within root a → (full.holds a ↔ ∀ l ∈ lits, l.holds a) := fun a ha _ =>
          ⟨fun h => absurd h (hff a ((h3 a).1 ha).1), fun h => absurd (h u hu) ((Lit.not_holds _ _).1 ((h3 a).1 ha).2)⟩
        exact ⟨fun _ => all, fun _ _ => all, fun _ => all⟩
  | undecided =>
    refine ver_ask (f := (scanOpen · none true lits)) ho (scanOpen_spec hd lits none true hls) fun o hs => ?_
    match o, hs with
    | (some u, b), ⟨k1, _⟩ =>
      obtain ⟨l, hl, hk⟩ := (k1.1 rfl).resolve_left (by simp)
      refine ver_tell hf.1.not (fun a ha hc => ?_) fun d' _ _ h3 => ?_
      · rw [Lit.not_holds]; exact fun hh => hk a ha (hc.2.1 hh l hl)
      · have all : ∀ a, Within d' a → Within root a → (full.holds a ↔ ∀ l ∈ lits, l.holds a) := fun a ha _ =>
          ⟨fun h => absurd h ((Lit.not_holds _ _).1 ((h3 a).1 ha).2), fun h => absurd (h l hl) (hk a ((h3 a).1 ha).1)⟩
        exact ⟨fun _ => all, fun _ _ => all, fun _ => all⟩
    | (none, true), ⟨_, k2⟩ =>
      have ht := (k2.1 rfl).2
      refine ver_tell hf.1 (fun a ha hc => hc.2.2 fun l hl => ht l hl a ha) fun d' _ _ h3 => ?_
      have all : ∀ a, Within d' a → Within root a → (full.holds a ↔ ∀ l ∈ lits, l.holds a) := fun a ha _ => ⟨fun _ l hl => ht l hl a ((h3 a).1 ha).1, fun _ => ((h3 a).1 ha).2⟩
      exact ⟨fun _ => all, fun _ _ => all, fun _ => all⟩
    | (none, false), _ => exact Enforced.intro (fun h => absurd rfl (answer_known hd (fun x hx => h x (List.mem_append_right _ hx)) hr)) (by rintro ⟨⟩) (by rintro ⟨⟩)

theorem install_right (ho : R .overflow) (hd : DomsOK root) (hl : root.length = n) (hls : ∀ l ∈ lits, l.Fine n) (hf : full.Fine n) :
    (Posted.mk (install (σ := σ) (μ := μ) lits full) (fun a => full.holds a ↔ ∀ l ∈ lits, l.holds a) (lits.flatMap Lit.vars ++ full.vars)).Right n m R root (· = .overflow) := by
  subst hl
  have ev := testLiteral_spec root full hd hf.1 hf.2
  refine ⟨fun items hi => ?_, fun e hi => ?_⟩
  · simp only [install] at hi
    obtain ⟨r, hr, hi⟩ := bind_ok hi
    have ev := ev.value hr
    have rest : (if lits.any (· = .ff) then .ok [Item.init .simpleDefinition (Prog.tell full.not)] else .ok [.prop (prop lits full) ((lits.foldl Triggers.addFor {}).addFor full)] : Chk (List (Item σ μ))) = .ok items →
        Posts root.length m R root (fun a => full.holds a ↔ ∀ l ∈ lits, l.holds a) (lits.flatMap Lit.vars ++ full.vars) items := by
      intro hi
      split at hi
      · rename_i h
        cases hi
        obtain ⟨l, h1, h2⟩ := List.any_eq_true.1 h
        have h2 : l = .ff := by simpa using h2
        subst h2
        refine Posts.one' (fun a => ¬ full.holds a) (fun d h3 h4 => ver_tell_last hf.1.not (fun a ha hc => ?_) fun d' _ _ h5 a ha _ => (Lit.not_holds _ _).1 ((h5 a).1 ha).2) fun a ha => ?_
        · rw [Lit.not_holds]; exact fun h => hc.2.1 h _ h1
        · exact ⟨fun hc h => hc.1 h _ h1, fun h => ⟨fun k => absurd k h, fun k => (k _ h1).elim⟩⟩
      · cases hi
        refine Posts.one ⟨_, fun y hy => hy, (prop_enforces ho hls hf).implements (fun _ _ => Iff.rfl) ?_ ?_⟩
        · intro x hx v hv
          rcases List.mem_append.1 hx with h | h
          · obtain ⟨y, hy, e⟩ := wakes_lits lits x h v hv
            exact wakes_addFor full hy e
          · exact ⟨x, addFor_has h, hv⟩
        · rw [addFor_refined, foldl_addFor_refined]
    cases r with
    | definitelyTrue =>
      cases hi
      have ht := ev.1.1 rfl
      refine Posts.one' (fun a => ∀ l ∈ lits, l.holds a) (fun d h3 h4 => ?_) fun a ha => ⟨fun h => h.1 (ht a ha), fun h => ⟨fun _ => h, fun _ => ht a ha⟩⟩
      exact ver_mono (fun _ d' hq a ha _ => ((hq a).1 ha).2) _ _ (ver_tells (lit := id) h3 h4 lits (fun l h => (hls l h).1) fun l h a ha hc => (hc.2.1 (ht a hc.1)) l h)
    | definitelyFalse => exact rest hi
    | undecided => exact rest hi
  · simp only [install] at hi
    rcases bind_error hi with hi | ⟨r, hr, hi⟩
    · rcases ev with ev | ⟨_, ev, _⟩ <;> simp_all
    · cases r <;> simp only [pure, Except.pure] at hi <;> (try split at hi) <;> cases hi

end
end Logical

namespace Parity

section
variable {σ μ : Type} {n m : Nat} {R : Err → Prop} {root d : Doms} {lits : List Lit}

def one (a : Asg) : Option Lit → Nat
  | none => 0
  | some l => if l.holds a then 1 else 0

theorem scan_spec (hd : DomsOK d) : ∀ (ls : List Lit) (k : Nat) (u : Option Lit), (∀ l ∈ ls, l.Fine d.length) →
    RightOrOverflow (scan d k u ls) (fun
      | none => ∃ l ∈ ls, ¬ (∀ a, Within d a → l.holds a) ∧ ¬ (∀ a, Within d a → ¬ l.holds a)
      | some (k', u') => (∀ a, Within d a → k + ls.countP (fun l => decide (l.holds a)) + one a u = k' + one a u') ∧ (∀ v, u' = some v → u = some v ∨ v ∈ ls) ∧
        ((∀ l ∈ ls, ∀ x ∈ l.vars, Known d x) → u' = u))
  | [], k, u, _ => .pure ⟨by simp, fun v h => .inl h, fun _ => rfl⟩
  | l :: ls, k, u, h => by
    refine (testLiteral_spec d l hd (h l List.mem_cons_self).1 (h l List.mem_cons_self).2).bind fun r hr => ?_
    have hls : ∀ k ∈ ls, k.Fine d.length := fun k hk => h k (List.mem_cons_of_mem _ hk)
    cases r with
    | definitelyTrue =>
      refine (scan_spec hd ls (k + 1) u hls).mono fun o ho => ?_
      have ht := hr.1.1 rfl
      match o, ho with
      | none, ⟨k, k1, k2⟩ => exact ⟨k, List.mem_cons_of_mem _ k1, k2⟩
      | some (f', u'), ⟨k1, k2, k5⟩ =>
        refine ⟨fun a ha => ?_, fun v hv => (k2 v hv).imp id (List.mem_cons_of_mem _), fun hk => k5 fun k hm => hk k (List.mem_cons_of_mem _ hm)⟩
        have := k1 a ha
        rw [List.countP_cons_of_pos (by simpa using ht a ha)]; omega
    | definitelyFalse =>
      refine (scan_spec hd ls k u hls).mono fun o ho => ?_
      have hf := hr.2.1 rfl
      match o, ho with
      | none, ⟨k, k1, k2⟩ => exact ⟨k, List.mem_cons_of_mem _ k1, k2⟩
      | some (f', u'), ⟨k1, k2, k5⟩ =>
        refine ⟨fun a ha => ?_, fun v hv => (k2 v hv).imp id (List.mem_cons_of_mem _), fun hk => k5 fun k hm => hk k (List.mem_cons_of_mem _ hm)⟩
        have := k1 a ha
        rw [List.countP_cons_of_neg (by simpa using hf a ha)]; omega
    | undecided =>
      have hu : ¬ (∀ a, Within d a → l.holds a) ∧ ¬ (∀ a, Within d a → ¬ l.holds a) := ⟨fun k => (nomatch hr.1.2 k), fun k => (nomatch hr.2.2 k)⟩
      cases u with
      | some v => exact .pure ⟨l, List.mem_cons_self, hu⟩
      | none =>
        refine (scan_spec hd ls k (some l) hls).mono fun o ho => ?_
        match o, ho with
        | none, ⟨k, k1, k2⟩ => exact ⟨k, List.mem_cons_of_mem _ k1, k2⟩
        | some (f', u'), ⟨k1, k2, k5⟩ =>
          refine ⟨fun a ha => ?_, fun v hv => ?_, fun hk => ?_⟩
          · have := k1 a ha
            rw [List.countP_cons]
            simp only [one, decide_eq_true_eq] at this ⊢
            omega
          · rcases k2 v hv with h | h
            · cases h; exact .inr List.mem_cons_self
            · exact .inr (List.mem_cons_of_mem _ h)
          · exact absurd rfl (answer_known hd (hk l List.mem_cons_self) hr)

theorem prop_enforces (ho : R .overflow) (hls : ∀ l ∈ lits, l.Fine n) :
    Enforces n m R root (fun a => lits.countP (fun l => decide (l.holds a)) % 2 = 1) (lits.flatMap Lit.vars) (prop (σ := σ) (μ := μ) lits) := by
  intro d hd hl
  subst hl
  refine ver_ask (f := (scan · 0 none lits)) ho (scan_spec hd lits 0 none hls) fun o hs => ?_
  match o, hs with
  | none, ⟨l, hm, h2, h3⟩ =>
    refine Enforced.intro (fun h => ?_) (by rintro ⟨⟩) (by rintro ⟨⟩)
    rcases lit_known (l := l) (fun x hx => h x (List.mem_flatMap.2 ⟨l, hm, hx⟩)) hd with k | k
    · exact absurd k h2
    · exact absurd k h3
  | some (k, none), ⟨k1, _⟩ =>
    have key : ∀ a, Within d a → lits.countP (fun l => decide (l.holds a)) = k := fun a ha => by have := k1 a ha; simp [one] at this; exact this
    dsimp only
    split
    · rename_i hk
      have all : ∀ a, Within d a → Within root a → lits.countP (fun l => decide (l.holds a)) % 2 = 1 := fun a ha _ => by rw [key a ha]; exact hk
      exact ⟨fun _ => all, fun _ _ => all, fun _ => all⟩
    · rename_i hk
      exact fun a ha hc => hk (by rw [← key a ha]; exact hc.2)
  | some (k, some u), ⟨k1, k2, _⟩ =>
    have hu : u ∈ lits := (k2 u rfl).resolve_left (by simp)
    have key : ∀ a, Within d a → lits.countP (fun l => decide (l.holds a)) = k + if u.holds a then 1 else 0 := fun a ha => by have := k1 a ha; simp only [one] at this; omega
    dsimp only
    split
    · rename_i hk
      refine ver_tell (hls u hu).1.not (fun a ha hc => ?_) fun d' _ _ h3 => ?_
      · rw [Lit.not_holds]; intro hh
        have h1 := hc.2; have h2 := key a ha
        simp only [if_pos hh] at h2; omega
      · have all : ∀ a, Within d' a → Within root a → lits.countP (fun l => decide (l.holds a)) % 2 = 1 := fun a ha _ => by
          have h2 := key a ((h3 a).1 ha).1
          rw [if_neg ((Lit.not_holds _ _).1 ((h3 a).1 ha).2)] at h2; omega
        exact ⟨fun _ => all, fun _ _ => all, fun _ => all⟩
    · rename_i hk
      refine ver_tell (hls u hu).1 (fun a ha hc => ?_) fun d' _ _ h3 => ?_
      · have h1 := hc.2; have h2 := key a ha
        by_cases hh : u.holds a
        · exact hh
        · simp only [if_neg hh] at h2; omega
      · have all : ∀ a, Within d' a → Within root a → lits.countP (fun l => decide (l.holds a)) % 2 = 1 := fun a ha _ => by
          have h2 := key a ((h3 a).1 ha).1
          rw [if_pos ((h3 a).1 ha).2] at h2; omega
        exact ⟨fun _ => all, fun _ _ => all, fun _ => all⟩

end
end Parity

/-- A constraint that installs one propagator, whatever the domains. -/
theorem right_one {σ μ : Type} {n m : Nat} {R : Err → Prop} {root : Doms} {P : Asg → Prop} {xs : List VarId} {f : Prog σ μ PState} {t : Triggers} {inst : Doms → Chk (List (Item σ μ))}
    (hi : inst root = .ok [.prop f t]) (h : Enforces n m R root P xs f) (hw : Wakes t xs) (ht : t.refined = []) : (Posted.mk inst P xs).Right n m R root (fun _ => False) := by
  refine ⟨fun items e => ?_, fun e he => ?_⟩
  · replace e : inst root = _ := e
    rw [hi] at e; cases e
    exact Posts.one ⟨_, fun y hy => hy, h.implements (fun _ _ => Iff.rfl) hw ht⟩
  · replace he : inst root = _ := he
    rw [hi] at he; cases he

theorem Parity.odd_right {σ μ : Type} {n m : Nat} {R : Err → Prop} {root : Doms} {lits : List Lit} (ho : R .overflow) (hls : ∀ l ∈ lits, l.Fine n) :
    (Posted.mk (Parity.odd (σ := σ) (μ := μ) lits) (fun a => lits.countP (fun l => decide (l.holds a)) % 2 = 1) (lits.flatMap Lit.vars)).Right n m R root (fun _ => False) :=
  right_one rfl (Parity.prop_enforces ho hls) (wakes_lits lits) (foldl_addFor_refined lits {})

end Gcs
