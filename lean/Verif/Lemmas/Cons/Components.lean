import Verif.Lemmas.Cons.Matching

/-!
# Strongly connected components
-/

namespace Gcs.Gac

/-- There is a path. -/
inductive Reach (S : Nat → List Nat) : Nat → Nat → Prop
  | refl (x : Nat) : Reach S x x
  | step {x y z : Nat} : y ∈ S x → Reach S y z → Reach S x z

theorem Reach.trans {S : Nat → List Nat} {x y z : Nat} (h : Reach S x y) (k : Reach S y z) : Reach S x z := by
  induction h with
  | refl => exact k
  | step e _ ih => exact .step e (ih k)

theorem Reach.one {S : Nat → List Nat} {x y : Nat} (h : y ∈ S x) : Reach S x y := .step h (.refl y)

/-- The edge has been taken into account. -/
def Proc (s : Scc) (x y : Nat) : Prop := s.idx y ≠ 0 ∧ (y ∈ s.stack → s.low x ≤ s.idx y)

/-- The edges of the vertices on the path, with the vertex after each. -/
def Pending (S : Nat → List Nat) (s : Scc) : Option Nat → List (Nat × List Nat) → Prop
  | _, [] => True
  | c, f :: fs => (∀ y ∈ S f.1, y ∈ f.2 ∨ c = some y ∨ Proc s f.1 y) ∧ Pending S s (some f.1) fs

theorem Pending.mono {S : Nat → List Nat} {s t : Scc} : ∀ {fs : List (Nat × List Nat)} {c : Option Nat}, (∀ f ∈ fs, ∀ y, Proc s f.1 y → Proc t f.1 y) → Pending S s c fs → Pending S t c fs
  | [], _, _, _ => trivial
  | f :: _, _, h, hp => ⟨fun y hy => (hp.1 y hy).imp id (Or.imp id (h f (.head _) y)), Pending.mono (fun g hg => h g (.tail _ hg)) hp.2⟩

/-- What holds once the vertex at the end of the path has been entered. -/
structure Tarjan (S : Nat → List Nat) (N : Nat) (s : Scc) : Prop where
  seen : ∀ x, s.idx x ≠ 0 → x < N ∧ s.idx x < s.next
  next : 0 < s.next
  sorted : s.stack.Pairwise (fun a b => s.idx b < s.idx a)
  stack : ∀ x ∈ s.stack, s.idx x ≠ 0
  path : s.frames.Pairwise (fun a b => s.idx b.1 < s.idx a.1)
  onStack : ∀ f ∈ s.frames, f.1 ∈ s.stack
  rest : ∀ f ∈ s.frames, ∀ y ∈ f.2, y ∈ S f.1
  pending : Pending S s none s.frames
  fin : ∀ x ∈ s.stack, (∀ f ∈ s.frames, f.1 ≠ x) → ∀ y ∈ S x, Proc s x y
  low : ∀ x ∈ s.stack, s.low x ≤ s.idx x ∧ ∃ y ∈ s.stack, s.idx y = s.low x ∧ Reach S x y
  up : ∀ x ∈ s.stack, (∀ f ∈ s.frames, f.1 ≠ x) → ∀ f ∈ s.frames, s.idx f.1 ≤ s.idx x → ∃ g ∈ s.frames, s.idx f.1 ≤ s.idx g.1 ∧ s.idx g.1 ≤ s.idx x ∧ s.low g.1 ≤ s.low x
  down : ∀ f ∈ s.frames, ∀ x ∈ s.stack, s.idx f.1 ≤ s.idx x → Reach S f.1 x
  home : ∀ x ∈ s.stack, ∃ f ∈ s.frames, s.idx f.1 ≤ s.idx x ∧ Reach S x f.1
  done : ∀ x, s.idx x ≠ 0 → x ∉ s.stack → s.comp x < s.count ∧ ∀ y ∈ S x, s.idx y ≠ 0 ∧ y ∉ s.stack ∧ s.comp y ≤ s.comp x
  same : ∀ x y, s.idx x ≠ 0 → x ∉ s.stack → s.idx y ≠ 0 → y ∉ s.stack → s.comp x = s.comp y → Reach S x y

variable {S : Nat → List Nat} {N : Nat}

theorem Tarjan.inj {s : Scc} (h : Tarjan S N s) {x y : Nat} (hx : x ∈ s.stack) (hy : y ∈ s.stack) (e : s.idx x = s.idx y) : x = y := by
  have key : ∀ l : List Nat, l.Pairwise (fun a b => s.idx b < s.idx a) → x ∈ l → y ∈ l → x = y := by
    intro l hl
    induction hl with
    | nil => nofun
    | cons h _ ih =>
      intro hx hy
      rcases List.mem_cons.1 hx with hx1 | hx1
      · rcases List.mem_cons.1 hy with hy1 | hy1
        · rw [hx1, hy1]
        · have := h y hy1; rw [← hx1] at this; omega
      · rcases List.mem_cons.1 hy with hy1 | hy1
        · have := h x hx1; rw [← hy1] at this; omega
        · exact ih hx1 hy1
  exact key s.stack h.sorted hx hy

/-- The end of the path has the largest index on it. -/
theorem Tarjan.top {s : Scc} {f : Nat × List Nat} {fs : List (Nat × List Nat)} (h : Tarjan S N s) (e : s.frames = f :: fs) : ∀ g ∈ s.frames, s.idx g.1 ≤ s.idx f.1 := by
  intro g hg
  have hp := h.path
  rw [e] at hp hg
  rcases List.mem_cons.1 hg with rfl | hg
  · exact Nat.le_refl _
  · exact Nat.le_of_lt ((List.pairwise_cons.1 hp).1 g hg)

theorem walk_step {s : Scc} {ix : Bool} {v w : Nat} {ws : List Nat} {fs : List (Nat × List Nat)} {low : Nat → Nat} (h : Tarjan S N { s with low := low, frames := (v, w :: ws) :: fs }) (hw : s.idx w ≠ 0) :
    Tarjan S N { s with low := if w ∈ s.stack then put low v (min (low v) (s.link ix low w)) else low, frames := (v, ws) :: fs } := by
  have hv : v ∈ s.stack := h.onStack _ (.head _)
  have hedge : w ∈ S v := h.rest _ (.head _) w (.head _)
  have hlink : w ∈ s.stack → s.link ix low w ≤ s.idx w ∧ ∃ y ∈ s.stack, s.idx y = s.link ix low w ∧ Reach S w y := fun hm => by
    unfold Scc.link
    split
    · exact ⟨Nat.le_refl _, w, hm, rfl, .refl _⟩
    · exact h.low w hm
  generalize hl : (if w ∈ s.stack then put low v (min (low v) (s.link ix low w)) else low) = low'
  have hle : ∀ x, low' x ≤ low x := fun x => by
    subst hl
    split
    · by_cases e : x = v
      · rw [e, put_same]; omega
      · rw [put_ne _ _ e]; exact Nat.le_refl _
    · exact Nat.le_refl _
  have hne : ∀ x, x ≠ v → low' x = low x := fun x hx => by
    subst hl
    split
    · rw [put_ne _ _ hx]
    · rfl
  have hwv : w ∈ s.stack → low' v ≤ s.link ix low w := fun hm => by
    subst hl
    rw [if_pos hm, put_same]
    omega
  have hmem : ∀ f, f ∈ (v, ws) :: fs → ∃ g ∈ (v, w :: ws) :: fs, g.1 = f.1 := fun f hf => by
    rcases List.mem_cons.1 hf with rfl | hf
    · exact ⟨_, .head _, rfl⟩
    · exact ⟨f, .tail _ hf, rfl⟩
  have hmem' : ∀ f, f ∈ (v, w :: ws) :: fs → ∃ g ∈ (v, ws) :: fs, g.1 = f.1 := fun f hf => by
    rcases List.mem_cons.1 hf with rfl | hf
    · exact ⟨_, .head _, rfl⟩
    · exact ⟨f, .tail _ hf, rfl⟩
  have proc : ∀ x y, Proc { s with low := low, frames := (v, w :: ws) :: fs } x y → Proc { s with low := low', frames := (v, ws) :: fs } x y := fun x y hp =>
    ⟨hp.1, fun hm => Nat.le_trans (hle x) (hp.2 hm)⟩
  have notv : ∀ x, (∀ f ∈ (v, ws) :: fs, f.1 ≠ x) → ∀ f ∈ (v, w :: ws) :: fs, f.1 ≠ x := fun x hx f hf => by
    obtain ⟨g, hg, e⟩ := hmem' f hf
    rw [← e]; exact hx g hg
  refine { seen := h.seen, next := h.next, sorted := h.sorted, stack := h.stack, path := ?_, onStack := ?_, rest := ?_, pending := ?_, fin := ?_, low := ?_, up := ?_, down := ?_, home := ?_, done := h.done, same := h.same }
  · exact List.pairwise_cons.2 (List.pairwise_cons.1 h.path)
  · intro f hf
    obtain ⟨g, hg, e⟩ := hmem f hf
    rw [← e]; exact h.onStack g hg
  · intro f hf y hy
    rcases List.mem_cons.1 hf with rfl | hf
    · exact h.rest _ (.head _) y (.tail _ hy)
    · exact h.rest f (.tail _ hf) y hy
  · refine ⟨fun y hy => ?_, h.pending.2.mono fun f _ y => proc _ _⟩
    rcases h.pending.1 y hy with h' | h' | h'
    · rcases List.mem_cons.1 h' with rfl | h'
      · exact .inr (.inr ⟨hw, fun hm => Nat.le_trans (hwv hm) (hlink hm).1⟩)
      · exact .inl h'
    · cases h'
    · exact .inr (.inr (proc _ _ h'))
  · intro x hx hn y hy
    exact proc _ _ (h.fin x hx (notv x hn) y hy)
  · intro x hx
    refine ⟨Nat.le_trans (hle x) (h.low x hx).1, ?_⟩
    by_cases e : x = v
    · subst e
      show ∃ y ∈ s.stack, s.idx y = low' x ∧ _
      subst hl
      split
      next hm =>
        rw [put_same]
        rcases Nat.le_total (low x) (s.link ix low w) with h' | h'
        · rw [Nat.min_eq_left h']; exact (h.low x hx).2
        · rw [Nat.min_eq_right h']
          obtain ⟨y, hy, h1, h2⟩ := (hlink hm).2
          exact ⟨y, hy, h1, .step hedge h2⟩
      next => exact (h.low x hx).2
    · show ∃ y ∈ s.stack, s.idx y = low' x ∧ _
      rw [hne x e]
      exact (h.low x hx).2
  · intro x hx hn f hf hle'
    obtain ⟨f', hf', e⟩ := hmem f hf
    obtain ⟨g, hg, h1, h2, h3⟩ := h.up x hx (notv x hn) f' hf' (by rw [e]; exact hle')
    obtain ⟨g', hg', e'⟩ := hmem' g hg
    refine ⟨g', hg', ?_, ?_, ?_⟩
    · rw [e', ← e]; exact h1
    · rw [e']; exact h2
    · show low' g'.1 ≤ low' x
      rw [e', hne x fun e => hn _ (.head _) e.symm]
      exact Nat.le_trans (hle _) h3
  · intro f hf x hx hle'
    obtain ⟨f', hf', e⟩ := hmem f hf
    rw [← e]
    exact h.down f' hf' x hx (by rw [e]; exact hle')
  · intro x hx
    obtain ⟨f, hf, h1, h2⟩ := h.home x hx
    obtain ⟨g, hg, e⟩ := hmem' f hf
    exact ⟨g, hg, by rw [e]; exact h1, by rw [e]; exact h2⟩

theorem walk_spec {s : Scc} {ix : Bool} {v : Nat} {fs : List (Nat × List Nat)} : ∀ (ws : List Nat) (low : Nat → Nat), Tarjan S N { s with low := low, frames := (v, ws) :: fs } →
    ((s.walk ix v ws low).2 = none → Tarjan S N { s with low := (s.walk ix v ws low).1, frames := (v, []) :: fs }) ∧
    ∀ w rest, (s.walk ix v ws low).2 = some (w, rest) → s.idx w = 0 ∧ Tarjan S N { s with low := (s.walk ix v ws low).1, frames := (v, w :: rest) :: fs }
  | [], low, h => ⟨fun _ => h, nofun⟩
  | w :: ws, low, h => by
    simp only [Scc.walk]
    by_cases hw : s.idx w = 0
    · rw [if_pos hw]
      exact ⟨nofun, fun _ _ e => by cases e; exact ⟨hw, h⟩⟩
    · rw [if_neg hw]
      have := walk_spec (ix := ix) ws _ (walk_step (ix := ix) h hw)
      split
      next hm => rw [if_pos hm] at this; exact this
      next hm => rw [if_neg hm] at this; exact this

theorem push_spec {s : Scc} {v w : Nat} {rest : List Nat} {fs : List (Nat × List Nat)} (h : Tarjan S N { s with frames := (v, w :: rest) :: fs }) (hw : s.idx w = 0) (hN : w < N) :
    Tarjan S N ({ s with frames := (w, S w) :: (v, rest) :: fs }.arrive w) := by
  have hv : v ∈ s.stack := h.onStack _ (.head _)
  have hedge : w ∈ S v := h.rest _ (.head _) w (.head _)
  have hns : w ∉ s.stack := fun hm => h.stack w hm hw
  have hn := h.next
  have hn' : 0 < s.next := hn
  simp only [Scc.arrive, hw, ↓reduceIte]
  have hidx : ∀ x, x ≠ w → put s.idx w s.next x = s.idx x := fun x hx => put_ne _ _ hx
  have hlow : ∀ x, x ≠ w → put s.low w s.next x = s.low x := fun x hx => put_ne _ _ hx
  have hsne : ∀ x ∈ s.stack, x ≠ w := fun x hx e => hns (e ▸ hx)
  have hlt : ∀ x ∈ s.stack, s.idx x < s.next := fun x hx => (h.seen x (h.stack x hx)).2
  have seenne : ∀ x, s.idx x ≠ 0 → x ≠ w := fun x hx e => hx (e ▸ hw)
  have hmem : ∀ f, f ∈ (v, rest) :: fs → ∃ g ∈ (v, w :: rest) :: fs, g.1 = f.1 := fun f hf => by
    rcases List.mem_cons.1 hf with rfl | hf
    · exact ⟨_, .head _, rfl⟩
    · exact ⟨f, .tail _ hf, rfl⟩
  have hmem' : ∀ f, f ∈ (v, w :: rest) :: fs → ∃ g ∈ (v, rest) :: fs, g.1 = f.1 := fun f hf => by
    rcases List.mem_cons.1 hf with rfl | hf
    · exact ⟨_, .head _, rfl⟩
    · exact ⟨f, .tail _ hf, rfl⟩
  have hfs : ∀ f, f ∈ (v, rest) :: fs → f.1 ∈ s.stack := fun f hf => by
    obtain ⟨g, hg, e⟩ := hmem f hf
    rw [← e]; exact h.onStack g hg
  have proc : ∀ x y, x ≠ w → Proc { s with frames := (v, w :: rest) :: fs } x y →
      Proc { idx := put s.idx w s.next, low := put s.low w s.next, comp := s.comp, stack := w :: s.stack, frames := (w, S w) :: (v, rest) :: fs, next := s.next + 1, count := s.count } x y := by
    intro x y hx hp
    have hy := seenne y hp.1
    refine ⟨?_, fun hm => ?_⟩
    · show put s.idx w s.next y ≠ 0
      rw [hidx y hy]; exact hp.1
    · show put s.low w s.next x ≤ put s.idx w s.next y
      rw [hidx y hy, hlow x hx]
      exact hp.2 ((List.mem_cons.1 hm).resolve_left hy)
  refine { seen := ?_, next := Nat.succ_pos _, sorted := ?_, stack := ?_, path := ?_, onStack := ?_, rest := ?_, pending := ?_, fin := ?_, low := ?_, up := ?_, down := ?_, home := ?_, done := ?_, same := ?_ }
  · intro x hx
    show x < N ∧ put s.idx w s.next x < s.next + 1
    by_cases e : x = w
    · rw [e, put_same]; exact ⟨hN, by omega⟩
    · have hx : put s.idx w s.next x ≠ 0 := hx
      rw [hidx x e] at hx ⊢
      have := h.seen x hx
      exact ⟨this.1, Nat.lt_succ_of_lt this.2⟩
  · refine List.pairwise_cons.2 ⟨fun x hx => ?_, ?_⟩
    · show put s.idx w s.next x < put s.idx w s.next w
      rw [hidx x (hsne x hx), put_same]
      exact hlt x hx
    · refine h.sorted.imp_of_mem fun {a b} ha hb hab => ?_
      show put s.idx w s.next b < put s.idx w s.next a
      rw [hidx a (hsne a ha), hidx b (hsne b hb)]
      exact hab
  · intro x hx
    show put s.idx w s.next x ≠ 0
    rcases List.mem_cons.1 hx with rfl | hx
    · rw [put_same]; omega
    · rw [hidx x (hsne x hx)]; exact h.stack x hx
  · refine List.pairwise_cons.2 ⟨fun f hf => ?_, ?_⟩
    · show put s.idx w s.next f.1 < put s.idx w s.next w
      rw [hidx _ (hsne _ (hfs f hf)), put_same]
      exact hlt _ (hfs f hf)
    · have hp : ((v, rest) :: fs).Pairwise (fun a b => s.idx b.1 < s.idx a.1) := List.pairwise_cons.2 (List.pairwise_cons.1 h.path)
      refine hp.imp_of_mem fun {a b} ha hb hab => ?_
      show put s.idx w s.next b.1 < put s.idx w s.next a.1
      rw [hidx _ (hsne _ (hfs a ha)), hidx _ (hsne _ (hfs b hb))]
      exact hab
  · intro f hf
    rcases List.mem_cons.1 hf with rfl | hf
    · exact .head _
    · exact .tail _ (hfs f hf)
  · intro f hf y hy
    rcases List.mem_cons.1 hf with rfl | hf
    · exact hy
    · rcases List.mem_cons.1 hf with rfl | hf
      · exact h.rest _ (.head _) y (.tail _ hy)
      · exact h.rest f (.tail _ hf) y hy
  · refine ⟨fun y hy => .inl hy, fun y hy => ?_, h.pending.2.mono fun f hf y hp => proc _ _ (hsne _ (hfs f (.tail _ hf))) hp⟩
    rcases h.pending.1 y hy with h' | h' | h'
    · rcases List.mem_cons.1 h' with rfl | h'
      · exact .inr (.inl rfl)
      · exact .inl h'
    · cases h'
    · exact .inr (.inr (proc _ _ (hsne v hv) h'))
  · intro x hx hn y hy
    rcases List.mem_cons.1 hx with rfl | hx
    · exact absurd rfl (hn _ (.head _))
    · refine proc _ _ (hsne x hx) (h.fin x hx (fun f hf => ?_) y hy)
      obtain ⟨g, hg, e⟩ := hmem' f hf
      rw [← e]; exact hn g (.tail _ hg)
  · intro x hx
    show put s.low w s.next x ≤ put s.idx w s.next x ∧ ∃ y ∈ w :: s.stack, put s.idx w s.next y = put s.low w s.next x ∧ Reach S x y
    rcases List.mem_cons.1 hx with rfl | hx
    · rw [put_same, put_same]; exact ⟨Nat.le_refl _, x, .head _, put_same _ _ _, .refl x⟩
    · rw [hidx x (hsne x hx), hlow x (hsne x hx)]
      obtain ⟨h1, y, h2, h3, h4⟩ := h.low x hx
      exact ⟨h1, y, .tail _ h2, by rw [hidx y (hsne y h2)]; exact h3, h4⟩
  · intro x hx hn f hf hle
    rcases List.mem_cons.1 hx with rfl | hx
    · exact absurd rfl (hn _ (.head _))
    have hle : put s.idx w s.next f.1 ≤ put s.idx w s.next x := hle
    rw [hidx x (hsne x hx)] at hle
    rcases List.mem_cons.1 hf with rfl | hf
    · rw [put_same] at hle
      have := hlt x hx
      omega
    · rw [hidx _ (hsne _ (hfs f hf))] at hle
      obtain ⟨f', hf', e⟩ := hmem f hf
      obtain ⟨g, hg, h1, h2, h3⟩ := h.up x hx (fun f hf => by
        obtain ⟨g, hg, e⟩ := hmem' f hf
        rw [← e]; exact hn g (.tail _ hg)) f' hf' (by rw [e]; exact hle)
      obtain ⟨g', hg', e'⟩ := hmem' g hg
      refine ⟨g', .tail _ hg', ?_⟩
      show put s.idx w s.next f.1 ≤ put s.idx w s.next g'.1 ∧ put s.idx w s.next g'.1 ≤ put s.idx w s.next x ∧ put s.low w s.next g'.1 ≤ put s.low w s.next x
      have hgne := hsne _ (hfs g' hg')
      rw [hidx x (hsne x hx), hidx _ hgne, hlow _ hgne, hlow x (hsne x hx), hidx _ (hsne _ (hfs f hf)), e', ← e]
      exact ⟨h1, h2, h3⟩
  · intro f hf x hx hle
    have hle : put s.idx w s.next f.1 ≤ put s.idx w s.next x := hle
    rcases List.mem_cons.1 hf with rfl | hf
    · rw [put_same] at hle
      rcases List.mem_cons.1 hx with rfl | hx
      · exact .refl _
      · rw [hidx x (hsne x hx)] at hle
        have := hlt x hx
        omega
    · obtain ⟨f', hf', e⟩ := hmem f hf
      rcases List.mem_cons.1 hx with rfl | hx
      · refine Reach.trans ?_ (.one hedge)
        rw [← e]
        exact h.down f' hf' v hv (h.top rfl f' hf')
      · rw [hidx x (hsne x hx), hidx _ (hsne _ (hfs f hf))] at hle
        rw [← e]
        exact h.down f' hf' x hx (by rw [e]; exact hle)
  · intro x hx
    rcases List.mem_cons.1 hx with rfl | hx
    · exact ⟨_, .head _, Nat.le_refl _, .refl _⟩
    · obtain ⟨f, hf, h1, h2⟩ := h.home x hx
      obtain ⟨g, hg, e⟩ := hmem' f hf
      refine ⟨g, .tail _ hg, ?_, by rw [e]; exact h2⟩
      show put s.idx w s.next g.1 ≤ put s.idx w s.next x
      rw [hidx x (hsne x hx), hidx _ (hsne _ (hfs g hg)), e]
      exact h1
  · intro x hx hs
    have hx : put s.idx w s.next x ≠ 0 := hx
    have hs : x ∉ w :: s.stack := hs
    rw [List.mem_cons, not_or] at hs
    rw [hidx x hs.1] at hx
    obtain ⟨h1, h2⟩ := h.done x hx hs.2
    refine ⟨h1, fun y hy => ?_⟩
    obtain ⟨h3, h4, h5⟩ := h2 y hy
    have hy' := seenne y h3
    refine ⟨?_, fun hm => h4 ((List.mem_cons.1 hm).resolve_left hy'), h5⟩
    show put s.idx w s.next y ≠ 0
    rw [hidx y hy']; exact h3
  · intro x y hx hsx hy hsy hc
    have hx : put s.idx w s.next x ≠ 0 := hx
    have hy : put s.idx w s.next y ≠ 0 := hy
    have hsx : x ∉ w :: s.stack := hsx
    have hsy : y ∉ w :: s.stack := hsy
    rw [List.mem_cons, not_or] at hsx hsy
    rw [hidx x hsx.1] at hx
    rw [hidx y hsy.1] at hy
    exact h.same x y hx hsx.2 hy hsy.2 hc

/-- What popping does to a stack sorted by index. -/
theorem popTo_spec {idx : Nat → Nat} {v k : Nat} : ∀ (st : List Nat) (comp : Nat → Nat), st.Pairwise (fun a b => idx b < idx a) → v ∈ st →
    ∃ st' comp', popTo v k st comp = .ok (st', comp') ∧ (∀ x, x ∈ st' ↔ x ∈ st ∧ idx x < idx v) ∧ st'.Pairwise (fun a b => idx b < idx a) ∧
      ∀ x, (x ∈ st ∧ idx v ≤ idx x → comp' x = k) ∧ (¬ (x ∈ st ∧ idx v ≤ idx x) → comp' x = comp x)
  | [], _, _, hv => by cases hv
  | w :: ws, comp, hs, hv => by
    obtain ⟨h1, h2⟩ := List.pairwise_cons.1 hs
    simp only [popTo]
    split
    next e =>
      subst e
      refine ⟨ws, _, rfl, fun x => ⟨fun hx => ⟨.tail _ hx, h1 x hx⟩, fun ⟨hx, hl⟩ => (List.mem_cons.1 hx).resolve_left (by rintro rfl; omega)⟩, h2, fun x => ⟨fun ⟨hx, hl⟩ => ?_, fun hn => ?_⟩⟩
      · rcases List.mem_cons.1 hx with rfl | hx
        · rw [put_same]
        · have := h1 x hx; omega
      · refine put_ne _ _ ?_
        rintro rfl
        exact hn ⟨.head _, Nat.le_refl _⟩
    next e =>
      have hv' : v ∈ ws := (List.mem_cons.1 hv).resolve_left fun h => e h.symm
      obtain ⟨st', comp', h3, h4, h5, h6⟩ := popTo_spec ws (put comp w k) h2 hv'
      refine ⟨st', comp', h3, fun x => ?_, h5, fun x => ⟨fun ⟨hx, hl⟩ => ?_, fun hn => ?_⟩⟩
      · rw [h4, List.mem_cons]
        refine ⟨fun ⟨a, b⟩ => ⟨.inr a, b⟩, fun ⟨a, b⟩ => ⟨a.resolve_left ?_, b⟩⟩
        rintro rfl
        have := h1 v hv'
        omega
      · by_cases hm : x ∈ ws
        · exact (h6 x).1 ⟨hm, hl⟩
        · rw [(h6 x).2 fun h => hm h.1, (List.mem_cons.1 hx).resolve_right hm, put_same]
      · have hne : x ≠ w := by
          rintro rfl
          exact hn ⟨.head _, Nat.le_of_lt (h1 v hv')⟩
        rw [(h6 x).2 fun h => hn ⟨.tail _ h.1, h.2⟩, put_ne _ _ hne]

theorem leave_low {s : Scc} {v : Nat} {fs : List (Nat × List Nat)} {low : Nat → Nat}
    (hl : low = match fs with
      | [] => s.low
      | u :: _ => put s.low u.1 (min (s.low u.1) (s.low v))) :
    (∀ x, low x ≤ s.low x) ∧ (∀ x, (∀ f ∈ fs, f.1 ≠ x) → low x = s.low x) ∧ (∀ u us, fs = u :: us → low u.1 = min (s.low u.1) (s.low v) ∧ ∀ x, x ≠ u.1 → low x = s.low x) := by
  subst hl
  cases fs with
  | nil => exact ⟨fun _ => Nat.le_refl _, fun _ _ => rfl, nofun⟩
  | cons u us =>
    refine ⟨fun x => ?_, fun x hx => put_ne _ _ (hx u (.head _)).symm, fun u' us' e => ?_⟩
    · dsimp only
      by_cases e : x = u.1
      · rw [e, put_same]; omega
      · rw [put_ne _ _ e]; exact Nat.le_refl _
    · cases e
      exact ⟨put_same _ _ _, fun x hx => put_ne _ _ hx⟩

theorem leave_spec {s : Scc} {v : Nat} {fs : List (Nat × List Nat)} (h : Tarjan S N { s with frames := (v, []) :: fs }) :
    ∃ t, s.leave v fs = .ok t ∧ Tarjan S N t ∧ t.frames = fs ∧ t.idx = s.idx := by
  have hv : v ∈ s.stack := h.onStack _ (.head _)
  obtain ⟨hpv, hpath⟩ := List.pairwise_cons.1 h.path
  have hpv : ∀ f ∈ fs, s.idx f.1 < s.idx v := hpv
  have hvle := (h.low v hv).1
  have hvproc : ∀ y ∈ S v, Proc s v y := fun y hy => by
    rcases h.pending.1 y hy with h' | h' | h'
    · cases h'
    · cases h'
    · exact h'
  have htop : ∀ f ∈ (v, []) :: fs, s.idx f.1 ≤ s.idx v := h.top rfl
  by_cases hroot : s.low v = s.idx v
  · -- a component
    obtain ⟨st, comp, h1, h2, h3, h4⟩ := popTo_spec (idx := s.idx) (v := v) (k := s.count) s.stack s.comp h.sorted hv
    obtain ⟨low, hlow⟩ : ∃ low, low = match fs with
      | [] => s.low
      | u :: _ => put s.low u.1 (min (s.low u.1) (s.low v)) := ⟨_, rfl⟩
    have hleave : s.leave v fs = .ok { s with stack := st, comp := comp, count := s.count + 1, frames := fs, low := low } := by
      subst hlow
      simp only [Scc.leave, hroot, ↓reduceIte, h1, bind, Except.bind, pure, Except.pure]
      cases fs <;> rfl
    refine ⟨_, hleave, ?_, rfl, rfl⟩
    -- the parent keeps its lowlink
    obtain ⟨_, hne, hpar⟩ := leave_low hlow
    have hsame : ∀ x ∈ s.stack, low x = s.low x := fun x hx => by
      cases fs with
      | nil => exact hne x nofun
      | cons u us =>
        obtain ⟨h5, h6⟩ := hpar u us rfl
        by_cases e : x = u.1
        · subst e
          rw [h5]
          have := hpv u (.head _)
          have h' : s.low u.1 ≤ s.idx u.1 := (h.low _ hx).1
          rw [hroot]; omega
        · exact h6 x e
    have hsub : ∀ x ∈ st, x ∈ s.stack := fun x hx => ((h2 x).1 hx).1
    have hbelow : ∀ x ∈ st, s.idx x < s.idx v := fun x hx => ((h2 x).1 hx).2
    have hfst : ∀ f ∈ fs, f.1 ∈ st := fun f hf => (h2 _).2 ⟨h.onStack f (.tail _ hf), hpv f hf⟩
    have popped : ∀ x ∈ s.stack, x ∉ st → s.idx v ≤ s.idx x := fun x hx hn => Nat.le_of_not_lt fun hl => hn ((h2 x).2 ⟨hx, hl⟩)
    -- everything popped is joined to `v`
    have tov : ∀ x ∈ s.stack, s.idx v ≤ s.idx x → Reach S x v ∧ Reach S v x := fun x hx hle => by
      refine ⟨?_, h.down _ (.head _) x hx hle⟩
      obtain ⟨f, hf, _, h6⟩ := h.home x hx
      exact h6.trans (h.down f hf v hv (htop f hf))
    -- and keeps to itself
    have inside : ∀ x ∈ s.stack, s.idx v ≤ s.idx x → ∀ y ∈ S x, s.idx y ≠ 0 ∧ (y ∈ s.stack → s.idx v ≤ s.idx y) := fun x hx hle y hy => by
      by_cases e : x = v
      · subst e
        have := hvproc y hy
        exact ⟨this.1, fun hm => by have := this.2 hm; omega⟩
      · have hn : ∀ f ∈ (v, []) :: fs, f.1 ≠ x := by
          intro f hf he
          subst he
          have := htop f hf
          exact e (h.inj hx hv (Nat.le_antisymm this hle))
        have hp := h.fin x hx hn y hy
        refine ⟨hp.1, fun hm => ?_⟩
        have h5 : s.low x ≤ s.idx y := hp.2 hm
        obtain ⟨g, hg, h6, _, h8⟩ := h.up x hx hn _ (.head _) hle
        have h6 : s.idx v ≤ s.idx g.1 := h6
        have h8 : s.low g.1 ≤ s.low x := h8
        have : g.1 = v := h.inj (h.onStack g hg) hv (Nat.le_antisymm (htop g hg) h6)
        rw [this] at h8
        omega
    have proc : ∀ x ∈ s.stack, ∀ y, Proc s x y → Proc { s with stack := st, comp := comp, count := s.count + 1, frames := fs, low := low } x y := fun x hx y hp =>
      ⟨hp.1, fun hm => by
        show low x ≤ s.idx y
        rw [hsame x hx]
        exact hp.2 (hsub y hm)⟩
    have notf : ∀ x ∈ st, (∀ f ∈ fs, f.1 ≠ x) → ∀ f ∈ (v, []) :: fs, f.1 ≠ x := fun x hx hn f hf => by
      rcases List.mem_cons.1 hf with rfl | hf
      · rintro rfl
        exact Nat.lt_irrefl _ (hbelow _ hx)
      · exact hn f hf
    have old : ∀ f ∈ (v, []) :: fs, s.idx f.1 < s.idx v → f ∈ fs := fun f hf hl => (List.mem_cons.1 hf).resolve_left (by rintro rfl; exact Nat.lt_irrefl _ hl)
    refine { seen := h.seen, next := h.next, sorted := h3, stack := fun x hx => h.stack x (hsub x hx), path := hpath, onStack := hfst, rest := fun f hf => h.rest f (.tail _ hf), pending := ?_, fin := ?_, low := ?_, up := ?_, down := ?_, home := ?_, done := ?_, same := ?_ }
    · have hp := h.pending.2
      match fs, hp, hfst with
      | [], _, _ => trivial
      | u :: us, hp, hfst =>
        refine ⟨fun y hy => ?_, Pending.mono (s := { s with frames := (v, []) :: u :: us }) (fun f hf y => proc _ (hsub _ (hfst f (.tail _ hf))) y) hp.2⟩
        rcases hp.1 y hy with h' | h' | h'
        · exact .inl h'
        · cases h'
          exact .inr (.inr ⟨h.stack _ hv, fun hm => absurd (hbelow _ hm) (Nat.lt_irrefl _)⟩)
        · exact .inr (.inr (proc _ (hsub _ (hfst u (.head _))) y h'))
    · intro x hx hn y hy
      exact proc x (hsub x hx) y (h.fin x (hsub x hx) (notf x hx hn) y hy)
    · intro x hx
      show low x ≤ s.idx x ∧ ∃ y ∈ st, s.idx y = low x ∧ _
      rw [hsame x (hsub x hx)]
      obtain ⟨h5, y, h6, h7, h8⟩ := h.low x (hsub x hx)
      have h5 : s.low x ≤ s.idx x := h5
      have h7 : s.idx y = s.low x := h7
      have := hbelow x hx
      exact ⟨h5, y, (h2 y).2 ⟨h6, by omega⟩, h7, h8⟩
    · intro x hx hn f hf hle
      obtain ⟨g, hg, h5, h6, h7⟩ := h.up x (hsub x hx) (notf x hx hn) f (.tail _ hf) hle
      have h6 : s.idx g.1 ≤ s.idx x := h6
      have hgf := old g hg (Nat.lt_of_le_of_lt h6 (hbelow x hx))
      refine ⟨g, hgf, h5, h6, ?_⟩
      show low g.1 ≤ low x
      rw [hsame _ (hsub _ (hfst g hgf)), hsame x (hsub x hx)]
      exact h7
    · intro f hf x hx
      exact h.down f (.tail _ hf) x (hsub x hx)
    · intro x hx
      obtain ⟨f, hf, h5, h6⟩ := h.home x (hsub x hx)
      exact ⟨f, old f hf (Nat.lt_of_le_of_lt h5 (hbelow x hx)), h5, h6⟩
    · intro x hx hn
      show comp x < s.count + 1 ∧ ∀ y ∈ S x, s.idx y ≠ 0 ∧ y ∉ st ∧ comp y ≤ comp x
      by_cases hm : x ∈ s.stack
      · have hle := popped x hm hn
        rw [(h4 x).1 ⟨hm, hle⟩]
        refine ⟨Nat.lt_succ_self _, fun y hy => ?_⟩
        obtain ⟨h5, h6⟩ := inside x hm hle y hy
        refine ⟨h5, fun hy' => ?_, ?_⟩
        · have := h6 (hsub y hy')
          have := hbelow y hy'
          omega
        · by_cases hm' : y ∈ s.stack
          · rw [(h4 y).1 ⟨hm', h6 hm'⟩]; exact Nat.le_refl _
          · rw [(h4 y).2 fun h => hm' h.1]
            exact Nat.le_of_lt (h.done y h5 hm').1
      · rw [(h4 x).2 fun h => hm h.1]
        obtain ⟨h5, h6⟩ := h.done x hx hm
        refine ⟨Nat.lt_succ_of_lt h5, fun y hy => ?_⟩
        obtain ⟨h7, h8, h9⟩ := h6 y hy
        refine ⟨h7, fun hm' => h8 (hsub y hm'), ?_⟩
        rw [(h4 y).2 fun h => h8 h.1]
        exact h9
    · intro x y hx hnx hy hny hc
      have hc : comp x = comp y := hc
      by_cases hmx : x ∈ s.stack
      · have hlx := popped x hmx hnx
        rw [(h4 x).1 ⟨hmx, hlx⟩] at hc
        by_cases hmy : y ∈ s.stack
        · exact (tov x hmx hlx).1.trans (tov y hmy (popped y hmy hny)).2
        · rw [(h4 y).2 fun h => hmy h.1] at hc
          have := (h.done y hy hmy).1
          have h' : s.comp y < s.count := this
          omega
      · rw [(h4 x).2 fun h => hmx h.1] at hc
        by_cases hmy : y ∈ s.stack
        · rw [(h4 y).1 ⟨hmy, popped y hmy hny⟩] at hc
          have := (h.done x hx hmx).1
          have h' : s.comp x < s.count := this
          omega
        · rw [(h4 y).2 fun h => hmy h.1] at hc
          exact h.same x y hx hmx hy hmy hc
  · -- a vertex that reaches back
    obtain ⟨low, hlow⟩ : ∃ low, low = match fs with
      | [] => s.low
      | u :: _ => put s.low u.1 (min (s.low u.1) (s.low v)) := ⟨_, rfl⟩
    have hleave : s.leave v fs = .ok { s with frames := fs, low := low } := by
      subst hlow
      simp only [Scc.leave, hroot, ↓reduceIte, bind, Except.bind, pure, Except.pure]
      cases fs <;> rfl
    refine ⟨_, hleave, ?_, rfl, rfl⟩
    obtain ⟨hle, hne, hpar⟩ := leave_low hlow
    -- so the path does not end here
    obtain ⟨y, hy, hy1, hy2⟩ := (h.low v hv).2
    have hy1 : s.idx y = s.low v := hy1
    have hyv : s.idx y < s.idx v := by
      have hvle : s.low v ≤ s.idx v := hvle
      omega
    obtain ⟨f0, hf0, hf1, hf2⟩ := h.home y hy
    have hf1 : s.idx f0.1 ≤ s.idx y := hf1
    have hf0' : f0 ∈ fs := (List.mem_cons.1 hf0).resolve_left (by rintro rfl; dsimp only at hf1; omega)
    obtain ⟨u, us, rfl⟩ : ∃ u us, fs = u :: us := by
      cases fs with
      | nil => cases hf0'
      | cons u us => exact ⟨u, us, rfl⟩
    obtain ⟨hlu, hlne⟩ := hpar u us rfl
    have hust : u.1 ∈ s.stack := h.onStack u (.tail _ (.head _))
    have hutop : ∀ f ∈ u :: us, s.idx f.1 ≤ s.idx u.1 := fun f hf => by
      rcases List.mem_cons.1 hf with rfl | hf
      · exact Nat.le_refl _
      · exact Nat.le_of_lt ((List.pairwise_cons.1 hpath).1 f hf)
    have hvu : Reach S v u.1 := (hy2.trans hf2).trans (h.down f0 hf0 u.1 hust (hutop f0 hf0'))
    have huv := hpv u (.head _)
    have proc : ∀ x y, Proc s x y → Proc { s with frames := u :: us, low := low } x y := fun x y hp => ⟨hp.1, fun hm => Nat.le_trans (hle x) (hp.2 hm)⟩
    refine { seen := h.seen, next := h.next, sorted := h.sorted, stack := h.stack, path := hpath, onStack := fun f hf => h.onStack f (.tail _ hf), rest := fun f hf => h.rest f (.tail _ hf), pending := ?_, fin := ?_, low := ?_, up := ?_, down := fun f hf => h.down f (.tail _ hf), home := ?_, done := h.done, same := h.same }
    · refine ⟨fun y hy => ?_, Pending.mono (s := { s with frames := (v, []) :: u :: us }) (fun f _ y => proc _ y) h.pending.2.2⟩
      rcases h.pending.2.1 y hy with h' | h' | h'
      · exact .inl h'
      · cases h'
        refine .inr (.inr ⟨h.stack _ hv, fun _ => ?_⟩)
        show low u.1 ≤ s.idx v
        have hvle : s.low v ≤ s.idx v := hvle
        rw [hlu]; omega
      · exact .inr (.inr (proc _ y h'))
    · intro x hx hn z hz
      by_cases e : x = v
      · rw [e] at hz ⊢; exact proc _ z (hvproc z hz)
      · refine proc _ z (h.fin x hx (fun f hf => ?_) z hz)
        rcases List.mem_cons.1 hf with rfl | hf
        · exact fun h => e h.symm
        · exact hn f hf
    · intro x hx
      refine ⟨Nat.le_trans (hle x) (h.low x hx).1, ?_⟩
      show ∃ y ∈ s.stack, s.idx y = low x ∧ Reach S x y
      by_cases e : x = u.1
      · subst e
        rw [hlu]
        rcases Nat.le_total (s.low u.1) (s.low v) with h' | h'
        · rw [Nat.min_eq_left h']; exact (h.low _ hx).2
        · rw [Nat.min_eq_right h']
          exact ⟨y, hy, hy1, (h.down u (.tail _ (.head _)) v hv (Nat.le_of_lt huv)).trans hy2⟩
      · rw [hlne x e]; exact (h.low x hx).2
    · intro x hx hn f hf hlx
      show ∃ g ∈ u :: us, s.idx f.1 ≤ s.idx g.1 ∧ s.idx g.1 ≤ s.idx x ∧ low g.1 ≤ low x
      have hxu : x ≠ u.1 := fun e => hn u (.head _) e.symm
      rw [hlne x hxu]
      have viau : s.idx v ≤ s.idx x → s.low v ≤ s.low x → ∃ g ∈ u :: us, s.idx f.1 ≤ s.idx g.1 ∧ s.idx g.1 ≤ s.idx x ∧ low g.1 ≤ s.low x := fun a b =>
        ⟨u, .head _, hutop f hf, by omega, by rw [hlu]; omega⟩
      by_cases e : x = v
      · subst e; exact viau (Nat.le_refl _) (Nat.le_refl _)
      · obtain ⟨g, hg, h5, h6, h7⟩ := h.up x hx (fun f hf => by
          rcases List.mem_cons.1 hf with rfl | hf
          · exact fun h => e h.symm
          · exact hn f hf) f (.tail _ hf) hlx
        rcases List.mem_cons.1 hg with rfl | hg
        · exact viau h6 h7
        · exact ⟨g, hg, h5, h6, Nat.le_trans (hle _) h7⟩
    · intro x hx
      obtain ⟨f, hf, h5, h6⟩ := h.home x hx
      rcases List.mem_cons.1 hf with rfl | hf
      · have h5 : s.idx v ≤ s.idx x := h5
        exact ⟨u, .head _, by show s.idx u.1 ≤ s.idx x; omega, h6.trans hvu⟩
      · exact ⟨f, hf, h5, h6⟩

/-! ## The loops -/

/-- How many vertices have not been entered. -/
def unseen (N : Nat) (idx : Nat → Nat) : Nat := ((List.range N).filter fun x => idx x = 0).length

theorem unseen_put {idx : Nat → Nat} {w k : Nat} (hw : idx w = 0) (hN : w < N) (hk : k ≠ 0) : unseen N (put idx w k) < unseen N idx := by
  have hn : (List.range N).Nodup := List.nodup_range
  have : (w :: (List.range N).filter fun x => put idx w k x = 0).length ≤ ((List.range N).filter fun x => idx x = 0).length := by
    refine length_le_of_subset _ _ (List.nodup_cons.2 ⟨by simp [put_same, hk], hn.sublist List.filter_sublist⟩) fun x hx => ?_
    rcases List.mem_cons.1 hx with rfl | hx
    · exact List.mem_filter.2 ⟨List.mem_range.2 hN, by simp [hw]⟩
    · obtain ⟨g1, g2⟩ := List.mem_filter.1 hx
      refine List.mem_filter.2 ⟨g1, ?_⟩
      by_cases e : x = w
      · simp [e, hw]
      · rw [put_ne _ _ e] at g2; exact g2
  simp only [List.length_cons] at this
  exact this

theorem arrive_seen {s : Scc} {v : Nat} (h : s.idx v ≠ 0) : s.arrive v = s := by simp [Scc.arrive, h]
theorem arrive_frames (s : Scc) (v : Nat) : (s.arrive v).frames = s.frames := by
  simp only [Scc.arrive]
  split <;> rfl

theorem run_spec {ix : Bool} (hS : ∀ v < N, ∀ w ∈ S v, w < N) : ∀ (fuel : Nat) (s : Scc) (v : Nat) (ws : List Nat) (fs : List (Nat × List Nat)), s.frames = (v, ws) :: fs → Tarjan S N (s.arrive v) →
    2 * unseen N (s.arrive v).idx + s.frames.length < fuel → ∃ t, Scc.run ix S fuel s = .ok t ∧ Tarjan S N t ∧ t.frames = [] ∧ ∀ x, (s.arrive v).idx x ≠ 0 → t.idx x ≠ 0
  | 0, _, _, _, _, _, _, hf => by omega
  | fuel + 1, s, v, ws, fs, e, h, hf => by
    simp only [Scc.run, e]
    have hfr : (s.arrive v).frames = (v, ws) :: fs := by rw [arrive_frames, e]
    generalize s.arrive v = a at h hf hfr
    have ha : a = { a with low := a.low, frames := (v, ws) :: fs } := by rw [← hfr]
    obtain ⟨h1, h2⟩ := walk_spec (ix := ix) ws a.low (ha ▸ h)
    rw [e, List.length_cons] at hf
    split
    next w rest hx =>
      obtain ⟨hw, ht⟩ := h2 w rest hx
      have hv : v < N := (ht.seen v (ht.stack v (ht.onStack _ (.head _)))).1
      have hwN := hS v hv w (ht.rest _ (.head _) w (.head _))
      have hp := push_spec (s := { a with low := (a.walk ix v ws a.low).1 }) ht hw hwN
      have hn : 0 < a.next := h.next
      obtain ⟨t, t1, t2, t3, t4⟩ := run_spec hS fuel { a with low := (a.walk ix v ws a.low).1, frames := (w, S w) :: (v, rest) :: fs } w _ _ rfl hp (by
        have hu := unseen_put (N := N) hw hwN (k := a.next) (by omega)
        simp only [Scc.arrive, hw, ↓reduceIte, List.length_cons]
        have hu' : unseen N (put a.idx w a.next) < unseen N a.idx := hu
        omega)
      refine ⟨t, t1, t2, t3, fun x hx => t4 x ?_⟩
      simp only [Scc.arrive, hw, ↓reduceIte]
      by_cases e : x = w
      · rw [e, put_same]; omega
      · rw [put_ne _ _ e]; exact hx
    next hx =>
      obtain ⟨t, t1, t2, t3, t4⟩ := leave_spec (s := { a with low := (a.walk ix v ws a.low).1 }) (h1 hx)
      simp only [t1, bind, Except.bind]
      have t4 : t.idx = a.idx := t4
      cases fs with
      | nil =>
        obtain ⟨k, hk⟩ : ∃ k, fuel = k + 1 := ⟨fuel - 1, by omega⟩
        refine ⟨t, ?_, t2, t3, fun x hx => by rw [t4]; exact hx⟩
        rw [hk]
        simp only [Scc.run, t3]
      | cons u us =>
        have hu : t.idx u.1 ≠ 0 := t2.stack _ (t2.onStack u (by rw [t3]; exact .head _))
        obtain ⟨t', r1, r2, r3, r4⟩ := run_spec hS fuel t u.1 u.2 us t3 (by rw [arrive_seen hu]; exact t2) (by
          rw [arrive_seen hu, t4, t3]
          simp only [List.length_cons] at hf ⊢
          omega)
        refine ⟨t', r1, r2, r3, fun x hx => r4 x ?_⟩
        rw [arrive_seen hu, t4]
        exact hx

theorem Tarjan.empty {s : Scc} (h : Tarjan S N s) (e : s.frames = []) : s.stack = [] := by
  cases hs : s.stack with
  | nil => rfl
  | cons x xs =>
    obtain ⟨f, hf, _⟩ := h.home x (by rw [hs]; exact .head _)
    rw [e] at hf
    cases hf

theorem root_spec {s : Scc} {r : Nat} (h : Tarjan S N s) (e : s.frames = []) (hr : s.idx r = 0) (hN : r < N) : Tarjan S N ({ s with frames := [(r, S r)] }.arrive r) := by
  have hst := h.empty e
  have hn := h.next
  have seenne : ∀ x, s.idx x ≠ 0 → x ≠ r := fun x hx e => hx (e ▸ hr)
  simp only [Scc.arrive, hr, ↓reduceIte, hst]
  have one : ∀ x, x ∈ [r] → x = r := fun x hx => List.mem_singleton.1 hx
  refine { seen := fun x hx => ?_, next := Nat.succ_pos _, sorted := List.pairwise_singleton _ _, stack := fun x hx => ?_, path := List.pairwise_singleton _ _, onStack := fun f hf => ?_, rest := fun f hf y hy => ?_, pending := ⟨fun y hy => .inl hy, trivial⟩, fin := fun x hx hn => ?_, low := fun x hx => ?_, up := fun x hx hn => ?_, down := fun f hf x hx _ => ?_, home := fun x hx => ?_, done := fun x hx hs => ?_, same := fun x y hx hsx hy hsy hc => ?_ }
  · show x < N ∧ put s.idx r s.next x < s.next + 1
    by_cases e : x = r
    · rw [e, put_same]; exact ⟨hN, Nat.lt_succ_self _⟩
    · have hx : put s.idx r s.next x ≠ 0 := hx
      rw [put_ne _ _ e] at hx ⊢
      exact ⟨(h.seen x hx).1, Nat.lt_succ_of_lt (h.seen x hx).2⟩
  · show put s.idx r s.next x ≠ 0
    rw [one x hx, put_same]; omega
  · have := List.mem_singleton.1 hf
    rw [this]; exact .head _
  · have := List.mem_singleton.1 hf
    subst this
    exact hy
  · exact absurd (one x hx).symm (hn _ (.head _))
  · show put s.low r s.next x ≤ put s.idx r s.next x ∧ ∃ y ∈ [r], put s.idx r s.next y = put s.low r s.next x ∧ _
    rw [one x hx, put_same, put_same]
    exact ⟨Nat.le_refl _, r, .head _, put_same _ _ _, .refl _⟩
  · exact absurd (one x hx).symm (hn _ (.head _))
  · rw [List.mem_singleton.1 hf, one x hx]; exact .refl _
  · exact ⟨_, .head _, by rw [one x hx]; exact Nat.le_refl _, by rw [one x hx]; exact .refl _⟩
  · have hx : put s.idx r s.next x ≠ 0 := hx
    have hs : x ≠ r := fun e => hs (e ▸ .head _)
    rw [put_ne _ _ hs] at hx
    obtain ⟨h1, h2⟩ := h.done x hx (by rw [hst]; nofun)
    refine ⟨h1, fun y hy => ?_⟩
    obtain ⟨h3, h4, h5⟩ := h2 y hy
    have hy' := seenne y h3
    refine ⟨?_, fun hm => hy' (one y hm), h5⟩
    show put s.idx r s.next y ≠ 0
    rw [put_ne _ _ hy']; exact h3
  · have hx : put s.idx r s.next x ≠ 0 := hx
    have hy : put s.idx r s.next y ≠ 0 := hy
    rw [put_ne _ _ fun e => hsx (List.mem_singleton.2 e)] at hx
    rw [put_ne _ _ fun e => hsy (List.mem_singleton.2 e)] at hy
    exact h.same x y hx (by rw [hst]; nofun) hy (by rw [hst]; nofun) hc

theorem unseen_le (idx : Nat → Nat) : unseen N idx ≤ N := by
  have := List.length_filter_le (fun x => idx x = 0) (List.range N)
  rw [List.length_range] at this
  exact this

theorem roots_spec {ix : Bool} (hS : ∀ v < N, ∀ w ∈ S v, w < N) : ∀ (rs : List Nat) (s : Scc), (∀ r ∈ rs, r < N) → Tarjan S N s → s.frames = [] →
    ∃ t, Scc.roots ix S N rs s = .ok t ∧ Tarjan S N t ∧ t.frames = [] ∧ (∀ x, s.idx x ≠ 0 → t.idx x ≠ 0) ∧ ∀ r ∈ rs, t.idx r ≠ 0
  | [], s, _, h, e => ⟨s, rfl, h, e, fun _ => id, nofun⟩
  | r :: rs, s, hr, h, e => by
    simp only [Scc.roots]
    split
    next h0 =>
      obtain ⟨t, t1, t2, t3, t4, t5⟩ := roots_spec hS rs s (fun x hx => hr x (.tail _ hx)) h e
      refine ⟨t, t1, t2, t3, t4, fun x hx => ?_⟩
      rcases List.mem_cons.1 hx with rfl | hx
      · exact t4 x h0
      · exact t5 x hx
    next h0 =>
      have h0 : s.idx r = 0 := Classical.not_not.1 h0
      have hN := hr r (.head _)
      have hn := h.next
      obtain ⟨t, t1, t2, t3, t4⟩ := run_spec (ix := ix) hS (2 * N + 2) { s with frames := [(r, S r)] } r _ _ rfl (root_spec h e h0 hN) (by
        have := unseen_put (N := N) h0 hN (k := s.next) (by omega)
        have := unseen_le (N := N) s.idx
        simp only [Scc.arrive, h0, ↓reduceIte, List.length_singleton]
        omega)
      simp only [t1, bind, Except.bind]
      obtain ⟨u, u1, u2, u3, u4, u5⟩ := roots_spec (ix := ix) hS rs t (fun x hx => hr x (.tail _ hx)) t2 t3
      have mono : ∀ x, s.idx x ≠ 0 ∨ x = r → t.idx x ≠ 0 := fun x hx => t4 x (by
        simp only [Scc.arrive, h0, ↓reduceIte]
        by_cases e : x = r
        · rw [e, put_same]; omega
        · rw [put_ne _ _ e]; exact hx.resolve_right e)
      refine ⟨u, u1, u2, u3, fun x hx => u4 x (mono x (.inl hx)), fun x hx => ?_⟩
      rcases List.mem_cons.1 hx with rfl | hx
      · exact u4 x (mono x (.inr rfl))
      · exact u5 x hx

variable {G : Graph} {M : Match}

theorem succ_range (hw : G.WF) (hM : M.OK G) : ∀ v < G.nL + G.nR, ∀ w ∈ succ G M v, w < G.nL + G.nR := by
  intro v hv w h
  simp only [succ] at h
  split at h
  next hl =>
    obtain ⟨r, hr, rfl⟩ := List.mem_map.1 h
    have := hw.edges v hl r (mem_unmatched.1 hr).1
    omega
  next hl =>
    have h' : M.inv (v - G.nL) = some w := by simpa using h
    have := (hM.edge _ _ ((hM.back _ _).2 h')).1
    omega

/-- Every vertex gets a component; no edge leads to a later one; and two vertices are in the same exactly if each can be reached from the other. -/
theorem scc_spec {ix : Bool} (hS : ∀ v < N, ∀ w ∈ S v, w < N) : ∃ s, Scc.roots ix S N (List.range N) {} = .ok s ∧ (∀ v < N, s.comp v < s.count) ∧ (∀ v < N, ∀ w, Reach S v w → s.comp w ≤ s.comp v) ∧
    ∀ v < N, ∀ w < N, s.comp v = s.comp w → Reach S v w := by
  obtain ⟨s, h1, h2, h3, _, h5⟩ := roots_spec hS (List.range N) {} (fun r hr => List.mem_range.1 hr)
    { seen := fun x hx => absurd rfl hx, next := Nat.one_pos, sorted := .nil, stack := nofun, path := .nil, onStack := nofun, rest := nofun, pending := trivial, fin := nofun, low := nofun, up := nofun, down := nofun, home := nofun, done := fun x hx => absurd rfl hx, same := fun x _ hx => absurd rfl hx } rfl
  have hst := h2.empty h3
  have hseen : ∀ v < N, s.idx v ≠ 0 := fun v hv => h5 v (List.mem_range.2 hv)
  have hout : ∀ v, v ∉ s.stack := fun v => by rw [hst]; nofun
  refine ⟨s, h1, fun v hv => (h2.done v (hseen v hv) (hout v)).1, fun v hv w hr => ?_, fun v hv w hw' hc => h2.same v w (hseen v hv) (hout v) (hseen w hw') (hout w) hc⟩
  induction hr with
  | refl => exact Nat.le_refl _
  | step e _ ih => exact Nat.le_trans (ih (hS _ hv _ e)) ((h2.done _ (hseen _ hv) (hout _)).2 _ e).2.2

theorem components_spec (hw : G.WF) (hM : M.OK G) : ∃ s, components G M = .ok s ∧ (∀ v < G.nL + G.nR, s.comp v < s.count) ∧ (∀ v < G.nL + G.nR, ∀ w, Reach (succ G M) v w → s.comp w ≤ s.comp v) ∧
    ∀ v < G.nL + G.nR, ∀ w < G.nL + G.nR, s.comp v = s.comp w → Reach (succ G M) v w := scc_spec (succ_range hw hM)

end Gcs.Gac
