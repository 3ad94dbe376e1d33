import Verif.Lemmas.Cons.DifferencePotential

/-!
# C68: simplification of differences
-/

namespace Gcs
open Difference

/-- The values satisfy an edge. -/
def Difference.Arc.Holds (x : Nat → Int) (a : Arc) : Prop := x a.src - x a.dst ≤ a.d

/-- The values satisfy all edges of the base. -/
def BaseHolds (arcs : List Arc) (roles : List Role) (x : Nat → Int) : Prop := ∀ (e : Nat) (a : Arc), arcs[e]? = some a → roles[e]? = some .base → a.Holds x

/-- Edges of the base that go from one node to another, one after the other, with their weight. -/
inductive BasePath (arcs : List Arc) (roles : List Role) : Nat → List Nat → Nat → Int → Prop
  | nil (u : Nat) : BasePath arcs roles u [] u 0
  | cons {e : Nat} {a : Arc} {es : List Nat} {v : Nat} {w : Int} : arcs[e]? = some a → roles[e]? = some .base → BasePath arcs roles a.dst es v w → BasePath arcs roles a.src (e :: es) v (a.d + w)

/-- What simplification may return if it does not say that there is a negative cycle. -/
structure Simplified (arcs : List Arc) (roles : List Role) (o : Difference.Outcome) : Prop where
  /-- The base can be satisfied. -/
  sat : ∃ x, BaseHolds arcs roles x
  /-- Nothing is lost: the edges of the base that are left imply all of it. -/
  kept : ∀ x, (∀ (e : Nat) (a : Arc), arcs[e]? = some a → roles[e]? = some .base → e ∉ o.removed → a.Holds x) → BaseHolds arcs roles x
  /-- Only edges that are not ignored are removed. -/
  real : ∀ e ∈ o.removed, ∃ a r, arcs[e]? = some a ∧ roles[e]? = some r ∧ r ≠ .ignored
  /-- Edges of the base that are left are shortest paths. -/
  short : ∀ (e : Nat) (a : Arc) (es : List Nat) (w : Int), arcs[e]? = some a → roles[e]? = some .base → e ∉ o.removed → BasePath arcs roles a.src es a.dst w → a.d ≤ w
  /-- Candidates are removed exactly if the base implies them. -/
  implied : ∀ (e : Nat) (a : Arc), arcs[e]? = some a → roles[e]? = some .candidate → (e ∈ o.removed ↔ ∀ x, BaseHolds arcs roles x → a.Holds x)
  /-- Conditions are fixed exactly if the base contradicts the edge. -/
  excluded : ∀ (e : Nat) (a : Arc), arcs[e]? = some a → roles[e]? = some .candidate → ((∃ p, (e, p) ∈ o.fix) ↔ ∀ x, BaseHolds arcs roles x → ¬ a.Holds x)
  /-- And there is a path that shows this. -/
  witness : ∀ e p, (e, p) ∈ o.fix → ∃ a w, arcs[e]? = some a ∧ roles[e]? = some .candidate ∧ BasePath arcs roles a.dst p a.src w ∧ a.d + w < 0

section
variable {n : Nat} {arcs : List Arc} {roles : List Role} {base : List Nat}

theorem basePath_append {u v t : Nat} {es fs : List Nat} {w z : Int} (h : BasePath arcs roles u es v w) (k : BasePath arcs roles v fs t z) : BasePath arcs roles u (es ++ fs) t (w + z) := by
  induction h with
  | nil u => rw [Int.zero_add]; exact k
  | cons h1 h2 _ ih => rw [Int.add_assoc]; exact .cons h1 h2 (ih k)

theorem basePath_chain (hb : ∀ e, e ∈ base ↔ ∃ a, arcs[e]? = some a ∧ roles[e]? = some .base) {b : Nat} : ∀ {es : List Nat} {a : Nat}, (net .lower arcs base).Chain a es b → BasePath arcs roles b es.reverse a ((net .lower arcs base).sum es)
  | [], _, h => by cases h; exact .nil _
  | e :: es, a, ⟨h1, h2, h3⟩ => by
    obtain ⟨c, k1, k2⟩ := (hb e).1 h1
    have eT : (net .lower arcs base).tail e = c.src := by simp [net, k1, Dir.tail]
    have eH : (net .lower arcs base).head e = c.dst := by simp [net, k1, Dir.head]
    have eW : (net .lower arcs base).wt e = c.d := by simp [net, k1]
    have ih := basePath_chain hb h3
    rw [eT] at ih
    rw [List.reverse_cons, Net.sum_cons, Int.add_comm, eW, ← h2, eH]
    have one : BasePath arcs roles c.src [e] c.dst (c.d + 0) := .cons k1 k2 (.nil _)
    rw [Int.add_zero] at one
    exact basePath_append ih one

theorem chain_basePath (hb : ∀ e, e ∈ base ↔ ∃ a, arcs[e]? = some a ∧ roles[e]? = some .base) {u v : Nat} {es : List Nat} {w : Int} (h : BasePath arcs roles u es v w) :
    (net .lower arcs base).Chain v es.reverse u ∧ (net .lower arcs base).sum es.reverse = w := by
  induction h with
  | nil u => exact ⟨rfl, rfl⟩
  | @cons e a es v w h1 h2 _ ih =>
    have eT : (net .lower arcs base).tail e = a.src := by simp [net, h1, Dir.tail]
    have eH : (net .lower arcs base).head e = a.dst := by simp [net, h1, Dir.head]
    have eW : (net .lower arcs base).wt e = a.d := by simp [net, h1]
    rw [List.reverse_cons]
    refine ⟨ih.1.append ⟨(hb e).2 ⟨a, h1, h2⟩, eH, eT⟩, ?_⟩
    rw [Net.sum_append, Net.sum_one, eW, ih.2]; omega

theorem baseHolds_iff (hb : ∀ e, e ∈ base ↔ ∃ a, arcs[e]? = some a ∧ roles[e]? = some .base) {x : Nat → Int} :
    BaseHolds arcs roles x ↔ ∀ e ∈ base, x ((net .lower arcs base).tail e) - (net .lower arcs base).wt e ≤ x ((net .lower arcs base).head e) := by
  constructor
  · intro h e he
    obtain ⟨a, h1, h2⟩ := (hb e).1 he
    have := h e a h1 h2
    simp only [Arc.Holds] at this
    simp only [net, h1, Dir.tail, Dir.head, Option.map_some, Option.getD_some]
    omega
  · intro h e a h1 h2
    have := h e ((hb e).2 ⟨a, h1, h2⟩)
    simp only [net, h1, Dir.tail, Dir.head, Option.map_some, Option.getD_some] at this
    simp only [Arc.Holds]
    omega

theorem simplified_of {h reduced : List Int} {o : Difference.Outcome} (H : Ready n arcs roles base h reduced) (hp : ∀ e ∈ base, ∀ a, arcs[e]? = some a → at_ h a.dst ≤ at_ h a.src + a.d) (k : SourcesAdd arcs roles base (List.range n) {} o) : Simplified arcs roles o := by
  have src : ∀ (e : Nat) (a : Arc), arcs[e]? = some a → a.src ∈ List.range n ∧ a.dst ∈ List.range n := fun e a ha => by
    have := H.ok a (List.mem_of_getElem? ha)
    simp [this.1, this.2.1]
  have tails : ∀ e ∈ base, (net .lower arcs base).tail e ∈ List.range n := fun e he => by
    obtain ⟨a, h1, -⟩ := (H.isBase e).1 he
    have := (src e a h1).1
    simpa [net, h1, Dir.tail] using this
  have pot : ∀ e ∈ (net .lower arcs base).act, at_ h ((net .lower arcs base).head e) ≤ at_ h ((net .lower arcs base).tail e) + (net .lower arcs base).wt e := fun e he => by
    obtain ⟨a, h1, -⟩ := (H.isBase e).1 he
    have := hp e he a h1
    simpa [net, h1, Dir.tail, Dir.head] using this
  have sat : ∃ x, BaseHolds arcs roles x := ⟨fun v => - at_ h v, (baseHolds_iff H.isBase).2 fun e he => by have := pot e he; omega⟩
  have hdist : ∀ s, ∃ D, (net .lower arcs base).Dist s D := fun s => by
    obtain ⟨x, hx⟩ := sat
    exact Net.exists_dist ((baseHolds_iff H.isBase).1 hx) s
  have imp : ∀ e ∈ o.removed, ∀ a, arcs[e]? = some a → ∃ es, (net .lower arcs base).Chain a.dst es a.src ∧ (net .lower arcs base).sum es ≤ a.d := fun e he a ha => by
    rcases k.removed e he with q | ⟨b, r, q1, q2, q3, -, q5⟩
    · simp at q
    · rw [ha] at q1; cases q1; exact q5
  have exc : ∀ e p, (e, p) ∈ o.fix → roles[e]? = some .candidate ∧ Excludes arcs base (e, p) := fun e p hm => by
    rcases k.fix _ hm with q | q
    · simp at q
    · exact q
  have excX : ∀ e p a, (e, p) ∈ o.fix → arcs[e]? = some a → ∀ x, BaseHolds arcs roles x → ¬ a.Holds x := fun e p a hm ha x hx hh => by
    obtain ⟨-, b, h1, h2, h3⟩ := exc e p hm
    have h1 : arcs[e]? = some b := h1
    rw [ha] at h1; cases h1
    have := Net.Chain.sat ((baseHolds_iff H.isBase).1 hx) h2
    rw [sum_reverse] at this
    simp only [Arc.Holds] at hh
    simp only at h3 this
    omega
  refine ⟨sat, fun x hx => ?_, fun e he => ?_, fun e a es w h1 h2 h3 h4 => ?_, fun e a h1 h2 => ⟨fun he x hx => ?_, fun hall => ?_⟩, fun e a h1 h2 => ⟨fun ⟨p, hm⟩ => excX e p a hm h1, fun hall => ?_⟩, fun e p hm => ?_⟩
  · refine (baseHolds_iff H.isBase).2 (Net.Enough.all (N := net .lower arcs base) (K := fun e => e ∉ o.removed) (fun e he => ?_) fun e he hk => ?_)
    · obtain ⟨D, d1, d2⟩ := k.kept e he (tails e he)
      exact ⟨D, d1, d2⟩
    · obtain ⟨a, h1, h2⟩ := (H.isBase e).1 he
      have := hx e a h1 h2 hk
      simp only [Arc.Holds] at this
      simp only [net, h1, Dir.tail, Dir.head, Option.map_some, Option.getD_some]
      omega
  · rcases k.removed e he with q | ⟨a, r, q1, q2, q3, -⟩
    · simp at q
    · exact ⟨a, r, q1, q2, q3⟩
  · have heb := (H.isBase e).2 ⟨a, h1, h2⟩
    obtain ⟨c1, c2⟩ := chain_basePath H.isBase h4
    have eT : (net .lower arcs base).tail e = a.src := by simp [net, h1, Dir.tail]
    have eH : (net .lower arcs base).head e = a.dst := by simp [net, h1, Dir.head]
    have eW : (net .lower arcs base).wt e = a.d := by simp [net, h1]
    refine Int.not_lt.1 fun hlt => h3 (k.long e heb (tails e heb) es.reverse (by rw [eT, eH]; exact c1) (by rw [eW]; omega))
  · obtain ⟨es, c1, c2⟩ := imp e he a h1
    have := Net.Chain.sat ((baseHolds_iff H.isBase).1 hx) c1
    simp only [Arc.Holds]
    omega
  · obtain ⟨D, hD⟩ := hdist a.src
    obtain ⟨x, x1, x2, x3, x4⟩ := hD.values pot a.dst (- a.d - 1)
    have hh := hall x ((baseHolds_iff H.isBase).2 x1)
    simp only [Arc.Holds, x2] at hh
    cases hd : D a.dst with
    | none => have := x4 hd; omega
    | some w =>
      obtain ⟨es, c1, c2⟩ := hD.attained _ _ hd
      have := x3 _ _ hd
      exact k.allImplied e a es h1 h2 (src e a h1).1 c1 (by omega)
  · obtain ⟨D, hD⟩ := hdist a.dst
    obtain ⟨x, x1, x2, x3, x4⟩ := hD.values pot a.src a.d
    have hh := hall x ((baseHolds_iff H.isBase).2 x1)
    simp only [Arc.Holds, x2] at hh
    cases hd : D a.src with
    | none => have := x4 hd; omega
    | some w =>
      obtain ⟨es, c1, c2⟩ := hD.attained _ _ hd
      have := x3 _ _ hd
      rcases k.allFixed e a es h1 h2 (src e a h1).2 c1 (by omega) with q | ⟨⟨e', p⟩, p1, p2⟩
      · obtain ⟨gs, g1, g2⟩ := imp e q a h1
        obtain ⟨y, hy⟩ := sat
        have z := Net.Chain.sat ((baseHolds_iff H.isBase).1 hy) g1
        exact absurd (show a.Holds y by simp only [Arc.Holds]; omega) (hall y hy)
      · cases p2; exact ⟨p, p1⟩
  · obtain ⟨h2, a, h1, h3, h4⟩ := exc e p hm
    have := basePath_chain H.isBase h3
    simp only [List.reverse_reverse, sum_reverse] at this
    exact ⟨a, _, h1, h2, this, h4⟩

end

section
variable {n : Nat} {arcs : List Arc} {roles : List Role}

/-- C68: simplification of a graph of differences. It says that there is a negative cycle exactly if no values satisfy the base. Otherwise what is left of the base is equivalent to it and consists of shortest paths, the
candidates that are removed are exactly those the base implies, and the conditions that are fixed are exactly those of candidates the base contradicts, each with a path that shows it. Nothing but an overflow is thrown, and
the search for shortest paths ends. -/
theorem simplify_right (ha : ∀ a ∈ arcs, a.src < n ∧ a.dst < n ∧ InI64 a.d) (hr : roles.length = arcs.length) :
    match simplify n arcs roles with
    | .error err => err = .overflow
    | .ok none => ¬ ∃ x, BaseHolds arcs roles x
    | .ok (some o) => Simplified arcs roles o := by
  suffices h : RightOrOverflow (simplify n arcs roles) (fun r => (r = none → ¬ ∃ x, BaseHolds arcs roles x) ∧ ∀ o, r = some o → Simplified arcs roles o) by
    rcases h with h | ⟨r, h, k⟩
    · rw [h]
    · rw [h]
      cases r with
      | none => exact k.1 rfl
      | some o => exact k.2 o rfl
  have isBase : ∀ e, e ∈ (select arcs roles fun _ r => r = .base) ↔ ∃ a, arcs[e]? = some a ∧ roles[e]? = some .base := fun e => by
    simp only [mem_select, decide_eq_true_eq]
    constructor
    · rintro ⟨a, r, h1, h2, rfl⟩; exact ⟨a, h1, h2⟩
    · rintro ⟨a, h1, h2⟩; exact ⟨a, _, h1, h2, rfl⟩
  have hlt : ∀ e ∈ (select arcs roles fun _ r => r = .base), e < arcs.length := fun e he => by
    obtain ⟨a, h1, -⟩ := (isBase e).1 he
    exact (List.getElem?_eq_some_iff.1 h1).1
  unfold simplify
  rw [if_neg (by simpa using hr)]
  split
  · rename_i h0
    have nil : arcs = [] := by
      rcases h0 with h0 | h0
      · cases arcs with
        | nil => rfl
        | cons a as => have := (ha a (by simp)).1; omega
      · exact h0
    subst nil
    exact .pure ⟨fun h => (nomatch h), fun o ho => by
      cases ho
      exact ⟨⟨fun _ => 0, fun e a h => by simp at h⟩, fun x _ e a h => by simp at h, by simp, fun e a es w h => by simp at h, fun e a h => by simp at h, fun e a h => by simp at h, fun e p h => by simp at h⟩⟩
  · have ok0 : PotOK n (List.replicate n 0) := ⟨by simp, fun x hx => by rw [List.eq_of_mem_replicate hx]; decide⟩
    have z0 : ∀ v, at_ (List.replicate n 0) v = 0 := fun v => by
      simp only [at_]
      by_cases hv : v < n <;> simp [hv]
    have p1 := potential_roo (n := n) ha hlt (n + 1) ok0
    have p2 : RightOrOverflow (Difference.potential arcs (select arcs roles fun _ r => r = .base) (n + 1) (List.replicate n 0)) (fun r => r = none → ¬ ∃ x, BaseHolds arcs roles x) := by
      by_cases hx : ∃ x, BaseHolds arcs roles x
      · obtain ⟨x, hx⟩ := hx
        exact (potential_none ha hlt ((baseHolds_iff isBase).1 hx) (n + 1) 0 (by omega) ok0 (fun v => ⟨[], v, rfl, by rw [z0]; exact Int.le_refl _⟩) (Net.Reach.zero fun v => by rw [z0]; exact Int.le_refl _) (by omega)).mono fun r h1 h2 => absurd h2 h1
      · exact p1.mono fun _ _ _ => hx
    refine (p1.and p2).bind fun r ⟨h1, h2⟩ => ?_
    cases r with
    | none => exact .pure ⟨fun _ => h2 rfl, fun o ho => nomatch ho⟩
    | some h =>
      obtain ⟨hh, hp⟩ := h1 h rfl
      refine (reduceAll_roo hh arcs roles ha fun e a q1 q2 => hp e ((isBase e).2 ⟨a, q1, q2⟩) a q1).bind fun reduced hred => ?_
      have H : Ready n arcs roles (select arcs roles fun _ r => r = .base) h reduced := ⟨ha, isBase, hh, hred⟩
      refine (sources_roo H (List.range n) {} List.nodup_range (fun s hs => List.mem_range.1 hs) (by simp)).bind fun o k => .pure ⟨fun h => (nomatch h), fun o' ho => ?_⟩
      cases ho
      exact simplified_of H hp k

end

/-! ## Examples -/

namespace DifferenceSimplifyDemo

def arcs : List Arc := [⟨0, 1, 2, none⟩, ⟨1, 2, 3, none⟩, ⟨0, 2, 6, none⟩, ⟨0, 2, 5, none⟩, ⟨2, 0, -6, none⟩, ⟨2, 0, -4, none⟩, ⟨0, 1, 2, none⟩, ⟨0, 1, 1, none⟩]
def roles : List Role := [.base, .base, .base, .candidate, .candidate, .base, .base, .candidate]

/-- An edge that is longer than a path, one that is repeated and a candidate that is implied are removed. One condition must be false, and one candidate is left. -/
example : simplify 3 arcs roles = .ok (some ⟨[2, 3, 6], [(4, [0, 1])]⟩) := by decide +kernel

/-- The hypotheses of `simplify_right` hold, and so the result is what it should be. -/
example : Simplified arcs roles ⟨[2, 3, 6], [(4, [0, 1])]⟩ := by
  have h := simplify_right (n := 3) (arcs := arcs) (roles := roles) (by decide) rfl
  rwa [show simplify 3 arcs roles = .ok (some ⟨[2, 3, 6], [(4, [0, 1])]⟩) by decide +kernel] at h

/-- A negative cycle, so that nothing is simplified. -/
example : simplify 2 [⟨0, 1, 2, none⟩, ⟨1, 0, -3, none⟩] [.base, .base] = .ok none := by decide +kernel

/-- Without an edge of the cycle there is none. -/
example : simplify 2 [⟨0, 1, 2, none⟩, ⟨1, 0, -3, none⟩] [.base, .candidate] = .ok (some ⟨[], [(1, [0])]⟩) := by decide +kernel

end DifferenceSimplifyDemo

end Gcs
