import Verif.Lemmas.Cons.DifferenceShort

/-!
# Dijkstra's algorithm, as it is in the code
-/

namespace Gcs.Difference

/-- The same edges with other weights. -/
def redNet (arcs : List Arc) (base : List Nat) (reduced : List Int) : Net := { net .lower arcs base with wt := fun e => (reduced[e]?).getD 0 }

structure Red (n : Nat) (arcs : List Arc) (base : List Nat) (reduced : List Int) : Prop where
  ok : ArcsOK n arcs
  lt : ∀ e ∈ base, e < arcs.length
  wt : ∀ e ∈ base, ∃ r, reduced[e]? = some r ∧ 0 ≤ r ∧ InI64 r

namespace Dij

def dv (st : Dij) (v : Nat) : Option Int := (st.dist[v]?).getD none
def par (st : Dij) (v : Nat) : Option Nat := (st.parent[v]?).getD none

/-- The distance with the sign changed, and far away if there is none. -/
def far (o : Option Int) : Int := o.elim (-2 ^ 64) (- ·)

def from0 (s v : Nat) : Int := if v = s then 0 else -2 ^ 64

structure Inv (n : Nat) (R : Net) (s : Nat) (st : Dij) : Prop where
  len : st.dist.length = n
  plen : st.parent.length = n
  range : ∀ v x, st.dv v = some x → 0 ≤ x ∧ InI64 x
  net : R.Inv (from0 s) (fun v => far (st.dv v)) st.par
  att : ∀ v x, st.dv v = some x → ∃ es, R.Chain v es s ∧ R.sum es ≤ x
  queue : ∀ p ∈ st.queue, p.2 < n

def mass (l : List (Option Int)) : Nat := (l.map fun o => o.elim (2 ^ 63) Int.toNat).sum

def size (st : Dij) : Nat := 2 * mass st.dist + st.queue.length

theorem mass_set : ∀ (l : List (Option Int)) (i : Nat) (o o' : Option Int), l[i]? = some o → o'.elim (2 ^ 63) Int.toNat < o.elim (2 ^ 63) Int.toNat → mass (l.set i o') < mass l
  | [], _, _, _, h, _ => by simp at h
  | a :: l, 0, o, o', h, k => by
    simp at h; subst h
    simp only [mass, List.set_cons_zero, List.map_cons, List.sum_cons]
    omega
  | a :: l, i + 1, o, o', h, k => by
    have := mass_set l i o o' (by simpa using h) k
    simp only [mass, List.set_cons_succ, List.map_cons, List.sum_cons] at this ⊢
    omega

end Dij

theorem mem_emplace {x p : Int × Nat} : ∀ {q : List (Int × Nat)}, p ∈ emplace x q ↔ p = x ∨ p ∈ q
  | [] => by simp [emplace]
  | y :: ys => by
    unfold emplace
    split
    · simp
    · simp [mem_emplace (q := ys)]; grind

theorem length_emplace {x : Int × Nat} : ∀ {q : List (Int × Nat)}, (emplace x q).length = q.length + 1
  | [] => rfl
  | y :: ys => by
    unfold emplace
    split
    · rfl
    · simp [length_emplace (q := ys)]

/-- What the loop over the edges from `v` leaves. -/
structure Visited (n s : Nat) (R : Net) (v : Nat) (rd : Int) (es : List Nat) (st st' : Dij) : Prop where
  inv : st'.Inv n R s
  same : st'.dv v = some rd
  less : ∀ u x, st.dv u = some x → ∃ y, st'.dv u = some y ∧ y ≤ x
  done : ∀ e ∈ es, ∃ y, st'.dv (R.head e) = some y ∧ y ≤ rd + R.wt e
  new : ∀ u x, st'.dv u = some x → st.dv u = some x ∨ (x, u) ∈ st'.queue
  keep : ∀ p ∈ st.queue, p ∈ st'.queue
  size : st'.size ≤ st.size

/-- The edges from `u` have been followed. -/
def Followed (R : Net) (st : Dij) (u : Nat) (x : Int) : Prop := ∀ e ∈ R.act, R.tail e = u → ∃ y, st.dv (R.head e) = some y ∧ y ≤ x + R.wt e

section
variable {n s : Nat} {arcs : List Arc} {base : List Nat} {reduced : List Int}
local notation "R" => redNet arcs base reduced

/-- One update. -/
theorem Dij.Inv.update (hR : Red n arcs base reduced) {st : Dij} (hi : st.Inv n R s) {e v : Nat} {rd c : Int} (he : e ∈ base) (ht : (R).tail e = v) (hv : st.dv v = some rd)
    (hc : c = rd + (R).wt e) (hcI : InI64 c) (hh : (R).head e < n) (hlt : ∀ y, st.dv ((R).head e) = some y → c < y) (st' : Dij)
    (hst : st' = ⟨st.dist.set ((R).head e) (some c), st.parent.set ((R).head e) (some e), emplace (c, (R).head e) st.queue⟩) :
    st'.Inv n R s ∧ (∀ u, st'.dv u = if u = (R).head e then some c else st.dv u) ∧ st'.size < st.size := by
  have hw : 0 ≤ (R).wt e := by
    obtain ⟨r, h1, h2, -⟩ := hR.wt e he
    simp [redNet, h1, h2]
  have h0 := (hi.range v rd hv).1
  have hd : ∀ u, st'.dv u = if u = (R).head e then some c else st.dv u := fun u => by
    subst hst
    by_cases hu : u = (R).head e
    · subst hu; simp [Dij.dv, List.getElem?_set_self (by rw [hi.len]; exact hh : (R).head e < st.dist.length)]
    · rw [if_neg hu]; simp only [Dij.dv]; rw [List.getElem?_set_ne (by omega)]
  have hp : ∀ u, st'.par u = if u = (R).head e then some e else st.par u := fun u => by
    subst hst
    by_cases hu : u = (R).head e
    · subst hu; simp [Dij.par, List.getElem?_set_self (by rw [hi.plen]; exact hh : (R).head e < st.parent.length)]
    · rw [if_neg hu]; simp only [Dij.par]; rw [List.getElem?_set_ne (by omega)]
  have hcb : c < 2 ^ 63 := by have := hcI; unfold InI64 at this; simp only [i64Min, i64Max] at this; omega
  have im : Net.Improves R e (fun v => Dij.far (st.dv v)) st.par (fun v => Dij.far (st'.dv v)) st'.par := by
    refine ⟨he, ?_, fun u => ?_, hp⟩
    · show Dij.far (st.dv ((R).head e)) < Dij.far (st.dv ((R).tail e)) - (R).wt e
      rw [ht, hv]
      cases hy : st.dv ((R).head e) with
      | none => simp only [Dij.far, Option.elim]; omega
      | some y => have := hlt y hy; simp only [Dij.far, Option.elim]; omega
    · show Dij.far (st'.dv u) = _
      rw [hd u]
      split
      · show Dij.far (some c) = Dij.far (st.dv ((R).tail e)) - (R).wt e
        rw [ht, hv]; simp only [Dij.far, Option.elim]; omega
      · rfl
  refine ⟨⟨?_, ?_, fun u x hx => ?_, im.inv hi.net, fun u x hx => ?_, fun p hp' => ?_⟩, hd, ?_⟩
  · subst hst; simpa using hi.len
  · subst hst; simpa using hi.plen
  · rw [hd u] at hx
    split at hx
    · cases hx; exact ⟨by omega, hcI⟩
    · exact hi.range u x hx
  · rw [hd u] at hx
    split at hx
    · rename_i hu
      cases hx
      obtain ⟨es, h1, h2⟩ := hi.att v rd hv
      refine ⟨e :: es, ⟨he, hu.symm, by rw [ht]; exact h1⟩, ?_⟩
      rw [Net.sum_cons]; omega
    · exact hi.att u x hx
  · subst hst
    rcases mem_emplace.1 hp' with rfl | h
    · exact hh
    · exact hi.queue p h
  · have hl : (R).head e < st.dist.length := by rw [hi.len]; exact hh
    have key : Dij.mass (st.dist.set ((R).head e) (some c)) < Dij.mass st.dist := by
      refine Dij.mass_set _ _ _ _ (List.getElem?_eq_getElem hl) ?_
      cases hy : st.dist[(R).head e] with
      | none => simp only [Option.elim]; omega
      | some y =>
        have := hlt y (by simp [Dij.dv, List.getElem?_eq_getElem hl, hy])
        simp only [Option.elim]; omega
    subst hst
    simp only [Dij.size, length_emplace]
    omega

theorem visit_roo (hR : Red n arcs base reduced) {v : Nat} {rd : Int} : ∀ (es : List Nat) {st : Dij}, (∀ e ∈ es, e ∈ base ∧ (R).tail e = v) → st.Inv n R s → st.dv v = some rd →
    RightOrOverflow (visit arcs reduced rd es st) (Visited n s R v rd es st)
  | [], st, _, hi, hv => .pure ⟨hi, hv, fun u x h => ⟨x, h, Int.le_refl _⟩, by simp, fun u x h => .inl h, fun p h => h, Nat.le_refl _⟩
  | e :: es, st, he, hi, hv => by
    obtain ⟨heb, het⟩ := he e (by simp)
    obtain ⟨a, q1, q2, -, q4, -⟩ := arc_vec (dir := .lower) hR.lt heb
    obtain ⟨r, r1, r2, r3⟩ := hR.wt e heb
    have hdst : a.dst < n := (hR.ok a (List.mem_of_getElem? q1)).2.1
    have eH : (R).head e = a.dst := q4
    have eW : (R).wt e = r := by simp [redNet, r1]
    have hl : a.dst < st.dist.length := by rw [hi.len]; exact hdst
    unfold visit
    show RightOrOverflow (vecAt arcs e >>= _) _
    rw [q2]
    show RightOrOverflow (vecAt reduced e >>= _) _
    rw [vecAt_ok.2 r1]
    refine (add_roo (hi.range v rd hv).2 r3).bind fun c hc => ?_
    show RightOrOverflow (vecAt st.dist a.dst >>= _) _
    rw [vecAt_ok.2 (List.getElem?_eq_getElem hl)]
    have hdv : st.dv a.dst = st.dist[a.dst] := by simp [Dij.dv, List.getElem?_eq_getElem hl]
    show RightOrOverflow (if (st.dist[a.dst]).all _ = true then _ else _) _
    rw [← hdv]
    split
    · rename_i hall
      have hlt : ∀ y, st.dv ((R).head e) = some y → c < y := fun y hy => by
        rw [eH] at hy; rw [hy] at hall; simpa using hall
      obtain ⟨u1, u2, u3⟩ := hi.update hR heb het hv (by rw [eW]; exact hc.1) hc.2 (by rw [eH]; exact hdst) hlt _ rfl
      rw [eH] at u1 u2 u3
      have hne : v ≠ a.dst := by
        rintro rfl
        have := hlt rd (by rw [eH]; exact hv)
        omega
      have hv' := (u2 v).trans ((if_neg hne).trans hv)
      refine (visit_roo hR es (fun f hf => he f (by simp [hf])) u1 hv').mono fun st' k => ⟨k.inv, k.same, fun u x hx => ?_, fun f hf => ?_, fun u x hx => ?_, fun p hp => k.keep p (mem_emplace.2 (.inr hp)), ?_⟩
      · by_cases hu : u = a.dst
        · subst hu
          obtain ⟨y, h1, h2⟩ := k.less a.dst c ((u2 _).trans (by rw [if_pos rfl]))
          have := hlt x (by rw [eH]; exact hx)
          exact ⟨y, h1, by omega⟩
        · exact k.less u x ((u2 u).trans (by rw [if_neg hu]; exact hx))
      · rcases List.mem_cons.1 hf with rfl | hf
        · obtain ⟨y, h1, h2⟩ := k.less a.dst c ((u2 _).trans (by rw [if_pos rfl]))
          exact ⟨y, by rw [eH]; exact h1, by rw [eW]; omega⟩
        · exact k.done f hf
      · rcases k.new u x hx with h | h
        · rw [u2] at h
          split at h
          · rename_i hu; cases h; subst hu; exact .inr (k.keep _ (mem_emplace.2 (.inl rfl)))
          · exact .inl h
        · exact .inr h
      · have := k.size; omega
    · rename_i hall
      refine (visit_roo hR es (fun f hf => he f (by simp [hf])) hi hv).mono fun st' k => ⟨k.inv, k.same, k.less, fun f hf => ?_, k.new, k.keep, k.size⟩
      rcases List.mem_cons.1 hf with rfl | hf
      · cases hy : st.dv a.dst with
        | none => rw [hy] at hall; exact absurd rfl hall
        | some y =>
          rw [hy] at hall
          obtain ⟨z, h1, h2⟩ := k.less _ _ hy
          have : ¬ c < y := by simpa using hall
          exact ⟨z, by rw [eH]; exact h1, by rw [eW]; omega⟩
      · exact k.done f hf

theorem dijkstra_roo (hR : Red n arcs base reduced) {out : Nat → List Nat} (ho : ∀ v e, e ∈ out v ↔ e ∈ base ∧ (R).tail e = v) : ∀ (k : Nat) {st : Dij}, st.Inv n R s →
    (∀ u x, st.dv u = some x → (x, u) ∈ st.queue ∨ Followed R st u x) → st.size < k →
    RightOrOverflow (dijkstra arcs reduced out k st) (fun st' => st'.Inv n R s ∧ ∀ u x, st'.dv u = some x → Followed R st' u x)
  | 0, st, _, _, h => absurd h (by omega)
  | k + 1, st, hi, hp, hk => by
    unfold dijkstra
    cases hq : st.queue with
    | nil =>
      refine .pure ⟨hi, fun u x hx => ?_⟩
      rcases hp u x hx with h | h
      · rw [hq] at h; simp at h
      · exact h
    | cons t q =>
      obtain ⟨rd, v⟩ := t
      have hvn : v < n := hi.queue (rd, v) (by simp [hq])
      have hl : v < st.dist.length := by rw [hi.len]; exact hvn
      have hdv : st.dv v = st.dist[v] := by simp [Dij.dv, List.getElem?_eq_getElem hl]
      have hi' : Dij.Inv n R s { st with queue := q } := ⟨hi.len, hi.plen, hi.range, hi.net, hi.att, fun p hp' => hi.queue p (by rw [hq]; simp [hp'])⟩
      have hsz : Dij.size { st with queue := q } < k := by
        have : st.queue.length = q.length + 1 := by simp [hq]
        simp only [Dij.size] at hk ⊢; omega
      show RightOrOverflow (vecAt st.dist v >>= _) _
      rw [vecAt_ok.2 (List.getElem?_eq_getElem hl)]
      show RightOrOverflow (if st.dist[v] = some rd then _ else _) _
      rw [← hdv]
      split
      · rename_i hv
        refine (visit_roo hR (out v) (fun e he => (ho v e).1 he) hi' hv).bind fun st' kk => ?_
        refine dijkstra_roo hR ho k kk.inv (fun u x hx => ?_) (by have := kk.size; omega)
        by_cases hu : u = v
        · subst hu
          rw [kk.same] at hx; cases hx
          exact .inr fun e he ht => kk.done e ((ho _ e).2 ⟨he, ht⟩)
        · rcases kk.new u x hx with h | h
          · rcases hp u x h with h' | h'
            · rw [hq] at h'
              rcases List.mem_cons.1 h' with h' | h'
              · cases h'; exact absurd rfl hu
              · exact .inl (kk.keep _ h')
            · refine .inr fun e he ht => ?_
              obtain ⟨y, h1, h2⟩ := h' e he ht
              obtain ⟨z, h3, h4⟩ := kk.less _ y h1
              exact ⟨z, h3, by omega⟩
          · exact .inl h
      · rename_i hv
        refine dijkstra_roo hR ho k hi' (fun u x hx => ?_) hsz
        rcases hp u x hx with h | h
        · rw [hq] at h
          rcases List.mem_cons.1 h with h | h
          · cases h; exact absurd hx hv
          · exact .inl h
        · exact .inr h

end

end Gcs.Difference
