import Verif.Lemmas.Cons.DifferenceDijkstra

/-!
# What simplification finds from one node, and from all of them
-/

namespace Gcs.Difference

theorem mem_select {arcs : List Arc} {roles : List Role} {p : Arc → Role → Bool} {e : Nat} : e ∈ select arcs roles p ↔ ∃ a r, arcs[e]? = some a ∧ roles[e]? = some r ∧ p a r = true := by
  unfold select
  rw [List.mem_filter, List.mem_range]
  constructor
  · rintro ⟨-, h⟩
    split at h
    · rename_i a r h1 h2; exact ⟨a, r, h1, h2, h⟩
    · cases h
  · rintro ⟨a, r, h1, h2, h3⟩
    refine ⟨?_, by rw [h1, h2]; exact h3⟩
    exact (List.getElem?_eq_some_iff.1 h1).1

theorem nodup_select {arcs : List Arc} {roles : List Role} {p : Arc → Role → Bool} : (select arcs roles p).Nodup := List.nodup_range.filter _

/-! ## The potential -/

/-- As many values as nodes. -/
def PotOK (n : Nat) (h : List Int) : Prop := h.length = n ∧ ∀ x ∈ h, InI64 x

def at_ (h : List Int) (v : Nat) : Int := (h[v]?).getD 0

theorem PotOK.vec {n : Nat} {h : List Int} (hh : PotOK n h) {v : Nat} (hv : v < n) : vecAt h v = .ok (at_ h v) ∧ InI64 (at_ h v) := by
  have hl : v < h.length := by rw [hh.1]; exact hv
  have e : at_ h v = h[v] := by simp [at_, List.getElem?_eq_getElem hl]
  rw [e]
  exact ⟨vecAt_ok.2 (List.getElem?_eq_getElem hl), hh.2 _ (List.getElem_mem hl)⟩

section
variable {n : Nat} {arcs : List Arc}

theorem potSweep_roo (ha : ArcsOK n arcs) : ∀ (es : List Nat) {h : List Int} (b : Bool), (∀ e ∈ es, e < arcs.length) → PotOK n h →
    RightOrOverflow (potSweep arcs es h b) (fun r => PotOK n r.1 ∧ (r.2 = false → b = false ∧ r.1 = h ∧ ∀ e ∈ es, ∀ a, arcs[e]? = some a → at_ h a.dst ≤ at_ h a.src + a.d))
  | [], h, b, _, hh => .pure ⟨hh, fun k => ⟨k, rfl, by simp⟩⟩
  | e :: es, h, b, he, hh => by
    obtain ⟨a, hae⟩ : ∃ a, arcs[e]? = some a := ⟨_, List.getElem?_eq_getElem (he e (by simp))⟩
    obtain ⟨a1, a2, a3⟩ := ha a (List.mem_of_getElem? hae)
    obtain ⟨s1, s2⟩ := hh.vec a1
    obtain ⟨d1, d2⟩ := hh.vec a2
    unfold potSweep
    show RightOrOverflow (vecAt arcs e >>= _) _
    rw [vecAt_ok.2 hae]
    show RightOrOverflow (vecAt h a.src >>= _) _
    rw [s1]
    refine (add_roo s2 a3).bind fun c hc => ?_
    show RightOrOverflow (vecAt h a.dst >>= _) _
    rw [d1]
    show RightOrOverflow (if c < at_ h a.dst then _ else _) _
    split
    · refine (potSweep_roo ha es true (fun f hf => he f (by simp [hf])) ⟨by simpa using hh.1, fun x hx => ?_⟩).mono fun r k => ⟨k.1, fun z => absurd (k.2 z).1 (by decide)⟩
      rcases List.mem_or_eq_of_mem_set hx with hx | rfl
      · exact hh.2 x hx
      · exact hc.2
    · refine (potSweep_roo ha es b (fun f hf => he f (by simp [hf])) hh).mono fun r k => ⟨k.1, fun z => ⟨(k.2 z).1, (k.2 z).2.1, fun f hf a' ha' => ?_⟩⟩
      rcases List.mem_cons.1 hf with rfl | hf
      · rw [hae] at ha'; cases ha'; omega
      · exact (k.2 z).2.2 f hf a' ha'

theorem potential_roo (ha : ArcsOK n arcs) {base : List Nat} (he : ∀ e ∈ base, e < arcs.length) : ∀ (k : Nat) {h : List Int}, PotOK n h →
    RightOrOverflow (potential arcs base k h) (fun o => ∀ h', o = some h' → PotOK n h' ∧ ∀ e ∈ base, ∀ a, arcs[e]? = some a → at_ h' a.dst ≤ at_ h' a.src + a.d)
  | 0, h, _ => .pure fun h' z => nomatch z
  | k + 1, h, hh => by
    refine (potSweep_roo ha base false he hh).bind fun r hr => ?_
    split
    · exact potential_roo ha he k hr.1
    · rename_i hb
      refine .pure fun h' z => ?_
      cases z
      have := hr.2 (by simpa using hb)
      exact ⟨hr.1, by rw [this.2.1]; exact this.2.2⟩

theorem reduceAll_roo {h : List Int} (hh : PotOK n h) : ∀ (arcs : List Arc) (roles : List Role), ArcsOK n arcs →
    (∀ (e : Nat) (a : Arc), arcs[e]? = some a → roles[e]? = some .base → at_ h a.dst ≤ at_ h a.src + a.d) →
    RightOrOverflow (reduceAll h arcs roles) (fun r => ∀ (e : Nat) (a : Arc), arcs[e]? = some a → roles[e]? = some .base → ∃ w, r[e]? = some w ∧ w = a.d + at_ h a.src - at_ h a.dst ∧ 0 ≤ w ∧ InI64 w)
  | [], _, _, _ => .pure fun e a z => by simp at z
  | _ :: _, [], _, _ => .pure fun e a _ z => by simp at z
  | a :: as, r :: rs, ha, hp => by
    have ih := reduceAll_roo hh as rs (fun b hb => ha b (by simp [hb])) fun e b h1 h2 => hp (e + 1) b (by simpa using h1) (by simpa using h2)
    obtain ⟨a1, a2, a3⟩ := ha a (by simp)
    obtain ⟨s1, s2⟩ := hh.vec a1
    obtain ⟨d1, d2⟩ := hh.vec a2
    unfold reduceAll
    split
    · rename_i hr
      subst hr
      show RightOrOverflow (vecAt h a.src >>= _) _
      rw [s1]
      refine (add_roo a3 s2).bind fun t ht => ?_
      show RightOrOverflow (vecAt h a.dst >>= _) _
      rw [d1]
      refine (sub_roo ht.2 d2).bind fun w hw => ?_
      have := hp 0 a (by simp) (by simp)
      rw [if_neg (by omega)]
      refine ih.bind fun l hl => .pure fun e b h1 h2 => ?_
      cases e with
      | zero => simp at h1; subst h1; exact ⟨w, by simp, by omega, by omega, hw.2⟩
      | succ e => simpa using hl e b (by simpa using h1) (by simpa using h2)
    · rename_i hr
      refine ih.bind fun l hl => .pure fun e b h1 h2 => ?_
      cases e with
      | zero => simp at h2; exact absurd h2 hr
      | succ e => simpa using hl e b (by simpa using h1) (by simpa using h2)

end

/-! ## From one node -/

/-- What the rest can use. -/
structure Ready (n : Nat) (arcs : List Arc) (roles : List Role) (base : List Nat) (h reduced : List Int) : Prop where
  ok : ArcsOK n arcs
  isBase : ∀ e, e ∈ base ↔ ∃ a, arcs[e]? = some a ∧ roles[e]? = some .base
  pot : PotOK n h
  red : ∀ (e : Nat) (a : Arc), arcs[e]? = some a → roles[e]? = some .base → ∃ w, reduced[e]? = some w ∧ w = a.d + at_ h a.src - at_ h a.dst ∧ 0 ≤ w ∧ InI64 w

section
variable {n s : Nat} {arcs : List Arc} {roles : List Role} {base : List Nat} {h reduced : List Int}

theorem Ready.toRed (H : Ready n arcs roles base h reduced) : Red n arcs base reduced where
  ok := H.ok
  lt := fun e he => by
    obtain ⟨a, h1, -⟩ := (H.isBase e).1 he
    exact (List.getElem?_eq_some_iff.1 h1).1
  wt := fun e he => by
    obtain ⟨a, h1, h2⟩ := (H.isBase e).1 he
    obtain ⟨w, k1, -, k2, k3⟩ := H.red e a h1 h2
    exact ⟨w, k1, k2, k3⟩

theorem chain_iff {b : Nat} : ∀ {es : List Nat} {a : Nat}, (redNet arcs base reduced).Chain a es b ↔ (net .lower arcs base).Chain a es b
  | [], _ => Iff.rfl
  | e :: es, a => by
    have := chain_iff (b := b) (es := es) (a := (net .lower arcs base).tail e)
    exact ⟨fun k => ⟨k.1, k.2.1, this.1 k.2.2⟩, fun k => ⟨k.1, k.2.1, this.2 k.2.2⟩⟩

/-- The potential cancels along a path. -/
theorem Ready.sum (H : Ready n arcs roles base h reduced) {b : Nat} : ∀ {es : List Nat} {a : Nat}, (net .lower arcs base).Chain a es b →
    (redNet arcs base reduced).sum es = (net .lower arcs base).sum es + at_ h b - at_ h a
  | [], a, k => by cases k; simp [Net.sum]
  | e :: es, a, ⟨k1, k2, k3⟩ => by
    have ih := H.sum k3
    obtain ⟨c, h1, h2⟩ := (H.isBase e).1 k1
    obtain ⟨w, q1, q2, -⟩ := H.red e c h1 h2
    have eT : (net .lower arcs base).tail e = c.src := by simp [net, h1, Dir.tail]
    have eH : (net .lower arcs base).head e = c.dst := by simp [net, h1, Dir.head]
    have eW : (net .lower arcs base).wt e = c.d := by simp [net, h1]
    have eR : (redNet arcs base reduced).wt e = w := by simp [redNet, q1]
    rw [Net.sum_cons, Net.sum_cons, eW, eR]
    rw [eT] at ih; rw [eH] at k2; subst k2
    omega

/-- What Dijkstra's algorithm leaves. -/
structure Found (n s : Nat) (arcs : List Arc) (base : List Nat) (h reduced : List Int) (st : Dij) : Prop where
  inv : st.Inv n (redNet arcs base reduced) s
  done : ∀ u x, st.dv u = some x → Followed (redNet arcs base reduced) st u x
  dist : (net .lower arcs base).Dist s fun v => (st.dv v).map fun x => x - at_ h s + at_ h v

theorem Dij.Inv.zero {R : Net} {st : Dij} (hi : st.Inv n R s) : st.dv s = some 0 := by
  have := hi.net.grow s
  simp only [Dij.from0, if_pos] at this
  cases hd : st.dv s with
  | none => rw [hd] at this; simp [Dij.far] at this
  | some x =>
    rw [hd] at this
    have h0 := (hi.range s x hd).1
    simp only [Dij.far, Option.elim] at this
    congr 1; omega

theorem init_dv (hs : s < n) (v : Nat) : (Dij.init n s).dv v = if v = s then some 0 else none := by
  by_cases hv : v = s
  · subst hv; simp [Dij.init, Dij.dv, hs]
  · rw [if_neg hv]
    simp only [Dij.init, Dij.dv]
    rw [List.getElem?_set_ne (by omega)]
    by_cases hn : v < n <;> simp [hn]

theorem init_inv (hs : s < n) {R : Net} : (Dij.init n s).Inv n R s := by
  have hp : (Dij.init n s).par = fun _ => none := by
    funext v; simp only [Dij.par, Dij.init]
    by_cases hn : v < n <;> simp [hn]
  have hf : (fun v => Dij.far ((Dij.init n s).dv v)) = Dij.from0 s := by
    funext v; rw [init_dv hs]; simp only [Dij.from0]; split <;> simp [Dij.far]
  refine ⟨by simp [Dij.init], by simp [Dij.init], fun v x hx => ?_, by rw [hp, hf]; exact Net.Inv.init, fun v x hx => ?_, fun p hp => ?_⟩
  · rw [init_dv hs] at hx
    split at hx
    · cases hx; exact ⟨Int.le_refl _, by decide⟩
    · cases hx
  · rw [init_dv hs] at hx
    split at hx
    · rename_i k; cases hx; exact ⟨[], k, by simp [Net.sum]⟩
    · cases hx
  · simp [Dij.init] at hp; subst hp; exact hs

theorem init_size (hs : s < n) : (Dij.init n s).size < plenty n := by
  have := Dij.mass_set (List.replicate n none) s none (some 0) (by simp [hs]) (by simp)
  have e : Dij.mass (List.replicate n none) = n * 2 ^ 63 := by simp [Dij.mass]
  simp only [Dij.size, plenty, Dij.init, List.length_singleton]
  omega

theorem found_roo (H : Ready n arcs roles base h reduced) (hs : s < n) {out : Nat → List Nat} (ho : ∀ v e, e ∈ out v ↔ e ∈ base ∧ (net .lower arcs base).tail e = v) :
    RightOrOverflow (dijkstra arcs reduced out (plenty n) (Dij.init n s)) (Found n s arcs base h reduced) := by
  refine (dijkstra_roo H.toRed ho (plenty n) (init_inv hs) (fun u x hx => .inl ?_) (init_size hs)).mono fun st k => ⟨k.1, k.2, ⟨fun v w hw => ?_, fun v es hc => ?_⟩⟩
  · rw [init_dv hs] at hx
    split at hx
    · rename_i hu; cases hx; subst hu; simp [Dij.init]
    · cases hx
  · obtain ⟨x, hx, rfl⟩ := Option.map_eq_some_iff.1 hw
    obtain ⟨es, h1, h2⟩ := k.1.att v x hx
    have h3 := chain_iff.1 h1
    have := H.sum h3
    exact ⟨es, h3, by omega⟩
  · have key : ∀ (es : List Nat) (v : Nat), (redNet arcs base reduced).Chain v es s → ∃ x, st.dv v = some x ∧ x ≤ (redNet arcs base reduced).sum es := by
      intro es
      induction es with
      | nil => intro v hv; cases hv; exact ⟨0, k.1.zero, by simp [Net.sum]⟩
      | cons e es ih =>
        rintro v ⟨h1, h2, h3⟩
        obtain ⟨x, hx, hle⟩ := ih _ h3
        obtain ⟨y, hy, hle'⟩ := k.2 _ x hx e h1 rfl
        rw [h2] at hy
        exact ⟨y, hy, by rw [Net.sum_cons]; omega⟩
    obtain ⟨x, hx, hle⟩ := key es v (chain_iff.2 hc)
    have := H.sum hc
    exact ⟨x - at_ h s + at_ h v, by simp [hx], by omega⟩

theorem realDist_roo (hh : PotOK n h) (hs : s < n) {v : Nat} (hv : v < n) {x : Int} (hx : InI64 x) : RightOrOverflow (realDist h s x v) (fun w => w = x - at_ h s + at_ h v ∧ InI64 w) := by
  obtain ⟨s1, s2⟩ := hh.vec hs
  obtain ⟨d1, d2⟩ := hh.vec hv
  unfold realDist
  show RightOrOverflow (vecAt h s >>= _) _
  rw [s1]
  refine (sub_roo hx s2).bind fun t ht => ?_
  show RightOrOverflow (vecAt h v >>= _) _
  rw [d1]
  exact (add_roo ht.2 d2).mono fun w hw => ⟨by omega, hw.2⟩

end

end Gcs.Difference
