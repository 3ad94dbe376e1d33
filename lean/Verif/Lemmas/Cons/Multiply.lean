import Verif.Lemmas.Cons.Product
import Verif.Lemmas.Cons.PlusMinus
import Verif.Lemmas.Cons.LinearInstall

/-!
# Multiplication
-/

namespace Gcs
open IntervalSet

namespace Multiply
open Linear (TermsOK varsOf)

section
variable {σ μ : Type} {n m : Nat} {R : Err → Prop} {root d : Doms} {x y z : VarId} {J : Job}

/-- What `bounds` gives. -/
abbrev Ends (d : Doms) (v : VarId) (b : Int × Int) : Prop := (InI64 b.1 ∧ IsMin (Poss d v) b.1) ∧ InI64 b.2 ∧ IsMax (Poss d v) b.2

theorem boundResult_ver (ho : J.R .overflow) (hd : DomsOK d) (hl : d.length = J.n) (hz : z.Valid J.n) {p bz : Int × Int} (hp : InI64 p.1 ∧ InI64 p.2) (hb : Ends d z bz)
    (hc : ∀ a, Within d a → J.C a → p.1 ≤ z.eval a ∧ z.eval a ≤ p.2) :
    (boundResult z p bz : Prog σ μ Unit).Ver J (fun _ => False) (fun _ d' => ∀ a, Within d' a → p.1 ≤ z.eval a ∧ z.eval a ≤ p.2) d := by
  have hle := fun a ha => hb.1.2.le (a := a) ha
  have hge := fun a ha => hb.2.2.ge (a := a) ha
  unfold boundResult
  split
  · rename_i h
    refine ver_lift ho (le_roo hp.2) fun c hcc => ?_
    rw [hcc.1]
    refine ver_tell (.lt hz hcc.2) (fun a ha hC => by rw [Lit.holds_lt]; have := hc a ha hC; omega) fun d1 hd1 hl1 w1 => ?_
    refine ver_onlyIf (fun _ => ver_tell_last (.ge hz hp.1) (fun a ha hC => ?_) fun d2 _ _ w2 a ha => ?_) fun hn a ha => ?_
    · rw [Lit.holds_ge]; exact (hc a ((w1 a).1 ha).1 hC).1
    · have h2 := (w2 a).1 ha
      have h1 := ((w1 a).1 h2.1).2
      have h2 := h2.2
      rw [Lit.holds_ge] at h2; rw [Lit.holds_lt] at h1
      omega
    · have h1 := (w1 a).1 ha
      have := h1.2
      rw [Lit.holds_lt] at this
      have := hle a h1.1
      omega
  · rename_i h
    refine ver_onlyIf (fun _ => ver_tell_last (.ge hz hp.1) (fun a ha hC => ?_) fun d2 _ _ w2 a ha => ?_) fun hn a ha => ?_
    · rw [Lit.holds_ge]; exact (hc a ha hC).1
    · have h2 := (w2 a).1 ha
      have := h2.2
      rw [Lit.holds_ge] at this
      have := hge a h2.1
      omega
    · have := hge a ha; have := hle a ha
      omega

theorem filterFactor_ver {t c : VarId} (ho : J.R .overflow) (hd : DomsOK d) (hl : d.length = J.n) (ht : t.Valid J.n) (hc : c.Valid J.n) (hz : z.Valid J.n) (hC : ∀ a, J.C a → t.eval a * c.eval a = z.eval a) :
    (filterFactor t c z : Prog σ μ Unit).Ver J (fun _ => False) (fun _ _ => True) d := by
  refine ver_ask (f := (bounds · c)) ho (bounds_roo hd (hl ▸ hc)) fun bc hbc => ?_
  refine ver_ask (f := (bounds · z)) ho (bounds_roo hd (hl ▸ hz)) fun bz hbz => ?_
  refine ver_ask (f := (bounds · t)) ho (bounds_roo hd (hl ▸ ht)) fun bt hbt => ?_
  have hne : bc.1 ≤ bc.2 := hbc.1.2.2 _ hbc.2.2.1
  refine ver_lift ho (quotientFilter_roo hbc.1.1 hbc.2.1 hbz.1.1 hbz.2.1 hne) fun q hq => ?_
  have key : ∀ a, Within d a → J.C a → q.Fits (t.eval a) := fun a ha h => by
    refine hq.2 _ (c.eval a) (hbc.1.2.le ha) (hbc.2.2.ge ha) ?_ ?_
    · rw [hC a h]; exact hbz.1.2.le ha
    · rw [hC a h]; exact hbz.2.2.ge ha
  cases q with
  | noFilter => exact trivial
  | emptyBecauseYZero => exact key
  | bounds lo hi =>
    refine ver_seq (S := fun _ => False) (Q' := fun _ _ => True) hd hl (fun _ h => h) (ver_onlyIf (fun _ => ?_) fun _ => trivial) fun _ d' _ _ hs _ => ?_
    · refine ver_lift ho (add_roo hq.1.2 (by decide)) fun w hw => ver_tell_last (.lt ht hw.2) (fun a ha h => ?_) fun _ _ _ _ => trivial
      rw [Lit.holds_lt]; have := (key a ha h).2; omega
    · refine ver_onlyIf (fun _ => ver_tell_last (.ge ht hq.1.1) (fun a ha h => ?_) fun _ _ _ _ => trivial) fun _ => trivial
      rw [Lit.holds_ge]; exact (key a (hs a ha) h).1

theorem squareUpper_ver {t : Int} (ho : J.R .overflow) (hd : DomsOK d) (hl : d.length = J.n) (hx : x.Valid J.n) (ht : InI64 t) (h : ∀ a, Within d a → J.C a → x.eval a ≤ t) :
    (squareUpper x t : Prog σ μ Unit).Ver J (fun _ => False) (fun _ _ => True) d := by
  refine ver_ask (f := (bounds · x)) ho (bounds_roo hd (hl ▸ hx)) fun b _ => ver_onlyIf (fun _ => ?_) fun _ => trivial
  refine ver_lift ho (add_roo ht (by decide)) fun w hw => ver_tell_last (.lt hx hw.2) (fun a ha hC => ?_) fun _ _ _ _ => trivial
  rw [Lit.holds_lt]; have := h a ha hC; omega

theorem squareLower_ver {t : Int} (ho : J.R .overflow) (hd : DomsOK d) (hl : d.length = J.n) (hx : x.Valid J.n) (ht : InI64 t) (h : ∀ a, Within d a → J.C a → t ≤ x.eval a) :
    (squareLower x t : Prog σ μ Unit).Ver J (fun _ => False) (fun _ _ => True) d := by
  refine ver_ask (f := (bounds · x)) ho (bounds_roo hd (hl ▸ hx)) fun b _ => ver_onlyIf (fun _ => ?_) fun _ => trivial
  exact ver_tell_last (.ge hx ht) (fun a ha hC => by rw [Lit.holds_ge]; exact h a ha hC) fun _ _ _ _ => trivial

/-- Numbers whose squares are small are small. -/
theorem root_le {u v w : Int} (hu : 0 ≤ u) (h1 : w < (u + 1) * (u + 1)) (h2 : v * v ≤ w) : -u ≤ v ∧ v ≤ u := by
  constructor
  · by_cases h : -u ≤ v
    · exact h
    · have := mul_self_mono (a := u + 1) (b := -v) (by omega) (by omega)
      rw [Int.neg_mul_neg] at this; omega
  · by_cases h : v ≤ u
    · exact h
    · have := mul_self_mono (a := u + 1) (b := v) (by omega) (by omega)
      omega

/-- Numbers whose squares are large are far from zero. -/
theorem le_root {r v w : Int} (h1 : (r - 1) * (r - 1) < w) (h2 : w ≤ v * v) : v ≤ -r ∨ r ≤ v := by
  by_cases h : v ≤ -r ∨ r ≤ v
  · exact h
  · exfalso
    by_cases hv : 0 ≤ v
    · have := mul_self_mono (a := v) (b := r - 1) hv (by omega); omega
    · have := mul_self_mono (a := -v) (b := r - 1) (by omega) (by omega)
      rw [Int.neg_mul_neg] at this; omega

theorem squareRoots_ver (ho : J.R .overflow) (hd : DomsOK d) (hl : d.length = J.n) (hx : x.Valid J.n) (hz : z.Valid J.n) (hC : ∀ a, J.C a → x.eval a * x.eval a = z.eval a) :
    (squareRoots x z : Prog σ μ Unit).Ver J (fun _ => False) (fun _ _ => True) d := by
  refine ver_ask (f := (bounds · z)) ho (bounds_roo hd (hl ▸ hz)) fun bz hbz => ?_
  split
  · exact trivial
  rename_i h0
  refine ver_lift ho (isqrt_roo hbz.2.1 (by omega)) fun u hu => ?_
  have key : ∀ a, Within d a → J.C a → -u ≤ x.eval a ∧ x.eval a ≤ u := fun a ha h => root_le hu.2.1 hu.2.2.2 (by rw [hC a h]; exact hbz.2.2.ge ha)
  refine ver_seq (S := fun _ => False) hd hl (fun _ h => h) (squareUpper_ver ho hd hl hx hu.1 fun a ha h => (key a ha h).2) fun _ d1 hd1 hl1 s1 _ => ?_
  refine ver_lift ho (neg_roo hu.1) fun w hw => ?_
  refine ver_seq (S := fun _ => False) hd1 hl1 (fun _ h => h) (squareLower_ver ho hd1 hl1 hx hw.2 fun a ha h => by have := (key a (s1 a ha) h).1; omega) fun _ d2 hd2 hl2 s2 _ => ?_
  refine ver_onlyIf (fun hpos => ?_) fun _ => trivial
  refine ver_lift ho (ceilIsqrt_roo hbz.1.1 hpos) fun r hr => ?_
  have far : ∀ a, Within d2 a → J.C a → x.eval a ≤ -r ∨ r ≤ x.eval a := fun a ha h => le_root hr.2.2.2 (by rw [hC a h]; exact hbz.1.2.le (s1 a (s2 a ha)))
  refine ver_lift ho (neg_roo hr.1) fun nr hnr => ?_
  refine ver_ask (f := (bounds · x)) ho (bounds_roo hd2 (hl2 ▸ hx)) fun b hb => ?_
  split
  · refine squareLower_ver ho hd2 hl2 hx hr.1 fun a ha h => ?_
    have := far a ha h; have := hb.1.2.le ha
    omega
  · refine ver_onlyIf (fun hlt => squareUpper_ver ho hd2 hl2 hx hnr.2 fun a ha h => ?_) fun _ => trivial
    have := far a ha h; have := hb.2.2.ge ha
    omega

theorem pass_ver (ho : J.R .overflow) (hx : x.Valid J.n) (hy : y.Valid J.n) (hz : z.Valid J.n) (hC : ∀ s, J.C s → x.eval s * y.eval s = z.eval s) (hd : DomsOK d) (hl : d.length = J.n) :
    (pass x y z : Prog σ μ Unit).Ver J (fun _ => False) (fun _ d' => (Known d x → Known d y → ∀ s, Within d' s → x.eval s * y.eval s = z.eval s)) d := by
  refine ver_ask (f := (bounds · x)) ho (bounds_roo hd (hl ▸ hx)) fun bx hbx => ?_
  refine ver_ask (f := (bounds · y)) ho (bounds_roo hd (hl ▸ hy)) fun bby hby => ?_
  have hp : RightOrOverflow (if x = y then squareBounds bx.1 bx.2 else productBounds bx.1 bx.2 bby.1 bby.2) (fun p => (InI64 p.1 ∧ InI64 p.2) ∧
      (∀ a, Within d a → p.1 ≤ x.eval a * y.eval a ∧ x.eval a * y.eval a ≤ p.2) ∧ (bx.1 = bx.2 → bby.1 = bby.2 → p.1 = p.2)) := by
    split
    · rename_i e
      subst e
      exact (squareBounds_roo hbx.1.1 hbx.2.1).mono fun p h => ⟨h.1, fun a ha => h.2.2.1 _ (hbx.1.2.le ha) (hbx.2.2.ge ha), fun e _ => by rw [h.2.2.2 e]⟩
    · exact (productBounds_roo hbx.1.1 hbx.2.1 hby.1.1 hby.2.1).mono fun p h => ⟨h.1, fun a ha => h.2.1 _ _ (hbx.1.2.le ha) (hbx.2.2.ge ha) (hby.1.2.le ha) (hby.2.2.ge ha), fun e e' => by rw [h.2.2 e e']⟩
  refine ver_lift ho hp fun p hp => ?_
  refine ver_ask (f := (bounds · z)) ho (bounds_roo hd (hl ▸ hz)) fun bz hbz => ?_
  refine ver_seq (S := fun _ => False) hd hl (fun _ h => h) (boundResult_ver ho hd hl hz hp.1 hbz fun a ha h => by rw [← hC a h]; exact hp.2.1 a ha) fun _ d1 hd1 hl1 s1 hq => ?_
  have fin : ∀ d', (∀ a, Within d' a → Within d1 a) → Known d x → Known d y → ∀ s, Within d' s → x.eval s * y.eval s = z.eval s := by
    intro d' hs kx ky s hs'
    have w1 := hs s hs'
    have w := s1 s w1
    have := hp.2.2 ((hbx.1.2.eq kx w).trans (hbx.2.2.eq kx w).symm) ((hby.1.2.eq ky w).trans (hby.2.2.eq ky w).symm)
    have := hp.2.1 s w
    have := hq s w1
    omega
  split
  · rename_i e
    subst e
    exact ver_mono (fun _ d' h => fin d' h.1.2.2) _ _ (ver_facts _ _ hd1 hl1 (squareRoots_ver ho hd1 hl1 hx hz hC))
  · refine ver_seq (S := fun _ => False) hd1 hl1 (fun _ h => h) (filterFactor_ver ho hd1 hl1 hx hy hz hC) fun _ d2 hd2 hl2 s2 _ => ?_
    refine ver_mono (fun _ d' h => fin d' fun a ha => s2 a (h.1.2.2 a ha)) _ _ (ver_facts _ _ hd2 hl2 (filterFactor_ver ho hd2 hl2 hy hx hz fun a h => ?_))
    rw [Int.mul_comm]; exact hC a h

theorem prop_enforces (ho : R .overflow) (hx : x.Valid n) (hy : y.Valid n) (hz : z.Valid n) : Enforces n m R root (fun a => x.eval a * y.eval a = z.eval a) [x, y, z] (prop (σ := σ) (μ := μ) x y z) :=
  enforces_untilQuiet fun _ hd hl => ver_mono (fun _ _ h hk => h (hk x (by simp)) (hk y (by simp))) _ _ (pass_ver (J := { n, m, R, C := fun s => Within root s ∧ x.eval s * y.eval s = z.eval s }) ho hx hy hz (fun _ h => h.2) hd hl)

theorem watched_mem : ∀ (vs acc : List VarId) (v : VarId), v ∈ acc ∨ v ∈ vs ∧ v.isConst = false → v ∈ watched acc vs
  | [], acc, v, h => by simpa [watched] using h
  | w :: vs, acc, v, h => by
    unfold watched
    split
    · refine watched_mem vs _ v ?_
      rcases h with h | ⟨h, hc⟩
      · exact .inl (List.mem_append_left _ h)
      · rcases List.mem_cons.1 h with rfl | h
        · exact .inl (by simp)
        · exact .inr ⟨h, hc⟩
    · rename_i hn
      refine watched_mem vs _ v ?_
      rcases h with h | ⟨h, hc⟩
      · exact .inl h
      · rcases List.mem_cons.1 h with rfl | h
        · refine .inl ?_
          by_cases e : v ∈ acc
          · exact e
          · exact absurd ⟨hc, e⟩ hn
        · exact .inr ⟨h, hc⟩

theorem wakes_watched (vs : List VarId) : Wakes { onBounds := watched [] vs } vs := fun v hv i hi =>
  ⟨v, .inr (.inl (watched_mem vs [] v (.inr ⟨hv, by cases v <;> simp_all [VarId.isConst, VarId.underlyingIndex]⟩))), hi⟩

/-- The scope of a constraint over three variables, as variables of the problem. -/
def scope (x y z : VarId) : List VarId := ([x, y, z].filterMap VarId.underlyingIndex).map .simple

theorem scope_underlying (x y z : VarId) : (scope x y z).filterMap VarId.underlyingIndex = [x, y, z].filterMap VarId.underlyingIndex := by
  unfold scope
  generalize [x, y, z].filterMap VarId.underlyingIndex = l
  induction l with
  | nil => rfl
  | cons a l ih => simp [VarId.underlyingIndex, ih]

theorem varsOf_eq (ts : List WTerm) : varsOf ts = (ts.map (·.2)).filterMap VarId.underlyingIndex := by simp [varsOf, List.filterMap_map]; rfl

theorem linearForm_roo (hx : x.Valid n) (hy : y.Valid n) (hz : z.Valid n) : RightOrOverflow (linearForm x y z) (fun o => ∀ p, o = some p →
    TermsOK n p.1 ∧ InI64 p.2 ∧ (∀ a, wsum p.1 a = p.2 ↔ x.eval a * y.eval a = z.eval a) ∧ varsOf p.1 = [x, y, z].filterMap VarId.underlyingIndex) := by
  unfold linearForm
  split
  · rename_i c k
    refine (mul_roo hx hy).bind fun w hw => .pure ?_
    rintro _ ⟨⟩
    refine ⟨?_, hw.2, fun a => ?_, ?_⟩
    · simp [TermsOK, hz]; decide
    · simp [wsum, VarId.eval, hw.1]; omega
    · rw [varsOf_eq]; simp [VarId.underlyingIndex, List.filterMap_cons]
  · rename_i c _
    refine .pure ?_
    rintro _ ⟨⟩
    refine ⟨?_, (by decide : InI64 0), fun a => ?_, ?_⟩
    · simp [TermsOK, hz, hy]; exact ⟨hx, by decide⟩
    · simp [wsum, VarId.eval]; omega
    · rw [varsOf_eq]; simp [VarId.underlyingIndex, List.filterMap_cons]
  · rename_i k _
    refine .pure ?_
    rintro _ ⟨⟩
    refine ⟨?_, (by decide : InI64 0), fun a => ?_, ?_⟩
    · simp [TermsOK, hz, hx]; exact ⟨hy, by decide⟩
    · simp [wsum, VarId.eval]; rw [Int.mul_comm k]; omega
    · rw [varsOf_eq]; simp [VarId.underlyingIndex, List.filterMap_cons]
  · exact .pure fun _ h => nomatch h

theorem install_roo (ho : R .overflow) (hd : DomsOK root) (hl : root.length = n) (hx : x.Valid n) (hy : y.Valid n) (hz : z.Valid n) :
    RightOrOverflow (install (σ := σ) (μ := μ) x y z root) (Posts n m R root (fun a => x.eval a * y.eval a = z.eval a) (scope x y z)) := by
  refine (linearForm_roo hx hy hz).bind fun o ho' => ?_
  cases o with
  | some p =>
    obtain ⟨ts, v⟩ := p
    obtain ⟨h1, h2, h3, h4⟩ := ho' _ rfl
    have := Linear.equality_roo (σ := σ) (μ := μ) (m := m) (r := .mustHold) ho hd hl h1 h2 trivial (by rintro ⟨c, h | h⟩ <;> cases h)
    rw [show Linear.about ts .mustHold = (Linear.varsOf ts).map .simple from List.append_nil _] at this
    rw [h4] at this
    exact this.mono fun items h => Posts.congr h h3
  | none =>
    refine (bounds_roo hd (hl ▸ hx)).bind fun _ _ => (bounds_roo hd (hl ▸ hy)).bind fun _ _ => .pure ?_
    refine Posts.one ⟨scope x y z, fun _ h => h, Enforces.implements (((prop_enforces ho hx hy hz).mono fun v hv => ?_)) (fun _ _ => Iff.rfl) ?_ rfl⟩
    · rw [scope_underlying]; exact hv
    · intro v hv i hi
      have : i ∈ (scope x y z).filterMap VarId.underlyingIndex := List.mem_filterMap.2 ⟨v, hv, hi⟩
      rw [scope_underlying] at this
      obtain ⟨w, hw, e⟩ := List.mem_filterMap.1 this
      exact wakes_watched [x, y, z] w hw i e

end
end Multiply
end Gcs
