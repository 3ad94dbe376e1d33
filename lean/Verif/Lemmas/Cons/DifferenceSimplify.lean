import Verif.Lemmas.Cons.DifferenceSources

/-!
# Which edges are removed, and which conditions are fixed
-/

namespace Gcs.Difference

section
variable {n s : Nat} {arcs : List Arc} {roles : List Role} {base : List Nat} {h reduced : List Int} {st : Dij}

/-- What `redundant` returns, for distances `D`. -/
structure Redundant (arcs : List Arc) (roles : List Role) (D : Nat → Option Int) (es tight r : List Nat) : Prop where
  from_ : ∀ e ∈ r, e ∈ es
  implied : ∀ e ∈ r, ∀ a, arcs[e]? = some a → ∃ w, D a.dst = some w ∧ w ≤ a.d
  cand : ∀ e ∈ es, ∀ a w, arcs[e]? = some a → roles[e]? = some .candidate → D a.dst = some w → w ≤ a.d → e ∈ r
  long : ∀ e ∈ es, ∀ a w, arcs[e]? = some a → D a.dst = some w → w < a.d → e ∈ r
  kept : ∀ e ∈ es, ∀ a, arcs[e]? = some a → roles[e]? = some .base → D a.dst = some a.d →
    a.dst ∈ tight ∨ ∃ f ∈ es, f ∉ r ∧ roles[f]? = some .base ∧ ∃ b, arcs[f]? = some b ∧ b.dst = a.dst ∧ b.d = a.d

theorem Redundant.skip {D : Nat → Option Int} {es tight r : List Nat} {e : Nat} {a : Arc} (ha : arcs[e]? = some a) (h : Redundant arcs roles D es tight r)
    (hc : roles[e]? = some .candidate → ∀ w, D a.dst = some w → a.d < w) (hl : ∀ w, D a.dst = some w → a.d ≤ w)
    (hb : roles[e]? = some .base → D a.dst = some a.d → False) : Redundant arcs roles D (e :: es) tight r where
  from_ := fun f hf => List.mem_cons_of_mem _ (h.from_ f hf)
  implied := h.implied
  cand := fun f hf b w h1 h2 h3 h4 => by
    rcases List.mem_cons.1 hf with rfl | hf
    · rw [ha] at h1; cases h1; have := hc h2 w h3; omega
    · exact h.cand f hf b w h1 h2 h3 h4
  long := fun f hf b w h1 h3 h4 => by
    rcases List.mem_cons.1 hf with rfl | hf
    · rw [ha] at h1; cases h1; have := hl w h3; omega
    · exact h.long f hf b w h1 h3 h4
  kept := fun f hf b h1 h2 h3 => by
    rcases List.mem_cons.1 hf with rfl | hf
    · rw [ha] at h1; cases h1; exact (hb h2 h3).elim
    · rcases h.kept f hf b h1 h2 h3 with k | ⟨g, k1, k2⟩
      · exact .inl k
      · exact .inr ⟨g, List.mem_cons_of_mem _ k1, k2⟩

theorem Redundant.drop {D : Nat → Option Int} {es tight r : List Nat} {e : Nat} {a : Arc} {w : Int} (ha : arcs[e]? = some a) (he : e ∉ es) (h : Redundant arcs roles D es tight r)
    (hw : D a.dst = some w) (hle : w ≤ a.d) (hb : roles[e]? = some .base → w = a.d → a.dst ∈ tight) : Redundant arcs roles D (e :: es) tight (e :: r) where
  from_ := fun f hf => by
    rcases List.mem_cons.1 hf with rfl | hf
    · simp
    · exact List.mem_cons_of_mem _ (h.from_ f hf)
  implied := fun f hf b h1 => by
    rcases List.mem_cons.1 hf with rfl | hf
    · rw [ha] at h1; cases h1; exact ⟨w, hw, hle⟩
    · exact h.implied f hf b h1
  cand := fun f hf b w h1 h2 h3 h4 => by
    rcases List.mem_cons.1 hf with rfl | hf
    · simp
    · exact List.mem_cons_of_mem _ (h.cand f hf b w h1 h2 h3 h4)
  long := fun f hf b w h1 h3 h4 => by
    rcases List.mem_cons.1 hf with rfl | hf
    · simp
    · exact List.mem_cons_of_mem _ (h.long f hf b w h1 h3 h4)
  kept := fun f hf b h1 h2 h3 => by
    rcases List.mem_cons.1 hf with rfl | hf
    · rw [ha] at h1; cases h1
      rw [hw] at h3; cases h3
      exact .inl (hb h2 rfl)
    · rcases h.kept f hf b h1 h2 h3 with k | ⟨g, k1, k2, k3⟩
      · exact .inl k
      · refine .inr ⟨g, List.mem_cons_of_mem _ k1, fun hg => ?_, k3⟩
        rcases List.mem_cons.1 hg with rfl | hg
        · exact he k1
        · exact k2 hg

theorem Redundant.keep {D : Nat → Option Int} {es tight r : List Nat} {e : Nat} {a : Arc} (ha : arcs[e]? = some a) (he : e ∉ es) (h : Redundant arcs roles D es (a.dst :: tight) r)
    (hr : roles[e]? = some .base) (hw : D a.dst = some a.d) : Redundant arcs roles D (e :: es) tight r where
  from_ := fun f hf => List.mem_cons_of_mem _ (h.from_ f hf)
  implied := h.implied
  cand := fun f hf b w h1 h2 h3 h4 => by
    rcases List.mem_cons.1 hf with rfl | hf
    · rw [hr] at h2; cases h2
    · exact h.cand f hf b w h1 h2 h3 h4
  long := fun f hf b w h1 h3 h4 => by
    rcases List.mem_cons.1 hf with rfl | hf
    · rw [ha] at h1; cases h1; rw [hw] at h3; cases h3; omega
    · exact h.long f hf b w h1 h3 h4
  kept := fun f hf b h1 h2 h3 => by
    have mine : e ∉ r := fun hg => he (h.from_ e hg)
    rcases List.mem_cons.1 hf with rfl | hf
    · exact .inr ⟨f, by simp, mine, hr, b, h1, rfl, rfl⟩
    · rcases h.kept f hf b h1 h2 h3 with k | ⟨g, k1, k2⟩
      · rcases List.mem_cons.1 k with k | k
        · rw [k, hw] at h3
          exact .inr ⟨e, by simp, mine, hr, a, ha, k.symm, Option.some.inj h3⟩
        · exact .inl k
      · exact .inr ⟨g, List.mem_cons_of_mem _ k1, k2⟩

theorem redundant_roo (H : Ready n arcs roles base h reduced) (hs : s < n) (F : Found n s arcs base h reduced st) : ∀ (es tight : List Nat), es.Nodup →
    (∀ e ∈ es, ∃ a r, arcs[e]? = some a ∧ roles[e]? = some r ∧ r ≠ .ignored) →
    RightOrOverflow (redundant arcs roles h s st.dist es tight) (Redundant arcs roles (fun v => (st.dv v).map fun x => x - at_ h s + at_ h v) es tight)
  | [], _, _, _ => .pure ⟨by simp, by simp, by simp, by simp, by simp⟩
  | e :: es, tight, hn, he => by
    obtain ⟨a, r, ha, hr, hri⟩ := he e (by simp)
    obtain ⟨hne, hn'⟩ := List.nodup_cons.1 hn
    have ih := fun t => redundant_roo H hs F es t hn' fun f hf => he f (by simp [hf])
    have hdst := (H.ok a (List.mem_of_getElem? ha)).2.1
    have hl : a.dst < st.dist.length := by rw [F.inv.len]; exact hdst
    have hdv : st.dist[a.dst] = st.dv a.dst := by simp [Dij.dv, List.getElem?_eq_getElem hl]
    unfold redundant
    show RightOrOverflow (vecAt arcs e >>= _) _
    rw [vecAt_ok.2 ha]
    show RightOrOverflow (vecAt st.dist a.dst >>= _) _
    rw [vecAt_ok.2 (List.getElem?_eq_getElem hl), hdv]
    cases hx : st.dv a.dst with
    | none =>
      show RightOrOverflow (redundant arcs roles h s st.dist es tight) _
      exact (ih tight).mono fun q hq => hq.skip ha (fun _ w hw => by simp [hx] at hw) (fun w hw => by simp [hx] at hw) (fun _ hw => by simp [hx] at hw)
    | some x =>
      refine (realDist_roo H.pot hs hdst (F.inv.range _ _ hx).2).bind fun w hw => ?_
      have hD : ((st.dv a.dst).map fun x => x - at_ h s + at_ h a.dst) = some w := by rw [hx, hw.1]; rfl
      show RightOrOverflow (vecAt roles e >>= _) _
      rw [vecAt_ok.2 hr]
      show RightOrOverflow (if r = Role.candidate then _ else _) _
      split
      · rename_i hc
        subst hc
        refine (ih tight).bind fun q hq => .pure ?_
        split
        · exact hq.drop ha hne hD (by omega) fun z => by rw [hr] at z; cases z
        · exact hq.skip ha (fun _ w' hw' => by rw [hD] at hw'; cases hw'; omega) (fun w' hw' => by rw [hD] at hw'; cases hw'; omega) (fun z => by rw [hr] at z; cases z)
      · rename_i hc
        have hb : roles[e]? = some .base := by cases r <;> simp_all
        split
        · exact (ih tight).bind fun q hq => .pure (hq.drop ha hne hD (by omega) fun _ z => by omega)
        · split
          · rename_i hdw
            split
            · rename_i ht
              exact (ih tight).bind fun q hq => .pure (hq.drop ha hne hD (by omega) fun _ _ => ht)
            · exact (ih _).mono fun q hq => hq.keep ha hne hb (by rw [hD, hdw])
          · refine (ih tight).mono fun q hq => hq.skip ha (fun z => by rw [hb] at z; cases z) (fun w' hw' => by rw [hD] at hw'; cases hw'; omega) (fun _ z => ?_)
            rw [hD] at z; cases z; omega

theorem nonneg_walk (H : Ready n arcs roles base h reduced) (hi : st.Inv n (redNet arcs base reduced) s) {b : Nat} : ∀ {es : List Nat} {a : Nat}, (redNet arcs base reduced).Walk st.par a es b → 0 ≤ (redNet arcs base reduced).sum es
  | [], _, _ => by simp [Net.sum]
  | e :: es, a, k => by
    have ih := nonneg_walk H hi k.2
    obtain ⟨r, h1, h2, -⟩ := H.toRed.wt e (hi.net.from_ a e k.1).1
    rw [Net.sum_cons]
    have : (redNet arcs base reduced).wt e = r := by simp [redNet, h1]
    omega

theorem back_ok (H : Ready n arcs roles base h reduced) (hi : st.Inv n (redNet arcs base reduced) s) : ∀ (k : Nat) (seen : List Nat) (v : Nat) (x : Int), st.dv v = some x → v < n → seen.Nodup →
    (∀ u ∈ seen, u < n) → n < seen.length + k → (∀ u ∈ seen, ∃ es, es ≠ [] ∧ (redNet arcs base reduced).Walk st.par u es v) →
    ∃ es, back arcs st.parent s k v = .ok es ∧ (redNet arcs base reduced).Walk st.par v es s
  | 0, seen, v, x, _, _, hn, hm, hk, _ => by have := nodup_le n seen hn hm; omega
  | k + 1, seen, v, x, hx, hv, hn, hm, hk, hw => by
    unfold back
    by_cases hvs : v = s
    · exact ⟨[], by rw [if_pos hvs]; rfl, hvs⟩
    · rw [if_neg hvs]
      have hl : v < st.parent.length := by rw [hi.plen]; exact hv
      have hpv : st.parent[v] = st.par v := by simp [Dij.par, List.getElem?_eq_getElem hl]
      rw [vecAt_ok.2 (List.getElem?_eq_getElem hl), hpv]
      have hI := (hi.range v x hx)
      have hxb : x < 2 ^ 63 := by have := hI.2; unfold InI64 at this; simp only [i64Min, i64Max] at this; omega
      cases hp : st.par v with
      | none =>
        have := hi.net.fresh v hp
        simp only [hx, Dij.far, Option.elim, Dij.from0, if_neg hvs] at this
        omega
      | some e =>
        obtain ⟨f1, f2, f3⟩ := hi.net.from_ v e hp
        obtain ⟨a, q1, q2, q3, -, -⟩ := arc_vec (dir := .lower) H.toRed.lt f1
        have q3 : (redNet arcs base reduced).tail e = a.src := q3
        obtain ⟨r, r1, r2, -⟩ := H.toRed.wt e f1
        have eW : (redNet arcs base reduced).wt e = r := by simp [redNet, r1]
        have hin : v ∉ seen := fun hin => by
          obtain ⟨es, h1, h2⟩ := hw v hin
          have := hi.net.cyc v es h1 h2
          have := nonneg_walk H hi h2
          omega
        obtain ⟨y, hy⟩ : ∃ y, st.dv a.src = some y := by
          cases hy : st.dv a.src with
          | some y => exact ⟨y, rfl⟩
          | none => rw [q3] at f3; simp only [hx, hy, Dij.far, Option.elim] at f3; omega
        obtain ⟨es, h1, h2⟩ := back_ok H hi k (v :: seen) a.src y hy (H.ok a (List.mem_of_getElem? q1)).1 (List.nodup_cons.2 ⟨hin, hn⟩)
          (fun u hu => by rcases List.mem_cons.1 hu with rfl | hu; exact hv; exact hm u hu) (by simp; omega)
          (fun u hu => by
            have step : (redNet arcs base reduced).Walk st.par v [e] a.src := ⟨hp, q3⟩
            rcases List.mem_cons.1 hu with rfl | hu
            · exact ⟨[e], by simp, step⟩
            · obtain ⟨fs, g1, g2⟩ := hw u hu
              exact ⟨fs ++ [e], by simp, g2.append step⟩)
        refine ⟨e :: es, ?_, hp, by rw [q3]; exact h2⟩
        show (vecAt arcs e >>= _) = _
        rw [q2]
        show (back arcs st.parent s k a.src >>= _) = _
        rw [h1]; rfl

/-- A path that makes a cycle with the edge. -/
def Excludes (arcs : List Arc) (base : List Nat) (p : Nat × List Nat) : Prop := ∃ a, arcs[p.1]? = some a ∧ (net .lower arcs base).Chain a.src p.2.reverse a.dst ∧ a.d + (net .lower arcs base).sum p.2 < 0

theorem sum_reverse {N : Net} (es : List Nat) : N.sum es.reverse = N.sum es := by
  induction es with
  | nil => rfl
  | cons e es ih => rw [List.reverse_cons, Net.sum_append, ih, Net.sum_one, Net.sum_cons]; omega

theorem fixes_roo (H : Ready n arcs roles base h reduced) (hs : s < n) (F : Found n s arcs base h reduced st) (removed : List Nat) : ∀ (es : List Nat), (∀ e ∈ es, ∃ a, arcs[e]? = some a ∧ a.dst = s) →
    RightOrOverflow (fixes arcs h s st removed es) (fun f => (∀ p ∈ f, p.1 ∈ es ∧ Excludes arcs base p) ∧
      ∀ e ∈ es, ∀ a w, arcs[e]? = some a → e ∉ removed → ((st.dv a.src).map fun x => x - at_ h s + at_ h a.src) = some w → a.d + w < 0 → ∃ p ∈ f, p.1 = e)
  | [], _ => .pure ⟨by simp, by simp⟩
  | e :: es, he => by
    obtain ⟨a, ha, has⟩ := he e (by simp)
    have ih := fixes_roo H hs F removed es fun f hf => he f (by simp [hf])
    have hsrc := (H.ok a (List.mem_of_getElem? ha)).1
    have hl : a.src < st.dist.length := by rw [F.inv.len]; exact hsrc
    have hdv : st.dist[a.src] = st.dv a.src := by simp [Dij.dv, List.getElem?_eq_getElem hl]
    have skip : (e ∉ removed → ∀ w, ((st.dv a.src).map fun x => x - at_ h s + at_ h a.src) = some w → ¬ a.d + w < 0) → RightOrOverflow (fixes arcs h s st removed es) (fun f => (∀ p ∈ f, p.1 ∈ e :: es ∧ Excludes arcs base p) ∧
        ∀ e' ∈ e :: es, ∀ a w, arcs[e']? = some a → e' ∉ removed → ((st.dv a.src).map fun x => x - at_ h s + at_ h a.src) = some w → a.d + w < 0 → ∃ p ∈ f, p.1 = e') := fun hno =>
      ih.mono fun f hf => ⟨fun p hp => ⟨List.mem_cons_of_mem _ (hf.1 p hp).1, (hf.1 p hp).2⟩, fun e' he' b w h1 h2 h3 h4 => by
        rcases List.mem_cons.1 he' with rfl | he'
        · rw [ha] at h1; cases h1; exact absurd h4 (hno h2 w h3)
        · exact hf.2 e' he' b w h1 h2 h3 h4⟩
    unfold fixes
    split
    · rename_i hm
      exact skip fun z => absurd hm z
    · show RightOrOverflow (vecAt arcs e >>= _) _
      rw [vecAt_ok.2 ha]
      show RightOrOverflow (vecAt st.dist a.src >>= _) _
      rw [vecAt_ok.2 (List.getElem?_eq_getElem hl), hdv]
      cases hx : st.dv a.src with
      | none => exact skip fun _ w hw => by simp [hx] at hw
      | some x =>
        refine (realDist_roo H.pot hs hsrc (F.inv.range _ _ hx).2).bind fun w hw => ?_
        refine (add_roo (H.ok a (List.mem_of_getElem? ha)).2.2 hw.2).bind fun t ht => ?_
        split
        · exact skip fun _ w' hw' => by have := Option.some.inj ((by rw [hx]; rfl : some (x - at_ h s + at_ h a.src) = _).trans hw'); omega
        · obtain ⟨es', b1, b2⟩ := back_ok H F.inv (st.parent.length + 1) [] a.src x hx hsrc .nil (by simp) (by rw [F.inv.plen]; simp) (by simp)
          rw [b1]
          refine ih.bind fun f hf => .pure ⟨fun p hp => ?_, fun e' he' b w h1 h2 h3 h4 => ?_⟩
          · rcases List.mem_cons.1 hp with rfl | hp
            · have hch := chain_iff.1 (F.inv.net.chain b2)
              have hle := F.inv.net.walk b2
              simp only [hx, F.inv.zero, Dij.far, Option.elim] at hle
              have hsum := H.sum hch
              refine ⟨by simp, a, ha, by rw [List.reverse_reverse, has]; exact hch, ?_⟩
              show a.d + (net .lower arcs base).sum es'.reverse < 0
              rw [sum_reverse]
              omega
            · exact ⟨List.mem_cons_of_mem _ (hf.1 p hp).1, (hf.1 p hp).2⟩
          · rcases List.mem_cons.1 he' with rfl | he'
            · exact ⟨(e', es'.reverse), by simp, rfl⟩
            · obtain ⟨p, k1, k2⟩ := hf.2 e' he' b w h1 h2 h3 h4
              exact ⟨p, List.mem_cons_of_mem _ k1, k2⟩

end

end Gcs.Difference
