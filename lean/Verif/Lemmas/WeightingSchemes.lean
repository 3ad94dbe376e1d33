import Verif.Lemmas.Weighting

/-! The weighting schemes. -/

namespace Gcs.Weighting

section
variable {σ μ : Type} {d : Doms} {acts : List (Act σ μ)}

theorem classic_noteAll : ∀ (ps : List Nat) {ws : List Rat} {weight : Nat → Rat}, (∀ p ∈ ps, p < (installed acts).length) → Table acts ws weight →
    ∃ ws', Classic.noteAll (Engine.after acts) ps ws = .ok ws' ∧ Table acts ws' fun c => weight c + (tally acts ps c : Rat)
  | [], ws, weight, _, h => ⟨ws, rfl, h.1, fun ci c hc => by
      rw [h.2 ci c hc]; simp [tally, Rat.add_zero]⟩
  | p :: ps, ws, weight, hp, h => by
    obtain ⟨ci, c, t, h1, h2, h3⟩ := owner (hp p (by simp))
    obtain ⟨ws', h4, h5⟩ := classic_noteAll ps (fun q hq => hp q (by simp [hq])) (h.set h3 (weight c + 1))
    refine ⟨ws', ?_, h5.1, fun cj e he => ?_⟩
    · unfold Classic.noteAll
      rw [h2]
      change (do Classic.noteAll (Engine.after acts) ps (← Classic.note ws ci)) = _
      have : Classic.note ws ci = .ok (ws.set ci (weight c + 1)) := by unfold Classic.note; rw [h.at h3]; rfl
      rw [this]; exact h4
    · rw [h5.2 cj e he]
      congr 1
      dsimp only
      unfold tally
      rw [List.countP_cons, h1]
      by_cases x : e = c
      · subst x
        rw [if_pos rfl]
        simp only [Option.map_some, decide_true, if_pos]
        rw [Rat.natCast_add]
        grind
      · rw [if_neg x]
        have : ¬ some c = some e := fun z => x (Option.some.inj z).symm
        simp [this]

/-! ## Conflict history -/

/-- The history in the code is the abstract one. -/
structure Mirrors (acts : List (Act σ μ)) (h : History) (r : Recency) : Prop where
  weights : Table acts h.weights r.score
  len : h.conflictOf.length = (Engine.after acts).constraintIds.length
  conflicts : ∀ ci c : Nat, (Engine.after acts).constraintIds[ci]? = some c → h.conflictOf[ci]? = some (h.number - (r.since c : Int))
  alpha : h.alpha = r.alpha

theorem Mirrors.new (acts : List (Act σ μ)) : Mirrors acts (History.new (Engine.after acts)) Recency.start := by
  refine ⟨Table.new acts 0, by simp [History.new], fun ci c h => ?_, rfl⟩
  change (List.replicate _ (0 : Int))[ci]? = some (0 - ((0 : Nat) : Int))
  rw [List.getElem?_replicate, if_pos (List.getElem?_eq_some_iff.1 h).1]; rfl

theorem Mirrors.note {h : History} {r : Recency} (hs : Mirrors acts h r) {ci c : Nat} (hc : (Engine.after acts).constraintIds[ci]? = some c) : ∃ h', History.note h ci = .ok h' ∧ Mirrors acts h' (r.conflict c) := by
  have e : h.number - (h.number - (r.since c : Int)) + 1 = (r.since c : Int) + 1 := by omega
  have hl : ci < h.conflictOf.length := by rw [hs.len]; exact (List.getElem?_eq_some_iff.1 hc).1
  refine ⟨⟨h.weights.set ci ((1 - h.alpha) * r.score c + h.alpha * (1 / (((r.since c : Int) + 1 : Int) : Rat))), h.conflictOf.set ci (h.number + 1), h.number + 1,
    if History.alphaMinimum < h.alpha - History.alphaDecay then h.alpha - History.alphaDecay else History.alphaMinimum⟩, ?_, ?_, ?_, ?_, ?_⟩
  · have v : vecAt h.conflictOf ci = .ok (h.number - (r.since c : Int)) := by unfold vecAt; rw [hs.conflicts ci c hc]
    unfold History.note
    rw [v, hs.weights.at hc]
    change (if h.number - (h.number - (r.since c : Int)) + 1 = 0 then _ else _) = _
    rw [if_neg (by omega), e]
    rfl
  · have := hs.weights.set hc ((1 - h.alpha) * r.score c + h.alpha * (1 / (((r.since c : Int) + 1 : Int) : Rat)))
    refine ⟨this.1, fun cj e he => (this.2 cj e he).trans ?_⟩
    unfold Recency.conflict
    dsimp only
    rw [hs.alpha, Rat.intCast_add, Rat.intCast_natCast]; rfl
  · simpa using hs.len
  · intro cj e he
    dsimp only
    rw [List.getElem?_set]
    unfold Recency.conflict
    dsimp only
    by_cases x : ci = cj
    · subst x
      cases hc.symm.trans he
      rw [if_pos rfl, if_pos hl, if_pos rfl]; simp
    · have : ¬ e = c := by
        rintro rfl
        exact x (index_unique (books_after acts).idsNodup hc he)
      rw [if_neg x, if_neg this, hs.conflicts cj e he]
      congr 1; omega
  · dsimp only
    rw [hs.alpha]; rfl

theorem smooth_eq {n : Int} {f : Nat → Rat} {g : Nat → Nat} : ∀ (ids : List Nat) (ws : List Rat) (cs : List Int), ws.length = ids.length → cs.length = ids.length → (∀ j c : Nat, ids[j]? = some c → ws[j]? = some (f c)) →
    (∀ j c : Nat, ids[j]? = some c → cs[j]? = some (n - (g c : Int))) → History.smooth n ws cs = .ok (ids.map fun c => f c * History.smoothing ^ g c)
  | [], [], _, _, _, _, _ => rfl
  | [], _ :: _, _, h, _, _, _ => by simp at h
  | _ :: _, [], _, h, _, _, _ => by simp at h
  | _ :: _, _ :: _, [], _, h, _, _ => by simp at h
  | i :: ids, w :: ws, c :: cs, h1, h2, h3, h4 => by
    have a : w = f i := by simpa using h3 0 i rfl
    have b : c = n - (g i : Int) := by simpa using h4 0 i rfl
    have ih := smooth_eq (n := n) (f := f) (g := g) ids ws cs (by simpa using h1) (by simpa using h2) (fun j c hj => h3 (j + 1) c hj) fun j c hj => h4 (j + 1) c hj
    unfold History.smooth
    have k : (n - c).toNat = g i := by omega
    rw [if_neg (by omega), ih, k, a]; rfl

theorem Mirrors.restart {h : History} {r : Recency} (hs : Mirrors acts h r) : ∃ h', History.onRestart h = .ok h' ∧ Mirrors acts h' r.restart := by
  have := smooth_eq (n := h.number) (Engine.after acts).constraintIds h.weights h.conflictOf hs.weights.1 hs.len hs.weights.2 hs.conflicts
  refine ⟨{ h with weights := (Engine.after acts).constraintIds.map fun c => r.score c * History.smoothing ^ r.since c, alpha := History.alphaInitial }, ?_, ⟨by simp, fun ci c hc => ?_⟩, hs.len, hs.conflicts, rfl⟩
  · unfold History.onRestart; rw [this]; rfl
  · dsimp only
    rw [List.getElem?_map, hc]; rfl

theorem Mirrors.noteAll : ∀ (es : List (Option Nat)) {h : History} {r : Recency}, (∀ p, some p ∈ es → p < (installed acts).length) → Mirrors acts h r →
    ∃ h', History.noteAll (Engine.after acts) es h = .ok h' ∧ Mirrors acts h' (r.all (owners acts es))
  | [], h, _, _, hs => ⟨h, rfl, hs⟩
  | none :: es, h, r, he, hs => by
    obtain ⟨h1, e1, s1⟩ := hs.restart
    obtain ⟨h2, e2, s2⟩ := Mirrors.noteAll es (fun p hp => he p (by simp [hp])) s1
    refine ⟨h2, ?_, s2⟩
    unfold History.noteAll
    rw [e1]; exact e2
  | some p :: es, h, r, he, hs => by
    obtain ⟨ci, c, t, a1, a2, a3⟩ := owner (he p (by simp))
    obtain ⟨h1, e1, s1⟩ := hs.note a3
    obtain ⟨h2, e2, s2⟩ := Mirrors.noteAll es (fun p hp => he p (by simp [hp])) s1
    refine ⟨h2, ?_, ?_⟩
    · unfold History.noteAll
      rw [a2]
      change (do History.noteAll (Engine.after acts) es (← History.note h ci)) = _
      rw [e1]; exact e2
    · have : owners acts (some p :: es) = some c :: owners acts es := by simp [owners, a1]
      rw [this]; exact s2

/-! ## Scores are between 0 and 1 -/

theorem mix {a w r : Rat} (ha : 0 ≤ a) (ha' : a ≤ 1) (hw : 0 ≤ w ∧ w ≤ 1) (hr : 0 ≤ r ∧ r ≤ 1) : 0 ≤ (1 - a) * w + a * r ∧ (1 - a) * w + a * r ≤ 1 := by
  have h1 : 0 ≤ 1 - a := by grind
  have e1 := Rat.mul_nonneg h1 hw.1
  have e2 := Rat.mul_nonneg ha hr.1
  have e3 := Rat.mul_nonneg h1 (show 0 ≤ 1 - w by grind)
  have e4 := Rat.mul_nonneg ha (show 0 ≤ 1 - r by grind)
  constructor <;> grind

theorem recent (k : Nat) : 0 ≤ (1 : Rat) / ((k : Rat) + 1) ∧ (1 : Rat) / ((k : Rat) + 1) ≤ 1 := by
  have hk : (0 : Rat) ≤ (k : Rat) := Rat.natCast_nonneg
  have h0 : (0 : Rat) < (k : Rat) + 1 := by grind
  constructor
  · refine Rat.not_lt.1 fun hn => ?_
    have := (Rat.div_lt_iff h0).1 hn
    grind
  · refine Rat.not_lt.1 fun hn => ?_
    have := (Rat.lt_div_iff h0).1 hn
    grind

theorem pow_le_one {s : Rat} (h0 : 0 ≤ s) (h1 : s ≤ 1) : ∀ k : Nat, s ^ k ≤ 1
  | 0 => by rw [Rat.pow_zero]; exact Rat.le_refl
  | k + 1 => by
    rw [Rat.pow_succ]
    have a := Rat.mul_nonneg (Rat.pow_nonneg (n := k) h0) (show 0 ≤ 1 - s by grind)
    have b := pow_le_one h0 h1 k
    grind

/-- What is always the case. -/
structure Sane (r : Recency) : Prop where
  score : ∀ c, 0 ≤ r.score c ∧ r.score c ≤ 1
  alpha : 3 / 50 ≤ r.alpha ∧ r.alpha ≤ 2 / 5

theorem Sane.start : Sane Recency.start := ⟨fun _ => by change (0 : Rat) ≤ 0 ∧ (0 : Rat) ≤ 1; decide +kernel, by change (3 / 50 : Rat) ≤ 2 / 5 ∧ (2 / 5 : Rat) ≤ 2 / 5; decide +kernel⟩

theorem Sane.conflict {r : Recency} (h : Sane r) (c : Nat) : Sane (r.conflict c) := by
  have a0 : (0 : Rat) ≤ 3 / 50 := by decide +kernel
  have a1 : (2 / 5 : Rat) ≤ 1 := by decide +kernel
  have am : (3 / 50 : Rat) ≤ 2 / 5 := by decide +kernel
  have ad : (0 : Rat) ≤ 1 / 1000000 := by decide +kernel
  refine ⟨fun e => ?_, ?_⟩
  · unfold Recency.conflict
    dsimp only
    split
    · exact mix (Rat.le_trans a0 h.alpha.1) (Rat.le_trans h.alpha.2 a1) (h.score c) (recent _)
    · exact h.score e
  · unfold Recency.conflict
    dsimp only
    split
    · rename_i hlt
      exact ⟨Rat.le_of_lt hlt, by have := h.alpha.2; grind⟩
    · exact ⟨Rat.le_refl, am⟩

theorem Sane.restart {r : Recency} (h : Sane r) : Sane r.restart := by
  refine ⟨fun e => ?_, by change (3 / 50 : Rat) ≤ 2 / 5 ∧ (2 / 5 : Rat) ≤ 2 / 5; decide +kernel⟩
  have s0 : (0 : Rat) ≤ 199 / 200 := by decide +kernel
  have s1 : (199 / 200 : Rat) ≤ 1 := by decide +kernel
  have p0 := Rat.pow_nonneg (n := r.since e) s0
  have p1 := pow_le_one s0 s1 (r.since e)
  obtain ⟨w0, w1⟩ := h.score e
  have a := Rat.mul_nonneg w0 p0
  have b := Rat.mul_nonneg w0 (show 0 ≤ 1 - (199 / 200 : Rat) ^ r.since e by grind)
  change 0 ≤ r.score e * (199 / 200) ^ r.since e ∧ r.score e * (199 / 200) ^ r.since e ≤ 1
  constructor <;> grind

theorem Sane.all : ∀ (es : List (Option Nat)) {r : Recency}, Sane r → Sane (r.all es)
  | [], _, h => h
  | some c :: es, _, h => Sane.all es (h.conflict c)
  | none :: es, _, h => Sane.all es h.restart

end
end Gcs.Weighting
