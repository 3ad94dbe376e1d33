import Verif.Lemmas.Cons.Counting

namespace Gcs.InSet
open IntervalSet

section
variable {σ μ : Type} {n m : Nat} {R : Err → Prop} {root d : Doms} {var : VarId} {vars : List VarId} {vals : List Int}

/-- The value is one of the given values or the value of one of the given variables. -/
abbrev IsIn (var : VarId) (vars : List VarId) (vals : List Int) (a : Asg) : Prop := var.eval a ∈ vals ∨ ∃ V ∈ vars, V.eval a = var.eval a

theorem runs_roo : ∀ (vs : List Int) (rs : List (Int × Int)), (∀ v ∈ vs, InI64 v) → (∀ r ∈ rs, InI64 r.1 ∧ InI64 r.2 ∧ r.1 ≤ r.2 ∧ ∀ x, r.1 ≤ x → x ≤ r.2 → x ∉ vals) →
    RightOrOverflow (runs vals rs vs) (fun out => (∀ r ∈ out, InI64 r.1 ∧ InI64 r.2 ∧ r.1 ≤ r.2 ∧ ∀ x, r.1 ≤ x → x ≤ r.2 → x ∉ vals) ∧
      (∀ x, (∃ r ∈ rs, r.1 ≤ x ∧ x ≤ r.2) → ∃ r ∈ out, r.1 ≤ x ∧ x ≤ r.2) ∧ ∀ x ∈ vs, x ∈ vals ∨ ∃ r ∈ out, r.1 ≤ x ∧ x ≤ r.2)
  | [], rs, _, h => .pure ⟨h, fun _ h => h, by simp⟩
  | v :: vs, rs, hv, h => by
    have hv' : ∀ w ∈ vs, InI64 w := fun w hw => hv w (List.mem_cons_of_mem _ hw)
    have hI := hv v (by simp)
    unfold runs
    split
    · rename_i hm
      refine (runs_roo vs rs hv' h).mono fun out ho => ⟨ho.1, ho.2.1, fun x hx => ?_⟩
      rcases List.mem_cons.1 hx with rfl | hx
      · exact .inl hm
      · exact ho.2.2 x hx
    · rename_i hm
      have single : ∀ x, v ≤ x → x ≤ v → x ∉ vals := fun x h1 h2 => by rw [show x = v by omega]; exact hm
      have next : ∀ rs', (∀ r ∈ rs', InI64 r.1 ∧ InI64 r.2 ∧ r.1 ≤ r.2 ∧ ∀ x, r.1 ≤ x → x ≤ r.2 → x ∉ vals) → (∀ x, (∃ r ∈ rs, r.1 ≤ x ∧ x ≤ r.2) → ∃ r ∈ rs', r.1 ≤ x ∧ x ≤ r.2) → (∃ r ∈ rs', r.1 ≤ v ∧ v ≤ r.2) →
          RightOrOverflow (runs vals rs' vs) (fun out => (∀ r ∈ out, InI64 r.1 ∧ InI64 r.2 ∧ r.1 ≤ r.2 ∧ ∀ x, r.1 ≤ x → x ≤ r.2 → x ∉ vals) ∧
            (∀ x, (∃ r ∈ rs, r.1 ≤ x ∧ x ≤ r.2) → ∃ r ∈ out, r.1 ≤ x ∧ x ≤ r.2) ∧ ∀ x ∈ v :: vs, x ∈ vals ∨ ∃ r ∈ out, r.1 ≤ x ∧ x ≤ r.2) := by
        refine fun rs' h1 h2 h3 => (runs_roo vs rs' hv' h1).mono fun out ho => ⟨ho.1, fun x hx => ho.2.1 x (h2 x hx), fun x hx => ?_⟩
        rcases List.mem_cons.1 hx with rfl | hx
        · exact .inr (ho.2.1 x h3)
        · exact ho.2.2 x hx
      cases rs with
      | nil => exact next [(v, v)] (fun r hr => by rw [List.mem_singleton.1 hr]; exact ⟨hI, hI, Int.le_refl _, single⟩) (by simp) ⟨(v, v), by simp⟩
      | cons r rs' =>
        obtain ⟨l, u⟩ := r
        have h0 := h (l, u) (by simp)
        refine (add_roo h0.2.1 (by decide)).bind fun w hw => ?_
        split
        · rename_i e
          refine next _ (fun r hr => ?_) (fun x ⟨r, hr, hx⟩ => ?_) ?_
          · rcases List.mem_cons.1 hr with rfl | hr
            · refine ⟨h0.1, hI, by have := hw.1; have := h0.2.2.1; dsimp only at *; omega, fun x h1 h2 => ?_⟩
              have := hw.1
              dsimp only at h1 h2 this
              by_cases e' : x = v
              · exact e' ▸ hm
              · exact h0.2.2.2 x h1 (by dsimp only; omega)
            · exact h r (List.mem_cons_of_mem _ hr)
          · rcases List.mem_cons.1 hr with rfl | hr
            · have := hw.1
              exact ⟨(l, v), by simp, hx.1, by dsimp only at hx this ⊢; omega⟩
            · exact ⟨r, List.mem_cons_of_mem _ hr, hx⟩
          · exact ⟨(l, v), by simp, by have := hw.1; have := h0.2.2.1; dsimp only at *; omega, Int.le_refl _⟩
        · refine next _ (fun r hr => ?_) (fun x ⟨r, hr, hx⟩ => ⟨r, List.mem_cons_of_mem _ hr, hx⟩) ⟨(v, v), by simp, Int.le_refl _, Int.le_refl _⟩
          rcases List.mem_cons.1 hr with rfl | hr
          · exact ⟨hI, hI, Int.le_refl _, single⟩
          · exact h r hr

theorem supports_roo (hd : DomsOK d) (hvar : var.Valid d.length) : ∀ (Vs : List VarId) (first : Option VarId), (∀ V ∈ Vs, V.Valid d.length) →
    RightOrOverflow (supports d var first Vs) (fun r => ∀ V, r = (some V, false) → (first = some V ∨ first = none ∧ V ∈ Vs) ∧ ∀ W ∈ Vs, (∃ y, Poss d W y ∧ Poss d var y) → first = none ∧ W = V)
  | [], first, _ => .pure fun V e => by cases e; exact ⟨.inl rfl, by simp⟩
  | W :: Vs, first, hV => by
    have hV' : ∀ V ∈ Vs, V.Valid d.length := fun V h => hV V (List.mem_cons_of_mem _ h)
    refine (listed_roo hd (hV W (by simp))).bind fun g hg => ?_
    refine (anyOfGen_roo hg fun x hx _ => inDomain_spec hd hvar x hx).bind fun b hb => ?_
    cases b with
    | false =>
      refine (supports_roo hd hvar Vs first hV').mono fun r hr V e => ?_
      obtain ⟨h1, h2⟩ := hr V e
      refine ⟨h1.imp id fun h => ⟨h.1, List.mem_cons_of_mem _ h.2⟩, fun U hU ho => ?_⟩
      rcases List.mem_cons.1 hU with rfl | hU
      · have := hb.2 ho; cases this
      · exact h2 U hU ho
    | true =>
      cases first with
      | none =>
        refine (supports_roo hd hvar Vs (some W) hV').mono fun r hr V e => ?_
        obtain ⟨h1, h2⟩ := hr V e
        have none_left : ∀ U ∈ Vs, ¬ ∃ y, Poss d U y ∧ Poss d var y := fun U hU ho => by have := (h2 U hU ho).1; cases this
        rcases h1 with h1 | h1
        · cases h1
          refine ⟨.inr ⟨rfl, by simp⟩, fun U hU ho => ⟨rfl, ?_⟩⟩
          rcases List.mem_cons.1 hU with rfl | hU
          · rfl
          · exact absurd ho (none_left U hU)
        · cases h1.1
      | some f => exact .pure fun V e => by cases e

theorem ver_narrow (ho : R .overflow) (hvar : var.Valid n) (hv : ∀ V ∈ vars, V.Valid n) (hd : DomsOK d) (hl : d.length = n) :
    (narrow (σ := σ) (μ := μ) var vars vals).Ver { n, m, R, C := fun a => Within root a ∧ IsIn var vars vals a } (fun _ => False)
      (fun _ d' => (∀ x ∈ var :: vars, Known d x) → ∀ a, Within d' a → IsIn var vars vals a) d := by
  subst hl
  refine ver_ask (f := (eachValue · var)) ho (listed_roo hd hvar) fun g hg => ?_
  split
  · rename_i hne
    subst hne
    refine ver_lift ho (collect_roo hg) fun vs hvs => ?_
    refine ver_lift ho (runs_roo vs [] hvs.1 (by simp)) fun rs hrs => ?_
    refine ver_mono (fun _ d' hq _ a ha => ?_) _ _ (ver_tells (lit := fun r : Int × Int => .cond ⟨var, .notInRange, r.1, r.2⟩) hd rfl rs.reverse (fun r hr => ?_) fun r hr a ha hC => ?_)
    · obtain ⟨k1, k2⟩ := (hq a).1 ha
      refine .inl ((hrs.2.2 _ ((hvs.2 _).2 (k1.poss var))).resolve_right fun ⟨r, hr, h1, h2⟩ => ?_)
      have := k2 r (List.mem_reverse.2 hr)
      simp [Lit.holds, Cond.holds] at this
      omega
    · have := hrs.1 r (List.mem_reverse.1 hr)
      exact ⟨hvar, this.1, this.2.1⟩
    · have := (hrs.1 r (List.mem_reverse.1 hr)).2.2.2
      have hin : var.eval a ∈ vals := hC.2.resolve_right (by simp)
      simp only [Lit.holds, Cond.holds]
      intro h
      exact this _ h.1 h.2 hin
  · refine ver_mono (fun _ d' hq hk a ha => ?_) _ _ (ver_gen (J := { n := d.length, m, R, C := fun a => Within root a ∧ IsIn var vars vals a })
      (fun xs d' => (∀ x ∈ xs, InI64 x) ∧ (∀ a, Within d' a → Within d a) ∧ (g.2 = none → (∀ x ∈ var :: vars, Known d x) → ∀ a, Within d' a → var.eval a ∈ xs ∨ IsIn var vars vals a))
      hd rfl (fun e h => hg.2.2 e h ▸ ho) ?_ ⟨fun x hx => (hg.1 x hx).1, fun _ h => h, fun e _ a ha => .inl (hg.2.1 e _ (ha.poss var))⟩)
    · exact (hq.1.2.2 hq.2 hk a ha).resolve_left (by simp)
    · rintro v xs d1 hd1 hl1 ⟨hI, hsub, hinv⟩
      have hI' : ∀ x ∈ xs, InI64 x := fun x hx => hI x (List.mem_cons_of_mem _ hx)
      have hIv := hI v (by simp)
      split
      · rename_i hm
        refine ⟨hI', hsub, fun e hk a ha => ?_⟩
        rcases hinv e hk a ha with h | h
        · rcases List.mem_cons.1 h with h | h
          · exact .inr (.inl (h ▸ hm))
          · exact .inl h
        · exact .inr h
      · rename_i hm
        refine ver_ask (f := fun d => anyOf (inDomain d · v) vars) ho (anyOf_roo vars fun V hV => inDomain_spec hd1 (hl1.symm ▸ hv V hV) v hIv) fun b hb => ?_
        cases b with
        | true =>
          refine ⟨hI', hsub, fun e hk a ha => ?_⟩
          rcases hinv e hk a ha with h | h
          · rcases List.mem_cons.1 h with h | h
            · obtain ⟨V, h1, h2⟩ := hb.1 rfl
              exact .inr (.inr ⟨V, h1, h ▸ ((hk V (by simp [h1])).sub hsub).poss ha h2⟩)
            · exact .inl h
          · exact .inr h
        | false =>
          refine ver_tell_last (.ne hvar hIv) (fun a ha hC => ?_) fun d2 _ _ h3 => ⟨hI', fun a ha => hsub a ((h3 a).1 ha).1, fun e hk a ha => ?_⟩
          · rw [Lit.holds_ne]; intro e
            rcases hC.2 with h | ⟨V, h1, h2⟩
            · exact hm (e ▸ h)
            · have := hb.2 ⟨V, h1, a, ha, by rw [h2, e]⟩; cases this
          · obtain ⟨k1, k2⟩ := (h3 a).1 ha
            exact (hinv e hk a k1).imp (fun h => (List.mem_cons.1 h).resolve_left k2) id

theorem ver_mirror {J : Job} {V : VarId} (ho : J.R .overflow) (hvar : var.Valid J.n) (hV : V.Valid J.n) (hd : DomsOK d) (hl : d.length = J.n) (hs : ∀ a, Within d a → J.C a → V.eval a = var.eval a) :
    (mirror (σ := σ) (μ := μ) var V).Ver J (fun _ => False) (fun _ _ => True) d := by
  refine ver_ask (f := (eachValue · V)) ho (listed_roo hd (hl ▸ hV)) fun g hg => ?_
  refine ver_mono (fun _ _ _ => trivial) _ _ (ver_gen (fun xs d' => (∀ x ∈ xs, InI64 x) ∧ ∀ a, Within d' a → Within d a) hd hl (fun e h => hg.2.2 e h ▸ ho) ?_ ⟨fun x hx => (hg.1 x hx).1, fun _ h => h⟩)
  rintro v xs d1 hd1 hl1 ⟨hI, hsub⟩
  have hI' : ∀ x ∈ xs, InI64 x := fun x hx => hI x (List.mem_cons_of_mem _ hx)
  refine ver_ask (f := (inDomain · var v)) ho (inDomain_spec hd1 (hl1 ▸ hvar) v (hI v (by simp))) fun b hb => ?_
  cases b with
  | true => exact ⟨hI', hsub⟩
  | false =>
    refine ver_tell_last (.ne hV (hI v (by simp))) (fun a ha hC => ?_) fun d2 _ _ h3 => ⟨hI', fun a ha => hsub a ((h3 a).1 ha).1⟩
    rw [Lit.holds_ne]; intro e
    have := hb.2 ⟨a, ha, by rw [← hs a (hsub a ha) hC, e]⟩
    cases this

theorem ver_last (ho : R .overflow) (hvar : var.Valid n) (hv : ∀ V ∈ vars, V.Valid n) (hvals : ∀ x ∈ vals, InI64 x) (hd : DomsOK d) (hl : d.length = n) :
    (last (σ := σ) (μ := μ) var vars vals).Ver { n, m, R, C := fun a => Within root a ∧ IsIn var vars vals a } (fun _ => False) (fun _ _ => True) d := by
  subst hl
  refine ver_ask (f := (supports · var none vars)) ho (supports_roo hd hvar vars none hv) fun s hs => ?_
  refine ver_ask (f := fun d => anyOf (inDomain d var ·) vals) ho (anyOf_roo vals fun x hx => inDomain_spec hd hvar x (hvals x hx)) fun c hc => ?_
  split
  · rename_i V
    obtain ⟨h1, h2⟩ := hs V rfl
    have hV := (h1.resolve_left (by simp)).2
    refine ver_mirror ho hvar (hv V hV) hd rfl fun a ha hC => ?_
    rcases hC.2 with h | ⟨W, h3, h4⟩
    · have := hc.2 ⟨_, h, ha.poss var⟩; cases this
    · rw [← (h2 W h3 ⟨_, ha.poss W, h4 ▸ ha.poss var⟩).2, h4]
  · trivial

theorem prop_enforces (ho : R .overflow) (hvar : var.Valid n) (hv : ∀ V ∈ vars, V.Valid n) (hvals : ∀ x ∈ vals, InI64 x) :
    Enforces n m R root (IsIn var vars vals) (var :: vars) (prop (σ := σ) (μ := μ) var vars vals) := by
  intro d hd hl
  refine ver_seq (S := fun _ => False) hd hl (fun _ h => h) (ver_narrow ho hvar hv hd hl) fun _ d1 hd1 hl1 hs1 hq => ?_
  refine ver_seq (S := fun _ => False) hd1 hl1 (fun _ h => h) (ver_last ho hvar hv hvals hd1 hl1) fun _ d2 hd2 hl2 hs2 _ => ?_
  refine ver_ask (f := (optionalSingleValue · var)) ho (single_pin hd2 (hl2 ▸ hvar)) fun r hr => ?_
  have kn : (∀ x ∈ var :: vars, Known d x) → ∀ a, Within d2 a → Within root a → IsIn var vars vals a := fun hk a ha _ => hq hk a (hs2 a ha)
  cases r with
  | none => exact .intro kn (fun h => nomatch h) fun h => nomatch h
  | some x =>
    dsimp only
    split
    · rename_i hx
      exact .intro kn (fun h => nomatch h) fun _ a ha _ => .inl ((hr x).1.1 rfl a ha ▸ hx)
    · exact .intro kn (fun h => nomatch h) fun h => nomatch h

theorem isIn_split (a : Asg) : IsIn var vars vals a ↔ IsIn var (vars.filter (·.constValue.isNone)) (vals ++ vars.filterMap VarId.constValue) a := by
  simp only [IsIn, List.mem_append, List.mem_filterMap, List.mem_filter]
  constructor
  · rintro (h | ⟨V, h1, h2⟩)
    · exact .inl (.inl h)
    · cases V with
      | const c => exact .inl (.inr ⟨_, h1, by rw [← h2]; rfl⟩)
      | simple i => exact .inr ⟨_, ⟨h1, rfl⟩, h2⟩
      | view i b k => exact .inr ⟨_, ⟨h1, rfl⟩, h2⟩
  · rintro ((h | ⟨V, h1, h2⟩) | ⟨V, h1, h2⟩)
    · exact .inl h
    · cases V with
      | const c => exact .inr ⟨_, h1, Option.some.inj h2⟩
      | simple i => cases h2
      | view i b k => cases h2
    · exact .inr ⟨V, h1.1, h2⟩

theorem install_right (ho : R .overflow) (hvar : var.Valid n) (hv : ∀ V ∈ vars, V.Valid n) (hvals : ∀ x ∈ vals, InI64 x) :
    (Posted.mk (install (σ := σ) (μ := μ) var vars vals) (IsIn var vars vals) (var :: vars)).Right n m R root (fun _ => False) := by
  refine ⟨fun items e => ?_, fun e he => ?_⟩
  · replace e : install var vars vals root = _ := e
    simp only [install] at e
    split at e
    · rename_i h
      cases e
      refine Posts.one fun d hd hl => ?_
      intro a ha hC
      have := (isIn_split a).1 hC.2
      rw [h.1, h.2] at this
      rcases this with h | ⟨_, h, _⟩ <;> cases h
    · cases e
      refine Posts.one' (IsIn var (vars.filter (·.constValue.isNone)) (vals ++ vars.filterMap VarId.constValue)) ⟨var :: vars.filter (·.constValue.isNone), fun y hy => ?_, Enforces.implements (prop_enforces ho hvar (fun V hV => hv V (List.mem_filter.1 hV).1) fun x hx => ?_)
        (fun a _ => isIn_split a) (wakes_mem fun x hx => .inl hx) rfl⟩ fun a _ => isIn_split a
      · rcases List.mem_cons.1 hy with rfl | hy
        · simp
        · exact List.mem_cons_of_mem _ (List.mem_filter.1 hy).1
      · rcases List.mem_append.1 hx with hx | hx
        · exact hvals x hx
        · obtain ⟨V, h1, h2⟩ := List.mem_filterMap.1 hx
          cases V with
          | const c => cases h2; exact hv _ h1
          | simple i => cases h2
          | view i b k => cases h2
  · replace he : install var vars vals root = _ := he
    simp only [install] at he
    split at he <;> cases he

end
end Gcs.InSet
