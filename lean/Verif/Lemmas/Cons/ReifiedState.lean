import Verif.Lemmas.Cons.Reified
import Verif.Lemmas.Cons.Inverse

/-!
# Reified constraints that keep state
-/

namespace Gcs

section
variable {σ μ α β : Type} {J : Job} {S : α → Prop}

/-- A function that writes no constraint states leaves them alone. -/
theorem Ver.toS' {Q : α → Doms → Prop} {p : Prog σ μ α} {d : Doms} {z : List σ} (h : p.Ver { J with own := fun _ => False } S Q d) : p.VerS J S (fun v d' z' => Q v d' ∧ z' = z) d z :=
  verS_own (J := { J with own := fun _ => False }) (own := J.own) (fun _ hh => hh.elim) _ _ _ (Ver.toS (J := { J with own := fun _ => False }) (fun _ => id) _ _ _ h)

/-- Fewer assignments to look after. -/
theorem verS_weaken {C : Asg → Prop} {Q : α → Doms → List σ → Prop} : ∀ (p : Prog σ μ α) (d : Doms) (z : List σ), (∀ a, Within d a → C a → J.C a) → p.VerS J S Q d z → p.VerS { J with C } S Q d z
  | .ret _, _, _, _, h => h
  | .raise _, _, _, _, h => h
  | .fail, _, _, hc, h => fun a ha hh => h a ha (hc a ha hh)
  | .read k, d, z, hc, h => fun s e e' => verS_weaken (k s) d z hc (h s e e')
  | .infer _ _ k, d, z, hc, h => ⟨h.1, fun a ha hh => h.2.1 a ha (hc a ha hh), fun d' h1 h2 h3 => verS_weaken (k true) d' z (fun a ha => hc a ((h3 a).1 ha).1) (h.2.2.1 d' h1 h2 h3), h.2.2.2⟩
  | .progress k, d, z, hc, h => fun b => verS_weaken (k b) d z hc (h b)
  | .watch _ _ k, d, z, hc, h => ⟨h.1, h.2.1, h.2.2.1, h.2.2.2.1, verS_weaken k d z hc h.2.2.2.2⟩
  | .clearWatches k, d, z, hc, h => ⟨h.1, verS_weaken k d z hc h.2⟩
  | .setWatchState _ _ k, d, z, hc, h => ⟨h.1, verS_weaken k d z hc h.2⟩
  | .setState i v k, d, z, hc, h => ⟨h.1, verS_weaken k d (z.set i v) hc h.2⟩
  | .setMem _ _, _, _, _, h => h.elim

theorem verS_ask {T : β → Prop} {Q : β → Doms → List σ → Prop} {f : Doms → Chk α} {k : α → Prog σ μ β} {d : Doms} {z : List σ} {P : α → Prop} (ho : J.R .overflow) (h : RightOrOverflow (f d) P)
    (hk : ∀ v, P v → (k v).VerS J T Q d z) : ((Prog.ask f).bind k).VerS J T Q d z := by
  rintro s rfl rfl
  rcases h with h | ⟨v, h, hv⟩
  · simp only [h, Prog.bind]; exact ho
  · simp only [h, Prog.bind]; exact hk v hv

end

section
variable {σ μ : Type} {n m : Nat} {R : Err → Prop} {root : Doms} {I : Doms → List σ → Prop} {own : Nat → Prop} {P : Asg → Prop} {xs : List VarId} {r : Reif} {t : Triggers}
variable {hold notHold : Prog σ μ PState} {verdict : Prog σ μ Verdict}

/-- `Enforces`, for a pass that relies on `I` and maintains it. -/
def EnforcesS (n m : Nat) (R : Err → Prop) (root : Doms) (I : Doms → List σ → Prop) (own : Nat → Prop) (P : Asg → Prop) (xs : List VarId) (f : Prog σ μ PState) : Prop :=
  ∀ d z, DomsOK d → d.length = n → z.length = m → I d z →
    f.VerS { n, m, R, C := fun a => Within root a ∧ P a, own } (fun _ => True) (fun ps d' z' => Enforced (fun a => Within root a → P a) (xs.filterMap VarId.underlyingIndex) d ps d' ∧ I d' z') d z

theorem EnforcesS.serves {C : Asg → Prop} (h : EnforcesS n m R root I own P xs hold) (hc : ∀ a, Within root a → (C a ↔ P a)) (hw : Wakes t xs) (ht : t.refined = []) :
    Serves n m R root I own hold t C P xs where
  wakes := hw
  refined := by simp [ht]
  ver := fun d z h1 h2 h3 h4 => verS_mono (fun _ _ _ h => ⟨h.1.when, h.2⟩) _ _ _
    (verS_weaken (J := { n, m, R, C := fun a => Within root a ∧ P a, own }) hold d z (fun a _ hh => ⟨hh.1, (hc a hh.1).1 hh.2⟩) (h d z h1 h2 h3 h4))

theorem dispatch_enforcesS (ho : R .overflow) (hr : r.Valid n) (hI : ∀ d d' z, (∀ a, Within d' a → Within d a) → I d z → I d' z) (h1 : EnforcesS n m R root I own P xs hold)
    (h2 : EnforcesS n m R root I own (fun a => ¬ P a) xs notHold) (h3 : Judges n m R root P xs verdict) :
    EnforcesS n m R root I own (fun a => r.holds P a) (xs ++ r.vars) (dispatch r hold notHold verdict) := by
  intro d z hd hl hz hi
  refine verS_ask (f := (r.test ·)) ho (reif_test_spec hd hl hr) fun e he => ?_
  have unclaimed : ∀ {K : Asg → Prop} (ps : PState) (d' : Doms), (∀ a, Within d' a → Within d a) → (∀ a, Within d a → (r.holds P a ↔ K a)) →
      Enforced (fun a => Within root a → K a) (xs.filterMap VarId.underlyingIndex) d ps d' →
      Enforced (fun a => Within root a → r.holds P a) ((xs ++ r.vars).filterMap VarId.underlyingIndex) d ps.withoutClaim d' := by
    rintro K ps d' hs hk ⟨e1, e2, e3⟩
    refine ⟨fun hf a ha hw => (hk a (hs a ha)).2 (e1 (fun v hv => hf v ?_) a ha hw), fun hp => ?_, fun hp a ha hw => (hk a (hs a ha)).2 (e3 ?_ a ha hw)⟩
    · rw [List.filterMap_append]; exact List.mem_append_left _ hv
    · cases ps <;> simp [PState.withoutClaim] at hp
    · cases ps <;> simp [PState.withoutClaim] at hp ⊢
  cases e with
  | mustHold l =>
    refine verS_bind (J := { n, m, R, C := fun a => Within root a ∧ r.holds P a, own }) (S := fun _ => True) (f := fun ps => .ret ps.withoutClaim) (T := fun _ => True) (fun _ _ => trivial) hold d z hd hl ?_
    have key := verS_weaken (J := { n, m, R, C := fun a => Within root a ∧ P a, own }) hold d z (fun a ha (hh : Within root a ∧ r.holds P a) => ⟨hh.1, (he.2.2 P a ha).1 hh.2⟩) (h1 d z hd hl hz hi)
    exact verS_mono (fun ps d' z' hq k1 k2 k3 => ⟨unclaimed ps d' k3 (fun a ha => he.2.2 P a ha) hq.1, hq.2⟩) _ _ _ key
  | mustNotHold l =>
    refine verS_bind (J := { n, m, R, C := fun a => Within root a ∧ r.holds P a, own }) (S := fun _ => True) (f := fun ps => .ret ps.withoutClaim) (T := fun _ => True) (fun _ _ => trivial) notHold d z hd hl ?_
    have key := verS_weaken (J := { n, m, R, C := fun a => Within root a ∧ ¬ P a, own }) notHold d z (fun a ha (hh : Within root a ∧ r.holds P a) => ⟨hh.1, (he.2.2 P a ha).1 hh.2⟩) (h2 d z hd hl hz hi)
    exact verS_mono (fun ps d' z' hq k1 k2 k3 => ⟨unclaimed ps d' k3 (fun a ha => he.2.2 P a ha) hq.1, hq.2⟩) _ _ _ key
  | undecided c b1 b2 b3 =>
    obtain ⟨hcv, hmem, hvars, hu1, hu2, hm1, hm2, hval⟩ := he
    have open_ : ¬ ∀ x ∈ xs ++ r.vars, Known d x := fun h => by
      rcases cond_known (h c.var (List.mem_append_right _ hmem)) hd with h | h
      · exact hu1 h
      · exact hu2 h
    refine verS_bind (S := fun _ => False) (fun _ h => h.elim) verdict d z hd hl (verS_mono ?_ _ _ _ (Ver.toS' (J := { n, m, R, C := fun a => Within root a ∧ r.holds P a, own })
      (ver_weaken (J := { n, m, R, C := fun _ => True }) verdict d (fun _ _ _ => trivial) (h3 d hd hl))))
    rintro v d' z' ⟨⟨rfl, hv1, hv2, hv3⟩, rfl⟩ k1 k2 -
    have done : ∀ (o : Option Lit), (∀ l, o = some l → l.Valid n) → (∀ a, Within d' a → Within root a → (r.holds P a ↔ OptHolds a o)) →
        (do Prog.tellAny o; return PState.disableUntilBacktrack : Prog σ μ PState).VerS { n, m, R, C := fun a => Within root a ∧ r.holds P a, own } (fun _ => True)
          (fun ps d2 z2 => Enforced (fun a => Within root a → r.holds P a) ((xs ++ r.vars).filterMap VarId.underlyingIndex) d' ps d2 ∧ I d2 z2) d' z' := by
      intro o hv hh
      cases o with
      | none => exact ⟨⟨fun _ a ha hw => (hh a ha hw).2 trivial, fun _ _ a ha hw => (hh a ha hw).2 trivial, fun _ a ha hw => (hh a ha hw).2 trivial⟩, hi⟩
      | some l =>
        refine ⟨hv l rfl, fun a ha hc => (hh a ha hc.1).1 hc.2, fun d2 _ _ h3 => ?_, fun h => nomatch h⟩
        have all : ∀ a, Within d2 a → Within root a → r.holds P a := fun a ha hw => (hh a ((h3 a).1 ha).1 hw).2 ((h3 a).1 ha).2
        exact ⟨⟨fun _ => all, fun _ _ => all, fun _ => all⟩, hI _ _ _ (fun a ha => ((h3 a).1 ha).1) hi⟩
    cases v with
    | stillUndecided =>
      exact ⟨Enforced.intro (fun h => absurd h open_) (by rintro ⟨⟩) (by rintro ⟨⟩), hi⟩
    | mustHold => exact done _ (fun l hl => hval l (.inl hl)) fun a ha hw => hm1 P a (hv1 rfl a ha hw)
    | mustNotHold => exact done _ (fun l hl => hval l (.inr hl)) fun a ha hw => hm2 P a (hv2 rfl a ha hw)
  | deactivated =>
    have all : ∀ a, Within d a → Within root a → r.holds P a := fun a ha _ => he P a ha
    exact ⟨⟨fun _ => all, fun _ _ => all, fun _ => all⟩, hi⟩

/-- C47 for constraints that keep state. -/
theorem dispatcher_served {z0 : List σ} (ho : R .overflow) (hroot : DomsOK root) (hlen : root.length = n) (hr : r.Valid n) (hI : ∀ d d' z, (∀ a, Within d' a → Within d a) → I d z → I d' z)
    (honly : ∀ d z z', (∀ h, own h → z'[h]? = z[h]?) → I d z → I d z') (hstart : ∀ d, I d z0)
    (h1 : EnforcesS n m R root I own P xs hold) (h2 : EnforcesS n m R root I own (fun a => ¬ P a) xs notHold) (h3 : Judges n m R root P xs verdict) (hw : Wakes t xs) (ht : t.refined = [])
    {e : Evaluated} (he : r.test root = .ok e) :
    ∃ es, es.map (·.1) = installDispatcher e r t hold notHold verdict ∧ Served n m R root z0 I own (fun a => r.holds P a) (xs ++ r.vars) es := by
  have ev := (reif_test_spec hroot hlen hr).value he
  have one : ∀ {f : Prog σ μ PState} {t' : Triggers} {c : Asg → Prop} {ys : List VarId}, (∀ y ∈ ys, y ∈ xs ++ r.vars) → Serves n m R root I own f t' (fun a => r.holds P a) c ys →
      (∀ a, Within root a → (r.holds P a ↔ c a)) → Served n m R root z0 I own (fun a => r.holds P a) (xs ++ r.vars) [(Item.prop f t', c)] := by
    intro f t' c ys hy hs hc
    refine ⟨fun p hp => ?_, fun a ha => ?_, fun d d' z _ _ hsub hi => hI d d' z hsub hi, honly, fun d _ _ _ => hstart d⟩
    · rw [List.mem_singleton.1 hp]; exact ⟨ys, hy, hs⟩
    · rw [hc a ha]; simp
  cases e with
  | deactivated => exact ⟨[], rfl, by simp, fun a ha => by simpa using ev P a ha, fun d d' z _ _ hsub hi => hI d d' z hsub hi, honly, fun d _ _ _ => hstart d⟩
  | mustHold l => exact ⟨_, rfl, one (fun y hy => List.mem_append_left _ hy) (h1.serves (fun a ha => ev.2.2 P a ha) hw ht) fun a ha => ev.2.2 P a ha⟩
  | mustNotHold l => exact ⟨_, rfl, one (fun y hy => List.mem_append_left _ hy) (h2.serves (fun a ha => ev.2.2 P a ha) hw ht) fun a ha => ev.2.2 P a ha⟩
  | undecided c b1 b2 b3 =>
    refine ⟨_, rfl, one (fun y hy => hy) ((dispatch_enforcesS ho hr hI h1 h2 h3).serves (fun _ _ => Iff.rfl) ?_ (by rw [addFor_refined, ht])) fun _ _ => Iff.rfl⟩
    intro x hx v hv
    rcases List.mem_append.1 hx with hx | hx
    · obtain ⟨y, hy, e⟩ := hw x hx v hv
      exact wakes_addFor _ hy e
    · rw [ev.2.2.1] at hx
      rw [List.mem_singleton.1 hx] at hv
      exact ⟨c.var, (wakes_cond c).imp id .inl, hv⟩

end
end Gcs
