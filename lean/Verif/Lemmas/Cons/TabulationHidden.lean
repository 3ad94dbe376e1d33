import Verif.Lemmas.Cons.TabulationServe
import Verif.Props.Cons.Power

/-!
# Tables with a column for a variable that the constraint has made for itself

If the other columns and the constraint determine that column, it need not be fixed for the table to be checked.
-/

namespace Gcs
open IntervalSet

namespace Tabulation

section
variable {σ μ : Type} {n m : Nat} {R : Err → Prop} {root : Doms} {ys xs : List VarId} {h : Nat} {sel : VarId} {ts : List (List (Option Int))} {fresh : Nat → Bool} {cache : Nat → Nat → Int → Option Nat} {z0 : List σ}

/-- An assignment with another value for one variable. -/
def alter (a : Asg) (h : Nat) (w : Int) : Asg := fun v => if v = h then w else a v

theorem alter_off {v : VarId} (hv : v.underlyingIndex ≠ some h) (a : Asg) (w : Int) : v.eval (alter a h w) = v.eval a :=
  VarId.eval_congr fun i hi => if_neg fun (e : i = h) => hv (e ▸ hi)

theorem alter_within {d : Doms} {a : Asg} {w : Int} (ha : Within d a) (hw : Poss d (.simple h) w) : Within d (alter a h w) := by
  intro v s hs
  unfold alter
  split
  · rename_i e; subst e
    obtain ⟨b, hb, e⟩ := hw
    rw [← e]; exact hb _ s hs
  · exact ha v s hs

/-- What is left is the tuple that fits. -/
theorem matches_hidden {d : Doms} {base : Asg → Prop} (hap : ∀ v ∈ ys, v.underlyingIndex ≠ some h) (hroot : ∀ a, Within d a → Within root a)
    (hfun : ∀ a w, Within root a → Within root (alter a h w) → base a → InTable ts (ys ++ [VarId.simple h]) (alter a h w) → w = a h) (hk : ∀ v ∈ ys, Known d v) {t : List (Option Int)} (ht : t ∈ ts) (hc : Table.Can d (ys ++ [VarId.simple h]) t)
    {a : Asg} (ha : Within d a) (hb : base a) : Matches t (ys ++ [VarId.simple h]) a := by
  have hys : ∀ (p : Nat) v x, ys[p]? = some v → t[p]? = some (some x) → x = v.eval a := fun p v x hp hx => by
    have hlt := (List.getElem?_eq_some_iff.1 hp).1
    obtain ⟨b, hb, e⟩ := hc p v x (by rw [List.getElem?_append_left hlt]; exact hp) hx
    rw [← e, hk v (List.mem_of_getElem? hp) b a hb ha]
  have hlast : ∀ x, t[ys.length]? = some (some x) → x = a h := fun x hx => by
    have hp : Poss d (.simple h) x := hc ys.length _ x (by simp) hx
    have hw := alter_within ha hp
    refine hfun a x (hroot a ha) (hroot _ hw) hb ⟨t, ht, fun p v e hv he => ?_⟩
    cases e with
    | none => exact .inl rfl
    | some x' =>
      refine .inr ?_
      by_cases hlt : p < ys.length
      · rw [List.getElem?_append_left hlt] at hv
        rw [alter_off (hap v (List.mem_of_getElem? hv)), hys p v x' hv he]
      · have hp' : p = ys.length := by
          have := (List.getElem?_eq_some_iff.1 hv).1
          simp at this; omega
        subst hp'
        simp at hv; subst hv
        rw [hx] at he; cases he
        simp [VarId.eval, alter]
  intro p v e hv he
  cases e with
  | none => exact .inl rfl
  | some x =>
    refine .inr ?_
    by_cases hlt : p < ys.length
    · rw [List.getElem?_append_left hlt] at hv
      rw [hys p v x hv he]
    · have hp' : p = ys.length := by
        have := (List.getElem?_eq_some_iff.1 hv).1
        simp at this; omega
      subst hp'
      simp at hv; subst hv
      rw [hlast x he]; rfl

/-- The propagator for the table. -/
theorem table_serves_hidden {base : Asg → Prop} (ho : R .overflow) (hs : sel.Valid n) (hv : ∀ v ∈ ys ++ [VarId.simple h], v.Valid n) (ht : Table.Shaped (ys ++ [VarId.simple h]).length ts) (hoff : Table.Off sel (ys ++ [VarId.simple h]))
    (hap : ∀ v ∈ ys, v.underlyingIndex ≠ some h) (hfun : ∀ a w, Within root a → Within root (alter a h w) → base a → InTable ts (ys ++ [VarId.simple h]) (alter a h w) → w = a h) :
    Serves n m R root (fun d _ => Inverse.Inside d 0 ts.length [sel] ∧ ∀ a, Within d a → Within root a) (fun _ => False) (Table.prop (σ := σ) (μ := μ) sel (ys ++ [VarId.simple h]) ts fresh cache) { onChange := ys ++ [VarId.simple h] }
      (fun a => base a ∧ Selected ts (ys ++ [VarId.simple h]) sel a) (fun a => base a → Selected ts (ys ++ [VarId.simple h]) sel a) ys := by
  refine Inverse.serves_of_ver (I := fun d => Inverse.Inside d 0 ts.length [sel] ∧ ∀ a, Within d a → Within root a) (wakes_mem fun z hz => .inl (List.mem_append_left _ hz)) rfl (fun d d' hs hi => ⟨hi.1.sub hs, fun a ha => hi.2 a (hs a ha)⟩) fun d hd hl hi => ?_
  have hin : ∀ k, Poss d sel k → 0 ≤ k ∧ k < ts.length := fun k hk => by have := hi.1 sel (by simp) k hk; omega
  refine ver_mono (fun ps d' hq => ?_) _ _ (ver_facts _ _ hd hl (Table.prop_ver (J := { n, m, R, C := fun a => Within root a ∧ base a ∧ Selected ts (ys ++ [VarId.simple h]) sel a }) ho hs hv ht (fun a h => h.2.2) fresh cache hd hl hin))
  obtain ⟨⟨-, -, k3⟩, rfl, h1, h2⟩ := hq
  have hin' : ∀ k, Poss d' sel k → 0 ≤ k ∧ k < ts.length := fun k hk => hin k (Inverse.Poss.mono k3 hk)
  have out : ∀ a, Within d' a → (∀ k, Poss d' sel k → ∀ t, ts[k.toNat]? = some t → Matches t (ys ++ [VarId.simple h]) a) → Selected ts (ys ++ [VarId.simple h]) sel a := fun a ha hm => by
    have hk := hin' _ (ha.poss sel)
    have hlt : (sel.eval a).toNat < ts.length := by omega
    exact ⟨(sel.eval a).toNat, ts[(sel.eval a).toNat], by omega, List.getElem?_eq_getElem hlt, hm _ (ha.poss sel) _ (List.getElem?_eq_getElem hlt)⟩
  refine ⟨fun hk a ha _ hb => out a ha fun k hp t ht' => ?_, fun hD _ hk a ha _ hb => out a ha fun k hp t ht' => ?_, fun e => nomatch e⟩
  · obtain ⟨t', e, hc⟩ := h1 k hp
    rw [ht'] at e; cases e
    exact matches_hidden hap hi.2 hfun (known_all hk) (List.mem_of_getElem? ht') hc (k3 a ha) hb
  · have hn : ((ys ++ [VarId.simple h]).filterMap VarId.underlyingIndex).Nodup := by simpa [Triggers.Distinct] using hD
    have hsep : Table.Separate sel (ys ++ [VarId.simple h]) := ⟨hoff, fun p q v w hp hq hne => by
      rcases Nat.lt_or_gt_of_ne hne with hlt | hlt
      · exact Table.nodup_apart hn p q v w hp hq hlt
      · exact Table.apart_symm (Table.nodup_apart hn q p w v hq hp hlt)⟩
    obtain ⟨t', e, hc⟩ := (h2 hsep).1 k hp
    rw [ht'] at e; cases e
    exact matches_hidden hap (fun a ha => hi.2 a (k3 a ha)) hfun (known_all hk) (List.mem_of_getElem? ht') hc ha hb

/-- A constraint and a table. -/
theorem items_serve_hidden {C : Asg → Prop} {its : List (Item σ μ)} (ho : R .overflow) (hb : Posts n m R root C xs its) (hs : sel.Valid n) (hv : ∀ v ∈ ys ++ [VarId.simple h], v.Valid n) (hx : ∀ v ∈ ys, v ∈ xs)
    (ht : Table.Shaped (ys ++ [VarId.simple h]).length ts) (hoff : Table.Off sel (ys ++ [VarId.simple h])) (hsel : ts ≠ [] → ∀ a, Within root a → 0 ≤ sel.eval a ∧ sel.eval a < ts.length)
    (hap : ∀ v ∈ ys, v.underlyingIndex ≠ some h) (hfun : ∀ a w, Within root a → Within root (alter a h w) → C a → InTable ts (ys ++ [VarId.simple h]) (alter a h w) → w = a h) :
    ∃ I es, es.map (·.1) = its ++ items sel (ys ++ [VarId.simple h]) ts fresh cache ∧ Served n m R root z0 I (fun _ => False) (fun a => C a ∧ Selected ts (ys ++ [VarId.simple h]) sel a) xs es := by
  obtain ⟨es, e1, h2, h3⟩ := hb
  by_cases h0 : ts = []
  · subst h0
    refine ⟨fun _ _ => True, es ++ [(.init .expensive (.tell .ff), fun _ => False)], by simp [items, e1], fun p hp => ?_, fun a ha => ?_, fun _ _ _ _ _ _ _ => trivial, fun _ _ _ _ _ => trivial, fun _ _ _ _ => trivial⟩
    · rcases List.mem_append.1 hp with hp | hp
      · exact served_of_ok (fun _ _ _ _ _ _ _ => trivial) (fun _ _ h => h.1) (h2 p hp)
      · rw [List.mem_singleton] at hp; subst hp
        intro d hd hl
        refine ver_tell (trivial : Lit.Valid _ .ff) (fun a _ ⟨_, _, k, t, _, h, _⟩ => by simp at h) fun d' _ _ hd' a ha _ => ?_
        exact ((hd' a).1 ha).2
    · constructor
      · rintro ⟨_, k, t, _, h, _⟩; simp at h
      · intro h; exact (h _ (List.mem_append_right _ (List.mem_singleton.2 rfl))).elim
  · refine ⟨fun d _ => Inverse.Inside d 0 ts.length [sel] ∧ ∀ a, Within d a → Within root a,
      es ++ [(.prop (Table.prop sel (ys ++ [VarId.simple h]) ts fresh cache) { onChange := ys ++ [VarId.simple h] }, fun a => C a → Selected ts (ys ++ [VarId.simple h]) sel a)], by simp [items, e1, h0], fun p hp => ?_, fun a ha => ?_,
      fun d d' z _ _ hs hi => ⟨hi.1.sub hs, fun a ha => hi.2 a (hs a ha)⟩, fun _ _ _ _ h => h, fun d hd hl hq => ⟨?_, fun a ha => (hq a ha).1⟩⟩
    · rcases List.mem_append.1 hp with hp | hp
      · exact served_of_ok (fun _ _ _ _ _ hs hi => ⟨hi.1.sub hs, fun a ha => hi.2 a (hs a ha)⟩) (fun _ _ h => h.1) (h2 p hp)
      · rw [List.mem_singleton] at hp; subst hp
        exact ⟨ys, hx, table_serves_hidden ho hs hv ht hoff hap hfun⟩
    · rw [h3 a ha]
      constructor
      · rintro ⟨k1, k2⟩ p hp
        rcases List.mem_append.1 hp with hp | hp
        · exact k1 p hp
        · rw [List.mem_singleton] at hp; subst hp; exact fun _ => k2
      · intro h
        have k1 : ∀ p ∈ es, p.2 a := fun p hp => h p (List.mem_append_left _ hp)
        exact ⟨k1, h _ (List.mem_append_right _ (List.mem_singleton.2 rfl)) ((h3 a ha).2 k1)⟩
    · exact Inverse.inside_of fun a ha v hv => by
        rw [List.mem_singleton] at hv; subst hv
        have := hsel h0 a (hq a ha).1
        omega

end

section
variable {σ μ : Type} {m : Nat} {R : Err → Prop} {root : Doms} {s : Nat} {xs : List VarId} {fresh : Nat → Bool} {cache : Nat → Nat → Int → Option Nat} {z0 : List σ}
variable {base : Posted σ μ} {tab : Doms → Chk (Option (List VarId × List (List (Option Int))))} {C : Asg → Prop} {h : Nat}

/-- A constraint that may add a table with a column for a variable of its own. -/
theorem posted_serves_hidden (ho : R .overflow) (hb : base.OK root.length m R root) (ht : ∀ p, tab root = .ok (some p) → Tabulates root xs C p ∧ ∃ ys, p.1 = ys ++ [VarId.simple h] ∧ ∀ v ∈ ys, v ∈ base.about)
    (hs : Selects root xs (tab root) s) (hap : ∀ v ∈ base.about, v.underlyingIndex ≠ some h) (hfun : ∀ a w, Within root a → Within root (alter a h w) → base.holds a → C (alter a h w) → w = a h) :
    (posted root base tab s fresh cache).Serves root.length m R root z0 (fun _ => False) := by
  intro items e
  dsimp only [addTable] at e
  cases et : tab root with
  | error er => rw [et] at e; cases e
  | ok o =>
    cases eb : base.install root with
    | error er => rw [et, eb] at e; cases e
    | ok is =>
      rw [et, eb] at e
      cases o with
      | none =>
        cases e
        have := Posted.OK.serves (c := ⟨fun _ => .ok (is ++ []), fun a => base.holds a ∧ ∀ p, tab root = .ok (some p) → Selected p.2 p.1 (.simple s) a, base.about⟩) (n := root.length) (m := m) (R := R) (root := root)
          (fun its e' => by
            cases e'
            rw [List.append_nil]
            exact Posts.congr (hb is eb) fun a => ⟨fun h => ⟨h, fun p hp => by rw [et] at hp; cases hp⟩, fun h => h.1⟩) z0 (fun _ => False)
        exact this _ rfl
      | some p =>
        cases e
        obtain ⟨hp, ys, e, hys⟩ := ht p et
        obtain ⟨vars, ts⟩ := p
        dsimp only at e hp ⊢
        subst e
        obtain ⟨I, es, h1, h2⟩ := items_serve_hidden (sel := .simple s) (fresh := fresh) (cache := cache) (z0 := z0) (m := m) ho (hb is eb) hs.lt hp.valid hys hp.shape
          (fun v hv i h1 h2 => hs.off v (hp.about v hv) (by cases h2; exact h1)) (hs.inside _ et) (fun v hv => hap v (hys v hv)) fun a w ha hw hba hT => hfun a w ha hw hba ((hp.exact _ hw).1 hT)
        refine ⟨I, es, h1, ?_⟩
        have : (fun a => base.holds a ∧ ∀ q, tab root = .ok (some q) → Selected q.2 q.1 (.simple s) a) = fun a => base.holds a ∧ Selected ts (ys ++ [VarId.simple h]) (.simple s) a := by
          funext a; rw [et]; simp
        rw [et] at this ⊢
        rw [this]; exact h2

/-- What such a constraint means. -/
theorem posted_means_implied {hid all : Nat → Prop} {P : Asg → Prop} (ht : ∀ p, tab root = .ok (some p) → Tabulates root xs C p) (hs : Selects root xs (tab root) s) (hall : all s) (hne : ¬ hid s)
    (hoff : ∀ v ∈ xs, ∀ i, v.underlyingIndex = some i → ¬ all i ∨ hid i) (hb : Means root hid all base P) (hC : ∀ a, Within root a → base.holds a → C a) :
    Means root (fun v => hid v ∨ v = s) all (posted root base tab s fresh cache) P := by
  have hbase : ∀ a b, (∀ v, v ≠ s → a v = b v) → (base.holds a ↔ base.holds b) := fun a b h => hb.ignores a b fun v hv => h v fun e => hv ⟨e ▸ hall, e ▸ hne⟩
  have hsel : ∀ p, tab root = .ok (some p) → ∀ a b, AgreeOff (fun v => all v ∧ ¬ (hid v ∨ v = s)) a b → (Selected p.2 p.1 (.simple s) a ↔ Selected p.2 p.1 (.simple s) b) := by
    intro p hp a b hab
    have h1 : ∀ v ∈ p.1, v.eval a = v.eval b := fun v hv => VarId.eval_congr fun i hi => hab i fun h => (hoff v ((ht p hp).about v hv) i hi).elim (fun k => k h.1) fun k => h.2 (.inl k)
    have h2 : a s = b s := hab s fun h => h.2 (.inr rfl)
    constructor
    · rintro ⟨k, t, e, h3, h4⟩; exact ⟨k, t, h2.symm.trans e, h3, (Matches.congr h1).1 h4⟩
    · rintro ⟨k, t, e, h3, h4⟩; exact ⟨k, t, h2.trans e, h3, (Matches.congr h1).2 h4⟩
  refine ⟨fun a b hab => ?_, fun a ha => ?_⟩
  · have h1 : base.holds a ↔ base.holds b := by
      refine (hbase a (alter a s (b s)) fun v hv => (if_neg hv).symm).trans (hb.ignores _ _ fun v hv => ?_)
      unfold alter
      split
      · rename_i e; rw [e]
      · rename_i e; exact hab v fun h' => hv ⟨h'.1, fun h2 => h'.2 (.inl h2)⟩
    exact and_congr h1 (forall_congr' fun p => forall_congr' fun hp => hsel p hp a b hab)
  · rw [hb.iff a ha]
    constructor
    · rintro ⟨b, k1, k2, k3⟩
      by_cases hsome : ∃ p, tab root = .ok (some p)
      · obtain ⟨p, hp⟩ := hsome
        obtain ⟨t, ht', hm⟩ := ((ht p hp).exact b k2).2 (hC b k2 k3)
        obtain ⟨k, hk⟩ := List.mem_iff_getElem?.1 ht'
        have hklt := (List.getElem?_eq_some_iff.1 hk).1
        have hpn : p.2 ≠ [] := by intro e; rw [e] at hk; simp at hk
        have e : root[s]? = some (root[s]'hs.lt) := List.getElem?_eq_getElem hs.lt
        have hw : Within root (alter b s k) := by
          intro v d hd
          unfold alter
          split
          · rename_i e'; subst e'
            rw [hd] at e; cases e
            exact (hs.values p hp hpn _ hd _).2 ⟨by omega, by omega⟩
          · exact k2 v d hd
        refine ⟨alter b s k, fun v hv => ?_, hw, (hbase b _ fun v hv => (if_neg hv).symm).1 k3, fun q hq => ?_⟩
        · exact (if_neg fun e => hv (.inr e)).trans (k1 v fun h => hv (.inl h))
        · rw [hp] at hq; cases hq
          refine ⟨k, t, ?_, hk, (Matches.congr fun v hv => (alter_off (hs.off v ((ht p hp).about v hv)) b k).symm).1 hm⟩
          simp [VarId.eval, alter]
      · exact ⟨b, fun v hv => k1 v fun h => hv (.inl h), k2, k3, fun p hp => absurd ⟨p, hp⟩ hsome⟩
    · rintro ⟨b, k1, k2, k3, -⟩
      refine ⟨alter b s (a s), fun v hv => ?_, fun v d hd => ?_, (hbase b _ fun v hv => (if_neg hv).symm).1 k3⟩
      · unfold alter
        split
        · rename_i e; rw [e]
        · rename_i e; exact k1 v fun h => h.elim hv e
      · unfold alter
        split
        · rename_i e; subst e; exact ha _ d hd
        · exact k2 v d hd

end
end Tabulation
end Gcs
