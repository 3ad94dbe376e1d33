import Verif.Lemmas.Cons.Inverse
import Verif.Lemmas.Cons.MinMax
import Verif.Model.Cons.Table
import Verif.Spec.Table

/-!
# Tables: helper lemmas
-/

namespace Gcs.Table
open IntervalSet

/-- Tuples of the right length, of representable integers and wildcards. -/
structure Shaped (k : Nat) (tuples : List (List (Option Int))) : Prop where
  width : ∀ t ∈ tuples, t.length = k
  inI64 : ∀ t ∈ tuples, ∀ x, some x ∈ t → InI64 x

/-- Each variable still has the value that the tuple has for it. -/
def Can (d : Doms) (vars : List VarId) (t : List (Option Int)) : Prop := ∀ (p : Nat) v x, vars[p]? = some v → t[p]? = some (some x) → Poss d v x

/-- The tuple with this number is feasible. -/
def Feas (d : Doms) (vars : List VarId) (tuples : List (List (Option Int))) (k : Int) : Prop := ∃ t, tuples[k.toNat]? = some t ∧ Can d vars t

/-- The tuple with this number allows the value in this position. -/
def Sup (tuples : List (List (Option Int))) (idx : Nat) (y k : Int) : Prop := ∃ t e, tuples[k.toNat]? = some t ∧ t[idx]? = some e ∧ Allows e y

section
variable {d d' : Doms} {n : Nat} {sel : VarId} {vars : List VarId} {tuples : List (List (Option Int))}

theorem Can.sub {t : List (Option Int)} (hs : ∀ a, Within d' a → Within d a) (h : Can d' vars t) : Can d vars t := fun p v x h1 h2 => Inverse.Poss.mono hs (h p v x h1 h2)
theorem Feas.sub {k : Int} (hs : ∀ a, Within d' a → Within d a) (h : Feas d' vars tuples k) : Feas d vars tuples k := h.elim fun t h => ⟨t, h.1, h.2.sub hs⟩

theorem feasible_roo (hd : DomsOK d) : ∀ (vars : List VarId) (t : List (Option Int)), (∀ v ∈ vars, v.Valid d.length) → t.length = vars.length → (∀ x, some x ∈ t → InI64 x) →
    RightOrOverflow (feasible d vars t) (fun b => b = true ↔ Can d vars t)
  | [], [], _, _, _ => .pure (by simp [Can])
  | [], _ :: _, _, h, _ => by simp at h
  | _ :: _, [], _, h, _ => by simp at h
  | v :: vs, e :: t, hv, hlen, ht => by
    have h1 : RightOrOverflow (feasibleEntry d v e) (fun b => b = true ↔ ∀ x, e = some x → Poss d v x) := by
      cases e with
      | none => exact .pure (by simp)
      | some x => exact (inDomain_spec hd (hv v (by simp)) x (ht x (by simp))).mono fun b hb => by rw [hb]; simp
    have h2 := feasible_roo hd vs t (fun v h => hv v (by simp [h])) (by simpa using hlen) fun x h => ht x (by simp [h])
    refine h1.bind fun b hb => ?_
    have split : Can d (v :: vs) (e :: t) ↔ (∀ x, e = some x → Poss d v x) ∧ Can d vs t := by
      refine ⟨fun h => ⟨fun x hx => h 0 v x rfl (by simp [hx]), fun p w x h1 h2 => h (p + 1) w x (by simpa using h1) (by simpa using h2)⟩, fun h p w x h1 h2 => ?_⟩
      cases p with
      | zero => cases h1; exact h.1 x (by simpa using h2)
      | succ p => exact h.2 p w x (by simpa using h1) (by simpa using h2)
    cases b with
    | true =>
      simp only [if_true]
      exact h2.mono fun b hb2 => by rw [hb2, split]; exact ⟨fun h => ⟨hb.1 rfl, h⟩, fun h => h.2⟩
    | false =>
      refine .pure ?_
      rw [split]
      exact ⟨(fun h => nomatch h), fun h => hb.2 h.1⟩

theorem entryAgrees_roo {idx : Nat} {y k : Int} (hw : ∀ t ∈ tuples, idx < t.length) (h0 : 0 ≤ k) (h1 : k < tuples.length) : RightOrOverflow (entryAgrees tuples idx y k) (fun b => b = true ↔ Sup tuples idx y k) := by
  obtain ⟨t, e1, e2⟩ := atIndex_ok h0 h1
  have hlt := hw t (List.mem_of_getElem? e2)
  have e3 : vecAt t idx = .ok t[idx] := vecAt_ok.2 (List.getElem?_eq_getElem hlt)
  unfold entryAgrees
  simp only [bind, Except.bind, pure, Except.pure, e1, e3]
  refine .pure ?_
  have : Sup tuples idx y k ↔ Allows t[idx] y := by
    refine ⟨fun ⟨t', e, h1, h2, h3⟩ => ?_, fun h => ⟨t, _, e2, List.getElem?_eq_getElem hlt, h⟩⟩
    rw [e2] at h1; cases h1
    rw [List.getElem?_eq_getElem hlt] at h2; cases h2
    exact h3
  rw [this]
  cases t[idx] <;> simp [Allows]

theorem supported_roo (hd : DomsOK d) (hs : sel.Valid d.length) {idx : Nat} {y : Int} (hw : ∀ t ∈ tuples, idx < t.length) (hin : ∀ k, Poss d sel k → 0 ≤ k ∧ k < tuples.length) :
    ∀ c, RightOrOverflow (supported d sel tuples idx y c) (fun b => b = true ↔ ∃ k, Poss d sel k ∧ Sup tuples idx y k) := by
  have scan : RightOrOverflow (eachValue d sel >>= fun g => anyOfGen (entryAgrees tuples idx y) g) (fun b => b = true ↔ ∃ k, Poss d sel k ∧ Sup tuples idx y k) :=
    (listed_roo hd hs).bind fun g hg => anyOfGen_roo hg fun k _ hk => entryAgrees_roo hw (hin k hk).1 (hin k hk).2
  intro c
  cases c with
  | none => exact scan
  | some c =>
    unfold supported
    refine RightOrOverflow.bind (R := fun b => b = true → ∃ k, Poss d sel k ∧ Sup tuples idx y k) ?_ fun b hb => ?_
    · refine (ofSize_roo c).bind fun r hr => (inDomain_spec hd hs r hr.2).bind fun b hb => ?_
      cases b with
      | false => exact .pure (fun h => nomatch h)
      | true =>
        have hp := hr.1 ▸ hb.1 rfl
        simp only [if_true]
        exact (entryAgrees_roo hw (hin _ hp).1 (hin _ hp).2).mono fun b hb h => ⟨c, hp, hb.1 h⟩
    · cases b with
      | true => exact .pure (by simpa using hb rfl)
      | false => exact scan

end

section
variable {σ μ : Type} {J : Job} {d : Doms} {sel : VarId} {vars : List VarId} {tuples : List (List (Option Int))}

/-- The selector is not about the variable of a column. -/
abbrev Off (sel : VarId) (vars : List VarId) : Prop := ∀ v ∈ vars, Apart v sel

/-- Which tuples are left by the first loop: those that were feasible at the start, and are still if the selector is not about a column. -/
theorem tuplesPass_ver (ho : J.R .overflow) (hs : sel.Valid J.n) (hv : ∀ v ∈ vars, v.Valid J.n) (ht : Shaped vars.length tuples) (hC : ∀ a, J.C a → Selected tuples vars sel a) (hd : DomsOK d) (hl : d.length = J.n)
    (hin : ∀ k, Poss d sel k → 0 ≤ k ∧ k < tuples.length) :
    (tuplesPass sel vars tuples : Prog σ μ Unit).Ver J (fun _ => False) (fun _ d' => ∀ k, Poss d' sel k → Feas d vars tuples k ∧ (Off sel vars → Feas d' vars tuples k)) d := by
  refine ver_ask (f := (eachValue · sel)) ho (listed_roo hd (hl ▸ hs)) fun g hg => ?_
  refine ver_mono (fun _ d' hq k hk => (hq.1.2.2 hq.2 k hk).resolve_left (by simp)) _ _ (ver_gen (J := J) (fun ks d' => (∀ k ∈ ks, k ∈ g.1) ∧ (∀ a, Within d' a → Within d a) ∧
    (g.2 = none → ∀ k, Poss d' sel k → k ∈ ks ∨ Feas d vars tuples k ∧ (Off sel vars → Feas d' vars tuples k))) hd hl (fun e he => hg.2.2 e he ▸ ho) ?_
    ⟨fun _ h => h, fun _ h => h, fun e k hk => .inl (hg.2.1 e k hk)⟩)
  rintro k ks d1 hd1 hl1 ⟨i1, i2, i3⟩
  have hk := hg.1 k (i1 k (by simp))
  obtain ⟨t, e1, e2⟩ := atIndex_ok (hin k hk.2).1 (hin k hk.2).2
  have hmem := List.mem_of_getElem? e2
  refine ver_lift (P := fun w => w = t) ho (.inr ⟨t, e1, rfl⟩) fun w hw => ?_
  subst hw
  refine ver_ask (f := (feasible · vars w)) ho (feasible_roo hd1 vars w (fun v h => hl1 ▸ hv v h) (ht.width w hmem) (ht.inI64 w hmem)) fun b hb => ?_
  cases b with
  | true =>
    have hf : Feas d1 vars tuples k := ⟨w, e2, hb.1 rfl⟩
    refine ⟨fun z hz => i1 z (List.mem_cons_of_mem _ hz), i2, fun e z hz => ?_⟩
    rcases i3 e z hz with h | h
    · rcases List.mem_cons.1 h with rfl | h
      · exact .inr ⟨hf.sub i2, fun _ => hf⟩
      · exact .inl h
    · exact .inr h
  | false =>
    have no : ¬ Can d1 vars w := fun h => nomatch hb.2 h
    refine ver_tell_last (.ne hs hk.1) (fun a ha hc => ?_) fun d2 hd2 _ h3 => ⟨fun z hz => i1 z (List.mem_cons_of_mem _ hz), fun a ha => i2 a ((h3 a).1 ha).1, fun e z hz => ?_⟩
    · rintro (e : sel.eval a = k)
      obtain ⟨j, t', h1, h2, h3⟩ := hC a hc
      have hj : k.toNat = j := by omega
      rw [hj, h2] at e2; cases e2
      refine no fun p v x hp hx => ⟨a, ha, ?_⟩
      rcases h3 p v _ hp hx with h | h
      · cases h
      · cases h; rfl
    · obtain ⟨b, hb, e'⟩ := hz
      have h := (h3 b).1 hb
      have hne : z ≠ k := e' ▸ h.2
      rcases i3 e z ⟨b, h.1, e'⟩ with h' | ⟨h', h''⟩
      · exact .inl ((List.mem_cons.1 h').resolve_left hne)
      · refine .inr ⟨h', fun hoff => ?_⟩
        obtain ⟨u, hu, hcan⟩ := h'' hoff
        exact ⟨u, hu, fun p v x hp hx => poss_apart (P := fun y => y ≠ k) hd2 h3 (hoff v (List.mem_of_getElem? hp)) (hcan p v x hp hx)⟩

theorem widths_roo (hd : DomsOK d) : ∀ vars : List VarId, (∀ v ∈ vars, v.Valid d.length) → RightOrOverflow (widths d vars) (fun _ => True)
  | [], _ => .pure trivial
  | v :: vs, h => (bounds_roo hd (h v (by simp))).bind fun r hr => (sub_roo hr.2.1 hr.1.1).bind fun _ _ => widths_roo hd vs fun w hw => h w (by simp [hw])

/-- No two columns are about the same variable, and the selector is about none of theirs. -/
structure Separate (sel : VarId) (vars : List VarId) : Prop where
  off : Off sel vars
  apart : ∀ (p q : Nat) v w, vars[p]? = some v → vars[q]? = some w → p ≠ q → Apart v w

theorem apart_symm {v w : VarId} (h : Apart v w) : Apart w v := fun i h1 h2 => h i h2 h1

/-- The second loop for one column. -/
theorem column_ver (ho : J.R .overflow) (hs : sel.Valid J.n) (ht : Shaped vars.length tuples) (hC : ∀ a, J.C a → Selected tuples vars sel a) {cache : Nat → Int → Option Nat} {idx : Nat} {v : VarId}
    (hv : v.Valid J.n) (hp : vars[idx]? = some v) (hd : DomsOK d) (hl : d.length = J.n) (hin : ∀ k, Poss d sel k → 0 ≤ k ∧ k < tuples.length) {g : Gen Int} (hg : Lists (Poss d v) g) :
    (Prog.forGen (keepValue sel tuples cache idx v) g : Prog σ μ Unit).Ver J (fun _ => False) (fun _ d' => (∀ y, Poss d' v y → ∃ k, Poss d sel k ∧ Sup tuples idx y k) ∧
      (Separate sel vars → (∀ k, Poss d sel k → Poss d' sel k) ∧ ((∀ k, Poss d sel k → Feas d vars tuples k) → ∀ k, Poss d' sel k → Feas d' vars tuples k))) d := by
  refine ver_mono (fun _ d' hq => ⟨fun y hy => (hq.1.2.2.1 hq.2 y hy).resolve_left (by simp), hq.1.2.2.2⟩) _ _ (ver_gen (J := J) (fun ys d' => (∀ y ∈ ys, y ∈ g.1) ∧ (∀ a, Within d' a → Within d a) ∧
    (g.2 = none → ∀ y, Poss d' v y → y ∈ ys ∨ ∃ k, Poss d sel k ∧ Sup tuples idx y k) ∧
    (Separate sel vars → (∀ k, Poss d sel k → Poss d' sel k) ∧ ((∀ k, Poss d sel k → Feas d vars tuples k) → ∀ k, Poss d' sel k → Feas d' vars tuples k))) hd hl (fun e he => hg.2.2 e he ▸ ho) ?_
    ⟨fun _ h => h, fun _ h => h, fun e y hy => .inl (hg.2.1 e y hy), fun _ => ⟨fun _ h => h, fun h => h⟩⟩)
  rintro y ys d1 hd1 hl1 ⟨i1, i2, i3, i4⟩
  have hy := hg.1 y (i1 y (by simp))
  have hidx : idx < vars.length := (List.getElem?_eq_some_iff.1 hp).1
  refine ver_ask (f := (supported · sel tuples idx y (cache idx y))) ho (supported_roo hd1 (hl1 ▸ hs) (fun t h => by rw [ht.width t h]; exact hidx) (fun k hk => hin k (Inverse.Poss.mono i2 hk)) _) fun b hb => ?_
  cases b with
  | true =>
    refine ⟨fun z hz => i1 z (List.mem_cons_of_mem _ hz), i2, fun e z hz => ?_, i4⟩
    rcases i3 e z hz with h | h
    · rcases List.mem_cons.1 h with rfl | h
      · obtain ⟨k, h1, h2⟩ := hb.1 rfl
        exact .inr ⟨k, Inverse.Poss.mono i2 h1, h2⟩
      · exact .inl h
    · exact .inr h
  | false =>
    have no : ¬ ∃ k, Poss d1 sel k ∧ Sup tuples idx y k := fun h => nomatch hb.2 h
    refine ver_tell_last (.ne hv hy.1) (fun a ha hc => ?_) fun d2 hd2 _ h3 => ⟨fun z hz => i1 z (List.mem_cons_of_mem _ hz), fun a ha => i2 a ((h3 a).1 ha).1, fun e z hz => ?_, fun hsep => ?_⟩
    · rintro (e : v.eval a = y)
      obtain ⟨j, t, h1, h2, h3⟩ := hC a hc
      have hlt : idx < t.length := by rw [ht.width t (List.mem_of_getElem? h2)]; exact hidx
      refine no ⟨j, ⟨a, ha, h1⟩, t, t[idx], by simpa using h2, List.getElem?_eq_getElem hlt, ?_⟩
      rw [← e]; exact h3 idx v _ hp (List.getElem?_eq_getElem hlt)
    · obtain ⟨b, hb, e'⟩ := hz
      have h := (h3 b).1 hb
      have hne : z ≠ y := e' ▸ h.2
      exact (i3 e z ⟨b, h.1, e'⟩).imp (fun h' => (List.mem_cons.1 h').resolve_left hne) id
    · have keep : ∀ k, Poss d1 sel k → Poss d2 sel k := fun k hk => poss_apart (P := fun z => z ≠ y) hd2 h3 (apart_symm (hsep.off v (List.mem_of_getElem? hp))) hk
      refine ⟨fun k hk => keep k ((i4 hsep).1 k hk), fun h0 k hk => ?_⟩
      have hk1 := Inverse.Poss.mono (fun a ha => ((h3 a).1 ha).1) hk
      obtain ⟨t, h1, h2⟩ := (i4 hsep).2 h0 k hk1
      refine ⟨t, h1, fun p w x hw hx => ?_⟩
      by_cases hpq : p = idx
      · subst hpq
        have : v = w := by rw [hp] at hw; exact Option.some.inj hw
        subst this
        obtain ⟨b, hb, e⟩ := h2 p _ x hp hx
        refine ⟨b, (h3 b).2 ⟨hb, ?_⟩, e⟩
        rintro (e' : v.eval b = y)
        exact no ⟨k, hk1, t, _, h1, hx, .inr (by rw [← e', e])⟩
      · exact poss_apart (P := fun z => z ≠ y) hd2 h3 (hsep.apart p idx w v hw hp hpq) (h2 p w x hw hx)

/-- The second loop. -/
theorem valuesPass_ver (ho : J.R .overflow) (hs : sel.Valid J.n) (hv : ∀ v ∈ vars, v.Valid J.n) (ht : Shaped vars.length tuples) (hC : ∀ a, J.C a → Selected tuples vars sel a) {cache : Nat → Int → Option Nat} :
    ∀ (vs : List VarId) (idx : Nat) (d : Doms), (∀ j : Nat, vs[j]? = vars[idx + j]?) → DomsOK d → d.length = J.n → (∀ k, Poss d sel k → 0 ≤ k ∧ k < tuples.length) →
    (valuesPass sel tuples cache idx vs : Prog σ μ Unit).Ver J (fun _ => False) (fun _ d' => (∀ (j : Nat) v, vs[j]? = some v → ∀ y, Poss d' v y → ∃ k, Poss d sel k ∧ Sup tuples (idx + j) y k) ∧
      (Separate sel vars → (∀ k, Poss d sel k → Poss d' sel k) ∧ ((∀ k, Poss d sel k → Feas d vars tuples k) → ∀ k, Poss d' sel k → Feas d' vars tuples k))) d
  | [], _, _, _, _, _, _ => ⟨by intro j v h; simp at h, fun _ => ⟨fun _ h => h, fun h => h⟩⟩
  | v :: vs, idx, d, hvs, hd, hl, hin => by
    have hp : vars[idx]? = some v := by have := hvs 0; simpa using this.symm
    refine ver_ask (f := (eachValue · v)) ho (listed_roo hd (hl ▸ hv v (List.mem_of_getElem? hp))) fun g hg => ?_
    refine ver_seq hd hl (fun _ h => h) (column_ver ho hs ht hC (hv v (List.mem_of_getElem? hp)) hp hd hl hin hg) fun _ d1 hd1 hl1 hs1 hq => ?_
    refine ver_mono (fun _ d2 h => ⟨fun j w hj y hy => ?_, fun hsep => ?_⟩) _ _ (ver_facts _ _ hd1 hl1 (valuesPass_ver ho hs hv ht hC vs (idx + 1) d1 (fun j => ?_) hd1 hl1 fun k hk => hin k (Inverse.Poss.mono hs1 hk)))
    · cases j with
      | zero => cases hj; exact hq.1 y (Inverse.Poss.mono h.1.2.2 hy)
      | succ j =>
        obtain ⟨k, h1, h2⟩ := h.2.1 j w (by simpa using hj) y hy
        refine ⟨k, Inverse.Poss.mono hs1 h1, ?_⟩
        have e : idx + (j + 1) = idx + 1 + j := by omega
        rw [e]; exact h2
    · exact ⟨fun k hk => (h.2.2 hsep).1 k ((hq.2 hsep).1 k hk), fun h0 => (h.2.2 hsep).2 ((hq.2 hsep).2 h0)⟩
    · have := hvs (j + 1)
      have e : idx + 1 + j = idx + (j + 1) := by omega
      rw [e, ← this]; simp

/-- What a run leaves. -/
theorem prop_ver (ho : J.R .overflow) (hs : sel.Valid J.n) (hv : ∀ v ∈ vars, v.Valid J.n) (ht : Shaped vars.length tuples) (hC : ∀ a, J.C a → Selected tuples vars sel a) (fresh : Nat → Bool)
    (cache : Nat → Nat → Int → Option Nat) (hd : DomsOK d) (hl : d.length = J.n) (hin : ∀ k, Poss d sel k → 0 ≤ k ∧ k < tuples.length) :
    (prop sel vars tuples fresh cache : Prog σ μ PState).Ver J (fun _ => True) (fun ps d' => ps = .enableButIdempotent ∧ (∀ k, Poss d' sel k → Feas d vars tuples k) ∧
      (Separate sel vars → (∀ k, Poss d' sel k → Feas d' vars tuples k) ∧ ∀ (j : Nat) v, vars[j]? = some v → ∀ y, Poss d' v y → ∃ k, Poss d' sel k ∧ Sup tuples j y k)) d := by
  refine ver_seq hd hl (fun _ h => h) (tuplesPass_ver ho hs hv ht hC hd hl hin) fun _ d1 hd1 hl1 hs1 q1 => ?_
  rintro s rfl
  dsimp only
  refine ver_seq (S := fun _ => False) (Q' := fun _ d2 => d2 = s.doms) hd1 hl1 (fun _ h => h) ?_ fun _ d2 hd2 hl2 hs2 q2 => ?_
  · split
    · rintro s' e'
      rcases widths_roo (d := s'.doms) (e' ▸ hd1) vars (fun v h => by rw [e', hl1]; exact hv v h) with h | ⟨v, h, -⟩
      · simp only [h]; exact ho
      · simp only [h]; exact rfl
    · exact rfl
  subst q2
  refine ver_bind (J := J) (S := fun _ => False) (fun _ h => h.elim) _ _ hd1 hl1 (ver_mono (fun _ d3 hq k1 k2 k3 => ?_) _ _
    (valuesPass_ver ho hs hv ht hC vars 0 s.doms (fun j => by simp) hd1 hl1 fun k hk => hin k (Inverse.Poss.mono hs1 hk)))
  refine ⟨rfl, fun k hk => (q1 k (Inverse.Poss.mono k3 hk)).1, fun hsep => ⟨(hq.2 hsep).2 fun k hk => (q1 k hk).2 hsep.off, fun j v hj y hy => ?_⟩⟩
  obtain ⟨k, h1, h2⟩ := hq.1 j v hj y hy
  exact ⟨k, (hq.2 hsep).1 k h1, by simpa using h2⟩

theorem nodup_apart : ∀ {vs : List VarId}, (vs.filterMap VarId.underlyingIndex).Nodup → ∀ (p q : Nat) v w, vs[p]? = some v → vs[q]? = some w → p < q → Apart v w
  | [], _, p, _, _, _, hp, _, _ => by simp at hp
  | x :: xs, h, p, q, v, w, hp, hq, hlt => by
    obtain ⟨q, rfl⟩ : ∃ r, q = r + 1 := ⟨q - 1, by omega⟩
    have hq' : xs[q]? = some w := by simpa using hq
    cases p with
    | zero =>
      cases hp
      intro i h1 h2
      rw [List.filterMap_cons_some h1, List.nodup_cons] at h
      exact h.1 (List.mem_filterMap.2 ⟨w, List.mem_of_getElem? hq', h2⟩)
    | succ p =>
      refine nodup_apart ?_ p q v w (by simpa using hp) hq' (by omega)
      rw [List.filterMap_cons] at h
      split at h
      · exact h
      · exact (List.nodup_cons.1 h).2

theorem separate_of_nodup (h : ((vars ++ [sel]).filterMap VarId.underlyingIndex).Nodup) : Separate sel vars where
  off v hv := by
    obtain ⟨p, hp, rfl⟩ := List.getElem_of_mem hv
    exact nodup_apart h p vars.length _ _ (by rw [List.getElem?_append_left hp, List.getElem?_eq_getElem hp]) (by simp) hp
  apart p q v w hp hq hne := by
    have in' : ∀ {p : Nat} {v : VarId}, vars[p]? = some v → (vars ++ [sel])[p]? = some v := fun {p v} h => by rw [List.getElem?_append_left (List.getElem?_eq_some_iff.1 h).1]; exact h
    rcases Nat.lt_or_gt_of_ne hne with h' | h'
    · exact nodup_apart h p q v w (in' hp) (in' hq) h'
    · exact apart_symm (nodup_apart h q p w v (in' hq) (in' hp) h')

/-- When the columns are known, a feasible tuple matches. -/
theorem selected_of (hin : ∀ k, Poss d sel k → 0 ≤ k ∧ k < tuples.length) (hf : ∀ k, Poss d sel k → ∀ t, tuples[k.toNat]? = some t → ∀ a, Within d a → Matches t vars a) {a : Asg} (ha : Within d a) : Selected tuples vars sel a := by
  have hk := hin _ (ha.poss sel)
  have hlt : (sel.eval a).toNat < tuples.length := by omega
  exact ⟨(sel.eval a).toNat, tuples[(sel.eval a).toNat], by omega, List.getElem?_eq_getElem hlt, hf _ (ha.poss sel) _ (List.getElem?_eq_getElem hlt) a ha⟩

theorem matches_of_can {d0 : Doms} {t : List (Option Int)} (hk : ∀ v ∈ vars, Known d0 v) (h : Can d0 vars t) {a : Asg} (ha : Within d0 a) : Matches t vars a := by
  intro p v e hp he
  cases e with
  | none => exact .inl rfl
  | some x =>
    obtain ⟨b, hb, e⟩ := h p v x hp he
    exact .inr (by rw [← e, hk v (List.mem_of_getElem? hp) b a hb ha])

end

section
variable {σ μ : Type} {n m : Nat} {R : Err → Prop} {root : Doms} {sel : VarId} {vars : List VarId} {tuples : List (List (Option Int))} {fresh : Nat → Bool} {cache : Nat → Nat → Int → Option Nat}

theorem prop_serves (ho : R .overflow) (hs : sel.Valid n) (hv : ∀ v ∈ vars, v.Valid n) (ht : Shaped vars.length tuples) :
    Serves n m R root (fun d _ => Inverse.Inside d 0 tuples.length [sel]) (fun _ => False) (prop (σ := σ) (μ := μ) sel vars tuples fresh cache) { onChange := vars ++ [sel] } (Selected tuples vars sel) (Selected tuples vars sel) vars := by
  refine Inverse.serves_of_ver (I := fun d => Inverse.Inside d 0 tuples.length [sel]) (wakes_mem fun z hz => .inl (by simp [hz])) rfl (fun d d' hs hi => hi.sub hs) fun d hd hl hi => ?_
  have hin : ∀ k, Poss d sel k → 0 ≤ k ∧ k < tuples.length := fun k hk => by have := hi sel (by simp) k hk; omega
  refine ver_mono (fun ps d' hq => ?_) _ _ (ver_facts _ _ hd hl (prop_ver (J := { n, m, R, C := fun a => Within root a ∧ Selected tuples vars sel a }) ho hs hv ht (fun a h => h.2) fresh cache hd hl hin))
  obtain ⟨⟨-, -, k3⟩, rfl, h1, h2⟩ := hq
  have hin' : ∀ k, Poss d' sel k → 0 ≤ k ∧ k < tuples.length := fun k hk => hin k (Inverse.Poss.mono k3 hk)
  refine ⟨fun hk a ha _ => ?_, fun hD _ hk a ha _ => ?_, fun e => nomatch e⟩
  · refine selected_of hin' (fun k hp t ht' a ha => ?_) ha
    obtain ⟨t', e, hc⟩ := h1 k hp
    rw [ht'] at e; cases e
    exact matches_of_can (known_all hk) hc (k3 a ha)
  · have hsep : Separate sel vars := separate_of_nodup (by simpa [Triggers.Distinct] using hD)
    refine selected_of hin' (fun k hp t ht' a ha => ?_) ha
    obtain ⟨t', e, hc⟩ := (h2 hsep).1 k hp
    rw [ht'] at e; cases e
    exact matches_of_can (known_all hk) hc ha

end
end Gcs.Table
