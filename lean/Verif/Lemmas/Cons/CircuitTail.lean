import Verif.Lemmas.Cons.CircuitCheck
import Verif.Lemmas.Cons.GlobalCardinality
import Verif.Lemmas.Cons.ReifiedState

/-!
# Following chains of fixed successors
-/

namespace Gcs.Circuit
open IntervalSet AllDifferent Gac

/-- A node with a fixed successor. -/
def At (succ : List VarId) (d : Doms) (i : Nat) : Prop := ∃ x, succ[i]? = some x ∧ Known d x

/-- A chain. -/
structure ChainOK (succ : List VarId) (d : Doms) (c : Chain) : Prop where
  start : c.start < succ.length
  int : InI64 (c.start : Int)
  last : c.last < succ.length
  leads : ∀ a, Within d a → it (fn succ a) c.len c.start = c.last
  open' : ∀ a, Within d a → ∀ m, 0 < m → m ≤ c.len → it (fn succ a) m c.start ≠ c.start

theorem ChainOK.sub {succ : List VarId} {d d' : Doms} {c : Chain} (h : ChainOK succ d c) (hs : ∀ a, Within d' a → Within d a) : ChainOK succ d' c :=
  ⟨h.start, h.int, h.last, fun a ha => h.leads a (hs a ha), fun a ha => h.open' a (hs a ha)⟩

/-- A cycle of fixed successors. -/
def Cyclic (succ : List VarId) (d : Doms) : Prop := ∃ start len, start < succ.length ∧ ∀ a, Within d a → it (fn succ a) (len + 1) start = start ∧ ∀ m ≤ len, At succ d (it (fn succ a) m start)

theorem ok_bind {α β : Type} (v : α) (f : α → Chk β) : ((Except.ok v : Chk α) >>= f) = f v := rfl

/-- A result, or one of the two errors that are possible. -/
def Ends {α : Type} (x : Chk α) (P : α → Prop) : Prop := x = .error .overflow ∨ x = .error .diverge ∨ ∃ v, x = .ok v ∧ P v

theorem Ends.bind {α β : Type} {x : Chk α} {P : α → Prop} {Q : β → Prop} {f : α → Chk β} (h : Ends x P) (hf : ∀ v, P v → Ends (f v) Q) : Ends (x >>= f) Q := by
  rcases h with rfl | rfl | ⟨v, rfl, hv⟩
  · exact .inl rfl
  · exact .inr (.inl rfl)
  · exact hf v hv

theorem Ends.ofRoo {α : Type} {x : Chk α} {P : α → Prop} (h : RightOrOverflow x P) : Ends x P := by
  rcases h with h | h
  · exact .inl h
  · exact .inr (.inr h)

theorem Ends.ok {α : Type} {v : α} {P : α → Prop} (h : P v) : Ends (.ok v) P := .inr (.inr ⟨v, rfl, h⟩)

section
variable {succ : List VarId} {d : Doms}

theorem follow_ends (hd : DomsOK d) (hv : ∀ x ∈ succ, x.Valid d.length) (hr : Rng succ d) {start : Nat} (hst : start < succ.length) : ∀ (f j len : Nat), j < succ.length →
    (∀ a, Within d a → it (fn succ a) len start = j ∧ (∀ m ≤ len, At succ d (it (fn succ a) m start)) ∧ ∀ m, 0 < m → m ≤ len → it (fn succ a) m start ≠ start) →
    Ends (follow d succ start f j len) (fun r => (r = none → Cyclic succ d) ∧
      ∀ p, r = some p → p.1 < succ.length ∧ ∀ a, Within d a → it (fn succ a) p.2 start = p.1 ∧ ∀ m, 0 < m → m ≤ p.2 → it (fn succ a) m start ≠ start)
  | 0, _, _, _, _ => .inr (.inl rfl)
  | f + 1, j, len, hj, h => by
    obtain ⟨a0, ha0⟩ := exists_within hd
    obtain ⟨x, hx, hk⟩ : At succ d j := by have := (h a0 ha0).2.1 len (Nat.le_refl _); rwa [(h a0 ha0).1] at this
    have hxm := List.mem_of_getElem? hx
    rw [follow, vecAt_get hx, ok_bind]
    refine (Ends.ofRoo (single_pin hd (hv x hxm))).bind fun r hr' => ?_
    have hsome : r = some (x.eval a0) := (hr' _).1.2 (hk.pinned ha0)
    subst hsome
    dsimp only
    have hrg := hr x hxm a0 ha0
    rw [toNode_roo hrg, ok_bind]
    have hf : ∀ a, Within d a → it (fn succ a) (len + 1) start = (x.eval a0).toNat := fun a ha => by rw [it_succ, (h a ha).1, fn_eq hx, hk.pinned ha0 a ha]
    have hj' : (x.eval a0).toNat < succ.length := by omega
    split
    · rename_i e
      exact .ok ⟨fun _ => ⟨start, len, hst, fun a ha => ⟨(hf a ha).trans e, (h a ha).2.1⟩⟩, fun p hp => nomatch hp⟩
    · rename_i e
      have hy : succ[(x.eval a0).toNat]? = some succ[(x.eval a0).toNat] := List.getElem?_eq_getElem hj'
      have hnew : ∀ a, Within d a → ∀ m, 0 < m → m ≤ len + 1 → it (fn succ a) m start ≠ start := fun a ha m h0 hm => by
        by_cases hm' : m = len + 1
        · subst hm'; rw [hf a ha]; exact e
        · exact (h a ha).2.2 m h0 (by omega)
      rw [vecAt_get hy, ok_bind]
      refine (Ends.ofRoo (GlobalCardinality.single_roo' hd (hv _ (List.getElem_mem hj')))).bind fun b hb => ?_
      split
      · rename_i hb1
        obtain ⟨y, hy'⟩ := hb.1 hb1
        refine follow_ends hd hv hr hst f _ (len + 1) hj' fun a ha => ⟨hf a ha, fun m hm => ?_, hnew a ha⟩
        by_cases hm' : m = len + 1
        · subst hm'; rw [hf a ha]; exact ⟨_, hy, fun b c hb hc => (hy' b hb).trans (hy' c hc).symm⟩
        · exact (h a ha).2.1 m (by omega)
      · exact .ok ⟨fun e => (nomatch e), fun p hp => by cases hp; exact ⟨hj', fun a ha => ⟨hf a ha, hnew a ha⟩⟩⟩

/-- What looking for chains may result in. -/
def Found (succ : List VarId) (d : Doms) (r : Option (List Chain)) : Prop := (r = none → Cyclic succ d) ∧ ∀ cs, r = some cs → ∀ c ∈ cs, ChainOK succ d c

theorem chainsFrom_ends (hd : DomsOK d) (hv : ∀ x ∈ succ, x.Valid d.length) (hr : Rng succ d) {fuel : Nat} {known : List Chain} (hk : ∀ c ∈ known, ChainOK succ d c) {v : Int} (hi : InI64 v) (hrg : 0 ≤ v ∧ v < succ.length) :
    Ends (chainsFrom fuel d succ known v) (Found succ d) := by
  have hj : v.toNat < succ.length := by omega
  have hx : succ[v.toNat]? = some succ[v.toNat] := List.getElem?_eq_getElem hj
  unfold chainsFrom
  rw [toNode_roo hrg, ok_bind, vecAt_get hx, ok_bind]
  refine (Ends.ofRoo (GlobalCardinality.single_roo' hd (hv _ (List.getElem_mem hj)))).bind fun b hb => ?_
  split
  · rename_i hc
    obtain ⟨y, hy⟩ := hb.1 hc.1
    refine (follow_ends hd hv hr hj fuel v.toNat 0 hj fun a ha => ⟨rfl, fun m hm => ?_, fun m h0 hm => by omega⟩).bind fun r hr' => ?_
    · rw [show m = 0 by omega]
      exact ⟨_, hx, fun b c hb hc => (hy b hb).trans (hy c hc).symm⟩
    · cases r with
      | none => exact .ok ⟨fun _ => hr'.1 rfl, fun cs e => nomatch e⟩
      | some r =>
        refine .ok ⟨fun e => (nomatch e), fun cs e c hc => ?_⟩
        cases e
        rcases List.mem_cons.1 hc with rfl | hc
        · obtain ⟨h1, h2⟩ := hr'.2 r rfl
          exact ⟨hj, by show InI64 (v.toNat : Int); rw [Int.toNat_of_nonneg hrg.1]; exact hi, h1, fun a ha => (h2 a ha).1, fun a ha => (h2 a ha).2⟩
        · exact hk c hc
  · exact .ok ⟨fun e => (nomatch e), fun cs e c hc => hk c (by cases e; exact hc)⟩

theorem chainsOver_ends (hd : DomsOK d) (hv : ∀ x ∈ succ, x.Valid d.length) (hr : Rng succ d) {fuel : Nat} : ∀ (vs : List Int) (known : List Chain), (∀ c ∈ known, ChainOK succ d c) → (∀ v ∈ vs, InI64 v ∧ 0 ≤ v ∧ v < succ.length) →
    Ends (chainsOver fuel d succ known vs) (Found succ d)
  | [], known, hk, _ => .ok ⟨fun e => (nomatch e), fun cs e c hc => hk c (by cases e; exact hc)⟩
  | v :: vs, known, hk, hvs => by
    have hv0 := hvs v List.mem_cons_self
    refine (chainsFrom_ends hd hv hr hk hv0.1 hv0.2).bind fun r hr' => ?_
    cases r with
    | none => exact .ok ⟨fun _ => hr'.1 rfl, fun cs e => nomatch e⟩
    | some k => exact chainsOver_ends hd hv hr vs k (hr'.2 k rfl) fun w hw => hvs w (List.mem_cons_of_mem _ hw)

theorem chains_ends (hd : DomsOK d) (hv : ∀ x ∈ succ, x.Valid d.length) (hr : Rng succ d) {fuel : Nat} : ∀ (xs : List VarId) (known : List Chain), (∀ c ∈ known, ChainOK succ d c) → (∀ x ∈ xs, x ∈ succ) →
    Ends (chains fuel d succ known xs) (fun r => (r = none → xs ≠ [] ∧ Cyclic succ d) ∧ ∀ cs, r = some cs → ∀ c ∈ cs, ChainOK succ d c)
  | [], known, hk, _ => .ok ⟨fun e => (nomatch e), fun cs e c hc => hk c (by cases e; exact hc)⟩
  | x :: xs, known, hk, hxs => by
    have hx := hxs x List.mem_cons_self
    refine (Ends.ofRoo (listed_roo hd (hv x hx))).bind fun g hg => ?_
    refine (chainsOver_ends hd hv hr g.1 known hk fun v hvg => ?_).bind fun r hr' => ?_
    · obtain ⟨h1, a, ha, e⟩ := hg.1 v hvg
      have := hr x hx a ha
      rw [e] at this
      exact ⟨h1, this⟩
    · cases r with
      | none => exact .ok ⟨fun _ => ⟨by simp, hr'.1 rfl⟩, fun cs e => nomatch e⟩
      | some k =>
        dsimp only
        split
        · rcases chains_ends hd hv hr xs k (hr'.2 k rfl) fun y hy => hxs y (List.mem_cons_of_mem _ hy) with h | h | ⟨v, h, h1, h2⟩
          · exact .inl h
          · exact .inr (.inl h)
          · exact .inr (.inr ⟨v, h, fun e => ⟨by simp, (h1 e).2⟩, h2⟩)
        · rename_i e he
          rw [hg.2.2 e he]; exact .inl rfl

/-- A cycle among fixed successors, if there is another node. -/
theorem Cyclic.noTour (h : Cyclic succ d) {x : VarId} (hx : x ∈ succ) (hk : ¬ Known d x) {a : Asg} (ha : Within d a) : ¬ Tour (succ.map (·.eval a)) := by
  intro ht
  obtain ⟨start, len, hst, h⟩ := h
  obtain ⟨h1, h2⟩ := h a ha
  obtain ⟨i, hi⟩ := List.mem_iff_getElem?.1 hx
  have hil := (List.getElem?_eq_some_iff.1 hi).1
  have key : ∀ y < succ.length, (∃ m ≤ len, it (fn succ a) m start = y) → ∃ m ≤ len, it (fn succ a) m start = fn succ a y := by
    rintro y _ ⟨m, hm, rfl⟩
    rw [← it_succ (f := fn succ a)]
    by_cases e : m = len
    · subst e; exact ⟨0, Nat.zero_le _, h1.symm⟩
    · exact ⟨m + 1, by omega, rfl⟩
  obtain ⟨m, hm, e⟩ := (tour_loop ht).closed (P := fun y => ∃ m ≤ len, it (fn succ a) m start = y) key hst hil ⟨0, Nat.zero_le _, rfl⟩
  obtain ⟨y, hy, hky⟩ := h2 m hm
  rw [e, hi] at hy
  cases hy
  exact hk hky

end

section
variable {σ μ : Type} {J : Job} {succ : List VarId}

theorem closeChain_ver (ho : J.R .overflow) (hC : ∀ a, J.C a → Tour (succ.map (·.eval a))) (hv : ∀ x ∈ succ, x.Valid J.n) {d : Doms} (hrng : Rng succ d) {c : Chain} (h : ChainOK succ d c) {Q : Unit → Doms → Prop}
    (hQ : ∀ d', DomsOK d' → d'.length = J.n → (∀ a, Within d' a → Within d a) → Q () d') : (closeChain succ c : Prog σ μ Unit).Ver J (fun _ => False) Q d := by
  have hlast := h.last
  have hx : succ[c.last]? = some succ[c.last] := List.getElem?_eq_getElem h.last
  have hxv := hv _ (List.getElem_mem h.last)
  have hst := h.start
  have hf : ∀ a, Within d a → it (fn succ a) (c.len + 1) c.start = (succ[c.last].eval a).toNat := fun a ha => by rw [it_succ, h.leads a ha, fn_eq hx]
  refine ver_lift (x := vecAt succ c.last) (P := fun y => y = succ[c.last]) ho (.inr ⟨_, vecAt_get hx, rfl⟩) fun y hy => ?_
  subst hy
  split
  · refine ver_tell_last (.ne hxv h.int) (fun a ha hCa => ?_) fun d' h1 h2 h3 => hQ d' h1 h2 fun a ha => ((h3 a).1 ha).1
    rw [Lit.holds_ne]
    intro e
    have := (tour_loop (hC a hCa)).cycle (len := c.len) h.start (by rw [hf a ha, e]; rfl)
    omega
  · refine ver_tell_last (.eq hxv h.int) (fun a ha hCa => ?_) fun d' h1 h2 h3 => hQ d' h1 h2 fun a ha => ((h3 a).1 ha).1
    rw [Lit.holds_eq]
    have := (tour_loop (hC a hCa)).close (len := c.len) h.start (h.open' a ha) (by omega)
    rw [hf a ha] at this
    have hrg := hrng _ (List.getElem_mem h.last) a ha
    omega

theorem preventSmallCycles_ver (ho : J.R .overflow) (hdv : J.R .diverge) (hC : ∀ a, J.C a → Tour (succ.map (·.eval a))) (hv : ∀ x ∈ succ, x.Valid J.n) {fuel : Nat} {u : List VarId} (hu : ∀ x ∈ u, x ∈ succ) {d : Doms} (hd : DomsOK d)
    (hl : d.length = J.n) (hrng : Rng succ d) (huk : ∀ x ∈ u, ¬ Known d x) : (preventSmallCycles fuel succ u : Prog σ μ Unit).Ver J (fun _ => False) (fun _ d' => ∀ a, Within d' a → Within d a) d := by
  have hch := chains_ends (fuel := fuel) hd (fun x hx => hl.symm ▸ hv x hx) hrng u [] (by simp) hu
  refine ver_ask' (f := (chains fuel · succ [] u)) (fun e he => ?_) fun r hr => ?_
  · replace he : chains fuel d succ [] u = .error e := he
    rcases hch with h | h | ⟨v, h, _⟩ <;> rw [h] at he <;> cases he
    · exact ho
    · exact hdv
  · replace hr : chains fuel d succ [] u = .ok r := hr
    rcases hch with h | h | ⟨v, h, h1, h2⟩ <;> rw [h] at hr <;> cases hr
    cases r with
    | none =>
      obtain ⟨hne, hcy⟩ := h1 rfl
      obtain ⟨x, xs, rfl⟩ := List.exists_cons_of_ne_nil hne
      exact fun a ha hCa => hcy.noTour (hu x List.mem_cons_self) (huk x List.mem_cons_self) ha (hC a hCa)
    | some cs =>
      refine ver_mono (fun _ _ hq => hq.2) _ _ (ver_forEach (fun cs' d' => (∀ c ∈ cs', c ∈ cs) ∧ ∀ a, Within d' a → Within d a) (fun c cs' d' hd' hl' hi => ?_) cs d hd hl ⟨fun _ h => h, fun _ h => h⟩)
      exact closeChain_ver ho hC hv (hrng.sub hi.2) ((h2 cs rfl c (hi.1 c List.mem_cons_self)).sub hi.2) fun d2 _ _ hs => ⟨fun c' hc => hi.1 c' (List.mem_cons_of_mem _ hc), fun a ha => hi.2 a (hs a ha)⟩

/-- Tours visit different nodes. -/
theorem tour_differ {vs : List Int} (ht : Tour vs) {i j : Nat} {v : Int} (hi : vs[i]? = some v) (hj : vs[j]? = some v) : i = j := by
  have hL := Loop.of_tour ht
  have hil := (List.getElem?_eq_some_iff.1 hi).1
  have hjl := (List.getElem?_eq_some_iff.1 hj).1
  have e1 : next vs i = v.toNat := by rw [next, List.getD_eq_getElem?_getD, hi]; rfl
  have e2 : next vs j = v.toNat := by rw [next, List.getD_eq_getElem?_getD, hj]; rfl
  obtain ⟨p, hp, hmin⟩ := exists_least (P := fun k => it (next vs) (k + 1) i = i) (by
    obtain ⟨k, hk⟩ := hL.all (next vs i) i (hL.lt i hil) hil
    exact ⟨k, hk⟩)
  have hn := hL.cycle hil hp
  -- `j` is somewhere on the way, and both lead to the same
  have key : ∀ y < vs.length, (∃ m ≤ p, it (next vs) m i = y) → ∃ m ≤ p, it (next vs) m i = next vs y := by
    rintro y _ ⟨m, hm, rfl⟩
    rw [← it_succ (f := next vs)]
    by_cases e : m = p
    · subst e; exact ⟨0, Nat.zero_le _, hp.symm⟩
    · exact ⟨m + 1, by omega, rfl⟩
  obtain ⟨m, hm, e⟩ := hL.closed (P := fun y => ∃ m ≤ p, it (next vs) m i = y) key hil hjl ⟨0, Nat.zero_le _, rfl⟩
  cases m with
  | zero => exact e
  | succ m =>
    have hj' : it (next vs) (m + 1 + 1) i = it (next vs) 1 i := by rw [it_succ, e]; show next vs j = next vs i; rw [e1, e2]
    have h2 : it (next vs) (p + 1) i = it (next vs) (p - m - 1 + 1) i := by
      have h3 := it_add (f := next vs) (m + 1 + 1) (p - m - 1) i
      have h4 := it_add (f := next vs) 1 (p - m - 1) i
      rw [hj'] at h3
      rw [show p + 1 = m + 1 + 1 + (p - m - 1) by omega, show p - m - 1 + 1 = 1 + (p - m - 1) by omega, h3, h4]
    rw [hp] at h2
    exact absurd h2.symm (hmin (p - m - 1) (by omega))

theorem tour_differ_vars (hn : succ.Nodup) {a : Asg} (ht : Tour (succ.map (·.eval a))) : ∀ x ∈ succ, ∀ y ∈ succ, x ≠ y → x.eval a ≠ y.eval a := by
  intro x hx y hy hne e
  obtain ⟨i, hi⟩ := List.mem_iff_getElem?.1 hx
  obtain ⟨j, hj⟩ := List.mem_iff_getElem?.1 hy
  have h1 : (succ.map (·.eval a))[i]? = some (x.eval a) := by rw [List.getElem?_map, hi]; rfl
  have h2 : (succ.map (·.eval a))[j]? = some (x.eval a) := by rw [List.getElem?_map, hj, e]; rfl
  have := tour_differ ht h1 h2
  subst this
  rw [hi] at hj
  cases hj
  exact hne rfl

end
end Gcs.Circuit
