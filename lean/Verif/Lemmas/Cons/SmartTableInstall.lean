import Verif.Lemmas.Cons.SmartTableTree
import Verif.Lemmas.Cons.CircuitInstall
import Verif.Lemmas.Cons.LinearIncremental
import Verif.Lemmas.Heuristics

/-!
# The propagator of a smart table
-/

namespace Gcs.SmartTable

/-- The lists are the domains. -/
def Holds (d : Doms) (xs : List VarId) (m : VMap) : Prop := ∀ x ∈ xs, ∃ l, m x = some l ∧ l.Nodup ∧ (∀ v, v ∈ l ↔ Poss d x v) ∧ ∀ v ∈ l, InI64 v

theorem domains_roo {d : Doms} (hd : DomsOK d) : ∀ (vs : List VarId) (m : VMap), vs.Nodup → (∀ v ∈ vs, v.Valid d.length) → (∀ v ∈ vs, m v = none) →
    RightOrOverflow (domains d vs m) (fun m' => Holds d vs m' ∧ ∀ v, v ∉ vs → m' v = m v)
  | [], m, _, _, _ => .pure ⟨fun _ h => (nomatch h), fun _ _ => rfl⟩
  | v :: vs, m, hn, hv, hm => by
    rw [List.nodup_cons] at hn
    have hvals : RightOrOverflow (do collect (← eachValue d v)) (fun L => L.Nodup ∧ (∀ y, y ∈ L ↔ Poss d v y) ∧ ∀ y ∈ L, InI64 y) := (values_roo hd (hv v (by simp))).mono fun L h => ⟨h.2.1, h.2.2.1, h.2.2.2⟩
    have : domains d (v :: vs) m = (do let l ← (do collect (← eachValue d v)); domains d vs (if l = [] then m else put m v (m.at v ++ l))) := by
      rw [domains]; cases eachValue d v <;> rfl
    rw [this]
    refine hvals.bind fun L hL => ?_
    have hne : L ≠ [] := fun e => by
      obtain ⟨a, ha⟩ := exists_within hd
      have := (hL.2.1 _).2 (ha.poss v)
      rw [e] at this; cases this
    rw [if_neg hne, show m.at v = [] from by rw [VMap.at, hm v (by simp)]; rfl, List.nil_append]
    refine (domains_roo hd vs (put m v L) hn.2 (fun w hw => hv w (by simp [hw])) fun w hw => ?_).mono fun m' h => ⟨fun x hx => ?_, fun w hw => ?_⟩
    · rw [put_other fun (e : w = v) => hn.1 (e ▸ hw)]; exact hm w (by simp [hw])
    · rcases List.mem_cons.1 hx with rfl | hx
      · exact ⟨L, by rw [h.2 x hn.1, put_self], hL⟩
      · exact h.1 x hx
    · rw [List.mem_cons, not_or] at hw
      rw [h.2 w hw.2, put_other hw.1]

theorem tryTrees_spec {full : VMap} {xs : List VarId} (hl : Lists full xs) (hf : Full full xs) : ∀ (ts : List (List SmartEntry)) (u : VMap), (∀ t ∈ ts, Ordered t ∧ ∀ e ∈ t, Proper e ∧ ∀ x ∈ e.vars, x ∈ xs) →
    ∃ r, tryTrees full ts u = .ok r ∧ (∀ s, Fits s full xs → (∀ t ∈ ts, ∀ e ∈ t, e.sat s) → r.1 = true) ∧
      (∀ y v, v ∈ r.2.at y → v ∈ u.at y ∧ ∀ s, Fits s full xs → (∀ t ∈ ts, ∀ e ∈ t, e.sat s) → ∀ t ∈ ts, ∀ e ∈ t, y ∈ e.vars → v ≠ s y) ∧
      (r.1 = true → ∀ s, (∀ x ∈ xs, ∀ v ∈ full.at x, v = s x) → ∀ t ∈ ts, ∀ e ∈ t, e.sat s)
  | [], u, _ => ⟨_, rfl, fun _ _ _ => rfl, fun _ _ h => ⟨h, fun _ _ _ _ h => nomatch h⟩, fun _ _ _ _ h => nomatch h⟩
  | t :: ts, u, h => by
    obtain ⟨ho, hp⟩ := h t (by simp)
    obtain ⟨c, h1, h2, h3⟩ := check_spec hp ho hl hf
    cases c with
    | none =>
      refine ⟨(false, u), by rw [tryTrees, h1]; rfl, fun s hs ht => ?_, fun y v hv => ⟨hv, fun s hs ht => ?_⟩, fun e => nomatch e⟩ <;>
      · obtain ⟨m', e, _⟩ := h2 s hs (ht t (by simp)); cases e
    | some m =>
      obtain ⟨k1, k2, k3, s0, k4, k5⟩ := h3 m rfl
      obtain ⟨u1, g1, g2⟩ := again_spec (u := u) hp k1 ⟨s0, k4, k5⟩
      obtain ⟨r, r1, r2, r3, r4⟩ := tryTrees_spec hl hf ts u1 fun t' ht' => h t' (List.mem_cons_of_mem _ ht')
      refine ⟨r, ?_, fun s hs ht => r2 s hs fun t' h' => ht t' (List.mem_cons_of_mem _ h'), fun y v hv => ?_, fun e s hs t' ht' => ?_⟩
      · rw [tryTrees, h1]
        show (do tryTrees full ts (← again t m u)) = _
        rw [g1]; exact r1
      · obtain ⟨q1, q2⟩ := r3 y v hv
        obtain ⟨q3, q4⟩ := g2 y v q1
        refine ⟨q3, fun s hs ht t' ht' e he hy => ?_⟩
        rcases List.mem_cons.1 ht' with rfl | ht'
        · obtain ⟨m', em, fm⟩ := h2 s hs (ht t' (by simp))
          cases em
          exact q4 s fm (ht t' (by simp)) e he hy
        · exact q2 s hs (fun t'' h'' => ht t'' (List.mem_cons_of_mem _ h'')) t' ht' e he hy
      · rcases List.mem_cons.1 ht' with rfl | ht'
        · intro f hf'
          exact sat_congr (fun x hx => hs x ((hp f hf').2 x hx) _ (k3 x _ (k4 x ((hp f hf').2 x hx)))) (k5 f hf')
        · exact r4 e s hs t' ht'

/-- A row and its forest. -/
structure RowOK (vars : List VarId) (es : List SmartEntry) (ts : List (List SmartEntry)) : Prop where
  entries : ∀ e ∈ es, Proper e ∧ ∀ x ∈ e.vars, x ∈ vars
  trees : ∀ t ∈ ts, Ordered t ∧ ∀ e ∈ t, e ∈ es
  all : ∀ e ∈ es, ∃ t ∈ ts, e ∈ t

theorem free_mem {vars : List VarId} {es : List SmartEntry} {u : VMap} {y : VarId} {v : Int} (h : v ∈ (free vars es u).at y) (hy : y ∈ vars) : v ∈ u.at y ∧ y ∈ es.flatMap SmartEntry.vars := by
  by_cases e : y ∈ es.flatMap SmartEntry.vars
  · rw [VMap.at, free, if_neg fun k => k.2 e] at h; exact ⟨h, e⟩
  · rw [VMap.at, free, if_pos ⟨hy, e⟩] at h; cases h

theorem tryRows_spec {full : VMap} {vars : List VarId} (hl : Lists full vars) (hf : Full full vars) : ∀ (rows : List (Bool × List SmartEntry × List (List SmartEntry))) (u : VMap), (∀ q ∈ rows, RowOK vars q.2.1 q.2.2) →
    ∃ r, tryRows full vars rows u = .ok r ∧ r.1.length = rows.length ∧
      (∀ (i : Nat) q, rows[i]? = some q → ∃ b, r.1[i]? = some b ∧ (q.1 = false → b = false) ∧ (q.1 = true → b = false → ∀ s, Fits s full vars → ¬ ∀ e ∈ q.2.1, e.sat s) ∧
        (b = true → ∀ s, (∀ x ∈ vars, ∀ v ∈ full.at x, v = s x) → ∀ e ∈ q.2.1, e.sat s)) ∧
      ∀ y ∈ vars, ∀ v, v ∈ r.2.at y → v ∈ u.at y ∧ ∀ q ∈ rows, q.1 = true → ∀ s, Fits s full vars → (∀ e ∈ q.2.1, e.sat s) → v ≠ s y
  | [], u, _ => ⟨_, rfl, rfl, fun _ _ h => by simp at h, fun y _ v h => ⟨h, fun _ h => nomatch h⟩⟩
  | (false, es, ts) :: rows, u, h => by
    obtain ⟨r, r1, r2, r3, r4⟩ := tryRows_spec hl hf rows u fun q hq => h q (List.mem_cons_of_mem _ hq)
    refine ⟨(false :: r.1, r.2), by rw [tryRows, r1]; rfl, by simp [r2], fun i q hq => ?_, fun y hy v hv => ⟨(r4 y hy v hv).1, fun q hq e => ?_⟩⟩
    · cases i with
      | zero => cases hq; exact ⟨false, rfl, fun _ => rfl, fun e => (nomatch e), fun e => nomatch e⟩
      | succ i => exact r3 i q hq
    · rcases List.mem_cons.1 hq with rfl | hq
      · cases e
      · exact (r4 y hy v hv).2 q hq e
  | (true, es, ts) :: rows, u, h => by
    have ok := h _ List.mem_cons_self
    obtain ⟨t, t1, t2, t3, t4⟩ := tryTrees_spec hl hf ts u fun t ht => ⟨(ok.trees t ht).1, fun e he => ok.entries e ((ok.trees t ht).2 e he)⟩
    obtain ⟨r, r1, r2, r3, r4⟩ := tryRows_spec hl hf rows (if t.1 then free vars es t.2 else t.2) fun q hq => h q (List.mem_cons_of_mem _ hq)
    have conv : ∀ s, (∀ e ∈ es, e.sat s) → ∀ t ∈ ts, ∀ e ∈ t, e.sat s := fun s hs t ht e he => hs e ((ok.trees t ht).2 e he)
    refine ⟨(t.1 :: r.1, r.2), by rw [tryRows, t1]; exact (congrArg (fun x : Chk (List Bool × VMap) => x >>= fun q => pure (t.1 :: q.1, q.2)) r1 :), by simp [r2], fun i q hq => ?_, fun y hy v hv => ?_⟩
    · cases i with
      | zero =>
        cases hq
        refine ⟨t.1, rfl, fun e => (nomatch e), fun _ e s hs hsat => ?_, fun e s hs f hf' => ?_⟩
        · have := t2 s hs (conv s hsat)
          rw [e] at this; cases this
        · obtain ⟨t', ht', hft⟩ := ok.all f hf'
          exact t4 e s hs t' ht' f hft
      | succ i => exact r3 i q hq
    · obtain ⟨q1, q2⟩ := r4 y hy v hv
      have hu : v ∈ t.2.at y ∧ (t.1 = true → y ∈ es.flatMap SmartEntry.vars) := by
        cases e : t.1 with
        | false => rw [e] at q1; exact ⟨q1, fun k => nomatch k⟩
        | true => rw [e] at q1; exact ⟨(free_mem q1 hy).1, fun _ => (free_mem q1 hy).2⟩
      obtain ⟨w1, w2⟩ := t3 y v hu.1
      refine ⟨w1, fun q hq e s hs hsat => ?_⟩
      rcases List.mem_cons.1 hq with rfl | hq
      · obtain ⟨f, hf1, hf2⟩ := List.mem_flatMap.1 (hu.2 (t2 s hs (conv s hsat)))
        obtain ⟨t', ht', hft⟩ := ok.all f hf1
        exact w2 s hs (conv s hsat) t' ht' f hft hf2
      · exact q2 q hq e s hs hsat

section
variable {σ μ : Type} {n m : Nat} {R : Err → Prop} {root : Doms} {B : Kind σ (List Bool)} {h : Nat} {vars : List VarId} {rows : List (List SmartEntry)} {z0 : List σ}

/-- Rows are given up only if they cannot hold. -/
def Stored (B : Kind σ (List Bool)) (h : Nat) (rows : List (List SmartEntry)) (d : Doms) (z : List σ) : Prop := ∃ sel, z[h]? = some (B.put sel) ∧ sel.length = rows.length ∧
  ∀ (i : Nat) es, rows[i]? = some es → sel[i]? = some false → ∀ a, Within d a → ¬ ∀ e ∈ es, e.sat (·.eval a)

theorem Stored.sub {d d' : Doms} {z : List σ} (hs : ∀ a, Within d' a → Within d a) : Stored B h rows d z → Stored B h rows d' z := fun ⟨sel, h1, h2, h3⟩ => ⟨sel, h1, h2, fun i es k1 k2 a ha => h3 i es k1 k2 a (hs a ha)⟩

theorem Stored.only {d : Doms} {z z' : List σ} (e : ∀ k, k = h → z'[k]? = z[k]?) : Stored B h rows d z → Stored B h rows d z' := fun ⟨sel, h1, h2, h3⟩ => ⟨sel, by rw [e h rfl]; exact h1, h2, h3⟩

/-- Taking values away. -/
theorem removals_ver {J : Job} {u : VMap} {d : Doms} (hd : DomsOK d) (hl : d.length = J.n) (hv : ∀ x ∈ vars, x.Valid J.n) (hu : ∀ x ∈ vars, ∀ v ∈ u.at x, InI64 v ∧ ∀ a, Within d a → J.C a → x.eval a ≠ v) :
    (Prog.forEach (fun x => Prog.forEach (fun v => Prog.tell (.cond (Cond.ne x v))) (u.at x)) vars : Prog σ μ Unit).Ver J (fun _ => False) (fun _ d' => ∀ a, Within d' a → Within d a) d := by
  refine ver_mono (fun _ d' h => h.2) _ _ (ver_forEach (J := J) (fun (xs : List VarId) d' => (∀ x ∈ xs, x ∈ vars) ∧ ∀ a, Within d' a → Within d a) (fun x xs d1 h1 h2 h3 => ?_) vars d hd hl ⟨fun _ h => h, fun _ h => h⟩)
  have hx := h3.1 x (by simp)
  refine ver_mono (fun _ d' h => ⟨fun y hy => h3.1 y (List.mem_cons_of_mem _ hy), h.2⟩) _ _ (ver_forEach (J := J) (fun (vs : List Int) d' => (∀ v ∈ vs, v ∈ u.at x) ∧ ∀ a, Within d' a → Within d a) (fun v vs d2 g1 g2 g3 => ?_) (u.at x) d1 h1 h2 ⟨fun _ h => h, h3.2⟩)
  have hvv := hu x hx v (g3.1 v (by simp))
  refine ver_tell_last (.ne (hv x hx) hvv.1) (fun a ha hc => (Lit.holds_ne ..).2 (hvv.2 a (g3.2 a ha) hc)) fun d3 _ _ k => ⟨fun w hw => g3.1 w (List.mem_cons_of_mem _ hw), fun a ha => g3.2 a ((k a).1 ha).1⟩

theorem propagate_enforces {fs : List (List SmartEntry × List (List SmartEntry))} (ho : R .overflow) (hn : vars.Nodup) (hv : ∀ v ∈ vars, v.Valid n) (hlen : fs.length = rows.length) (hfs : ∀ (i : Nat) p, fs[i]? = some p → rows[i]? = some p.1 ∧ RowOK vars p.1 p.2) :
    EnforcesS n m R root (Stored B h rows) (· = h) (SmartHolds rows) vars (propagate (μ := μ) B h vars fs) := by
  intro d z hd hl hz hi
  obtain ⟨sel, hu, hsel, hdead⟩ := hi
  have hlt := (List.getElem?_eq_some_iff.1 hu).1
  rintro s rfl rfl
  dsimp only
  rw [show (s.st.cstates.headD [])[h]? = some (B.put sel) from hu]
  dsimp only
  rw [B.get_put]
  dsimp only
  have hrows : ∀ q ∈ sel.zip fs, RowOK vars q.2.1 q.2.2 := fun q hq => by
    obtain ⟨i, hi⟩ := List.getElem?_of_mem (List.of_mem_zip hq).2
    exact (hfs i _ hi).2
  have hask : RightOrOverflow (do let full ← domains s.doms vars fun _ => none; tryRows full vars (sel.zip fs) full) (fun r => r.1.length = rows.length ∧
      (∀ (i : Nat) es, rows[i]? = some es → ∃ b c, sel[i]? = some c ∧ r.1[i]? = some b ∧ (b = false → ∀ a, Within s.doms a → ¬ ∀ e ∈ es, e.sat (·.eval a)) ∧ (b = true → (∀ x ∈ vars, Known s.doms x) → ∀ a, Within s.doms a → ∀ e ∈ es, e.sat (·.eval a))) ∧
      ∀ y ∈ vars, ∀ v ∈ r.2.at y, InI64 v ∧ ∀ a, Within s.doms a → SmartHolds rows a → y.eval a ≠ v) := by
    refine (domains_roo hd vars (fun _ => none) hn (fun v h => hl.symm ▸ hv v h) fun _ _ => rfl).bind fun full ⟨hfull, _⟩ => ?_
    have mem : ∀ x ∈ vars, ∀ v, v ∈ full.at x ↔ Poss s.doms x v := fun x hx v => by
      obtain ⟨l, h1, _, h3, _⟩ := hfull x hx
      rw [at_some h1]; exact h3 v
    have fits : ∀ a, Within s.doms a → Fits (·.eval a) full vars := fun a ha x hx => (mem x hx _).2 (ha.poss x)
    obtain ⟨a0, ha0⟩ := exists_within hd
    obtain ⟨r, r1, r2, r3, r4⟩ := tryRows_spec (full := full) (vars := vars) (fun x hx => by obtain ⟨l, h1, h2, _⟩ := hfull x hx; exact ⟨l, h1, h2⟩) (fits a0 ha0).ne (sel.zip fs) full hrows
    have at_ : ∀ (i : Nat) es, rows[i]? = some es → ∃ c p, sel[i]? = some c ∧ fs[i]? = some p ∧ p.1 = es ∧ (sel.zip fs)[i]? = some (c, p) := fun i es hi => by
      have hlt := (List.getElem?_eq_some_iff.1 hi).1
      have e1 := List.getElem?_eq_getElem (l := sel) (i := i) (by omega)
      have e2 := List.getElem?_eq_getElem (l := fs) (i := i) (by omega)
      refine ⟨_, _, e1, e2, ?_, by rw [List.getElem?_zip_eq_some]; exact ⟨e1, e2⟩⟩
      have := (hfs i _ e2).1
      rw [hi] at this; exact (Option.some.inj this).symm
    refine .inr ⟨r, r1, by rw [r2, List.length_zip]; omega, fun i es hi => ?_, fun y hy v hvr => ?_⟩
    · obtain ⟨c, p, e1, e2, rfl, e3⟩ := at_ i es hi
      obtain ⟨b, b1, b2, b3, b4⟩ := r3 i _ e3
      refine ⟨b, c, e1, b1, fun e a ha => ?_, fun e hk a ha => b4 e (·.eval a) fun x hx v hv' => ?_⟩
      · cases c with
        | true => exact b3 rfl e _ (fits a ha)
        | false => exact hdead i p.1 hi e1 a ha
      · exact ((hk x hx).poss ha ((mem x hx v).1 hv')).symm
    · obtain ⟨q1, q2⟩ := r4 y hy v hvr
      refine ⟨by obtain ⟨l, h1, _, _, h4⟩ := hfull y hy; rw [at_some h1] at q1; exact h4 v q1, fun a ha hsat e => ?_⟩
      obtain ⟨es, hes, hall⟩ := hsat
      obtain ⟨i, hi⟩ := List.getElem?_of_mem hes
      obtain ⟨c, p, e1, e2, rfl, e3⟩ := at_ i es hi
      cases c with
      | true => exact q2 _ (List.mem_of_getElem? e3) rfl _ (fits a ha) hall e.symm
      | false => exact hdead i p.1 hi e1 a ha hall
  refine verS_ask (f := fun d => do let full ← domains d vars fun _ => none; tryRows full vars (sel.zip fs) full) ho hask fun r hr => ?_
  obtain ⟨g1, g2, g3⟩ := hr
  refine ⟨⟨hz ▸ hlt, rfl⟩, ?_⟩
  by_cases hall : ∀ b ∈ r.1, b = false
  · rw [if_pos hall]
    intro a ha hc
    obtain ⟨es, hes, hsat⟩ := hc.2
    obtain ⟨i, hi⟩ := List.getElem?_of_mem hes
    obtain ⟨b, c, _, e2, e3, _⟩ := g2 i es hi
    exact e3 (hall b (List.mem_of_getElem? e2)) a ha hsat
  · rw [if_neg hall]
    refine verS_bind (J := { n, m, R, C := fun a => Within root a ∧ SmartHolds rows a, own := (· = h) }) (S := fun _ => False) (fun _ h => h.elim) _ _ _ hd hl (verS_mono ?_ _ _ _ (Ver.toS' (J := { n, m, R, C := fun a => Within root a ∧ SmartHolds rows a, own := (· = h) })
      (removals_ver (u := r.2) hd hl hv fun x hx v hvr => ⟨(g3 x hx v hvr).1, fun a ha hc => (g3 x hx v hvr).2 a ha hc.2⟩)))
    rintro _ d' z' ⟨hs, rfl⟩ _ _ _
    refine ⟨Enforced.intro (fun hk a ha _ => ?_) (fun e => nomatch e) (fun e => nomatch e), r.1, by rw [List.getElem?_set_self hlt], g1, fun i es h1 h2 a ha => ?_⟩
    · have : ∃ b ∈ r.1, b = true := Classical.byContradiction fun hn => hall fun b hb => by
        cases b with
        | false => rfl
        | true => exact absurd ⟨true, hb, rfl⟩ hn
      obtain ⟨b, hb, rfl⟩ := this
      obtain ⟨i, hi⟩ := List.getElem?_of_mem hb
      have hlt' : i < rows.length := g1 ▸ (List.getElem?_eq_some_iff.1 hi).1
      obtain ⟨b', c, _, e2, _, e4⟩ := g2 i _ (List.getElem?_eq_getElem hlt')
      rw [hi] at e2; cases e2
      exact ⟨_, List.getElem_mem hlt', e4 rfl hk a (hs a ha)⟩
    · obtain ⟨b, c, _, e2, e3, _⟩ := g2 i es h1
      rw [h2] at e2; cases e2
      exact e3 rfl a (hs a ha)

/-- What rows have to be like. -/
structure Fine (vars : List VarId) (rows : List (List SmartEntry)) (order : Nat → List VarId) : Prop where
  nodup : vars.Nodup
  plain : ∀ es ∈ rows, ∀ e ∈ es, ∀ x ∈ e.vars, (∃ i, x = .simple i) ∧ x ∈ vars
  acyclic : ∀ es ∈ rows, Acyclic es
  order : ∀ (i : Nat) es, rows[i]? = some es → ∀ v, v ∈ order i ↔ ∃ e ∈ es, v ∈ e.vars

theorem Fine.proper {order : Nat → List VarId} (hf : Fine vars rows order) {es : List SmartEntry} (hes : es ∈ rows) : ∀ e ∈ es, Proper e := by
  intro e he
  refine ⟨fun x hx => (hf.plain es hes e he x hx).1, ?_⟩
  cases e with
  | value x v r => simp [SmartEntry.vars]
  | set x vs b => simp [SmartEntry.vars]
  | binary x y r =>
    obtain ⟨i, hi⟩ := List.getElem?_of_mem he
    have : x ≠ y := fun e => hf.acyclic es hes i x y r hi (e ▸ .refl _)
    simp [SmartEntry.vars, this]

theorem mapAll_ok {α β : Type} {f : α → Chk β} {P : α → β → Prop} : ∀ xs : List α, (∀ x ∈ xs, ∃ y, f x = .ok y ∧ P x y) →
    ∃ ys, AllDifferent.mapAll f xs = .ok ys ∧ ys.length = xs.length ∧ ∀ (i : Nat) x y, xs[i]? = some x → ys[i]? = some y → P x y
  | [], _ => ⟨[], rfl, rfl, fun _ _ _ h => by simp at h⟩
  | x :: xs, h => by
    obtain ⟨y, h1, h2⟩ := h x (by simp)
    obtain ⟨ys, k1, k2, k3⟩ := mapAll_ok xs fun z hz => h z (by simp [hz])
    refine ⟨y :: ys, by rw [AllDifferent.mapAll, h1, k1]; rfl, by simp [k2], fun i x' y' e1 e2 => ?_⟩
    cases i with
    | zero => cases e1; cases e2; exact h2
    | succ i => exact k3 i x' y' e1 e2

theorem Fine.install_ok {order : Nat → List VarId} (hf : Fine vars rows order) (ho : R .overflow) (hv : ∀ v ∈ vars, v.Valid n) (hz : z0[h]? = some (B.put (List.replicate rows.length true))) :
    ∃ items, install (μ := μ) B h order vars rows root = .ok items ∧ ∃ I es, es.map (·.1) = items ∧ Served n m R root z0 I (· = h) (SmartHolds rows) vars es := by
  unfold install
  rw [if_neg ?_]
  · obtain ⟨fs, hok, hfs⟩ := mapAll_ok (f := fun p => do return (p.1, ← forest p.1 (order p.2) [])) (P := fun p q => p.1 ∈ rows → q.1 = p.1 ∧ RowOK vars q.1 q.2) rows.zipIdx fun p hp => by
      have hp' : rows[p.2]? = some p.1 := by
        have := List.mem_zipIdx_iff_getElem?.1 hp
        simpa using this
      have hes := List.mem_of_getElem? hp'
      have pr := hf.proper hes
      obtain ⟨ts, h1, h2, h3⟩ := forest_ok pr (hf.acyclic _ hes) (order p.2) [] (fun v hv => by
        obtain ⟨e, he, hve⟩ := (hf.order p.2 p.1 hp' v).1 hv
        exact List.mem_flatMap.2 ⟨e, he, hve⟩) fun _ _ _ _ _ _ h => nomatch h
      refine ⟨(p.1, ts), by rw [h1]; rfl, fun _ => ⟨rfl, fun e he => ⟨pr e he, fun x hx => (hf.plain _ hes e he x hx).2⟩, h2, fun e he => ?_⟩⟩
      have hne : ∃ v, v ∈ e.vars := by cases e <;> exact ⟨_, List.mem_cons_self⟩
      obtain ⟨v, hve⟩ := hne
      exact (h3 e he v hve ((hf.order p.2 p.1 hp' v).2 ⟨e, he, hve⟩)).resolve_left (by simp)
    have hlen : fs.length = rows.length := by rw [hfs.1, List.length_zipIdx]
    refine ⟨[.prop (propagate B h vars fs) { onChange := vars }], by rw [hok]; rfl, Stored B h rows, [(.prop (propagate B h vars fs) { onChange := vars }, SmartHolds rows)], rfl,
      Linear.served_prop (ys := vars) (fun _ _ => Iff.rfl) (propagate_enforces ho hf.nodup hv hlen fun i p hi => ?_) (fun _ h => h) (wakes_mem fun x hx => .inl hx) rfl (fun _ _ _ => Stored.sub) (fun _ _ _ => Stored.only) fun d => ⟨_, hz, by simp, fun i es _ k => ?_⟩⟩
    · have hlt : i < rows.length := hlen ▸ (List.getElem?_eq_some_iff.1 hi).1
      have e := List.getElem?_eq_getElem hlt
      have := hfs.2 i (rows[i], i) p (by rw [List.getElem?_zipIdx, e]; simp) hi (List.getElem_mem hlt)
      exact ⟨by rw [this.1]; exact e, this.2⟩
    · rw [List.getElem?_replicate] at k
      split at k <;> cases k
  · rintro ⟨es, hes, e, he, ha⟩
    have pr := hf.proper hes e he
    cases e with
    | value x v r => cases ha
    | set x vs b => cases ha
    | binary x y r =>
      have e : deview x = deview y := by simpa [aliased] using ha
      rw [deview_of (pr.1 x (by simp [SmartEntry.vars])), deview_of (pr.1 y (by simp [SmartEntry.vars]))] at e
      have := pr.2
      simp [SmartEntry.vars, e] at this

end
end Gcs.SmartTable
