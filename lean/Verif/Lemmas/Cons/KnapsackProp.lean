import Verif.Lemmas.Cons.Knapsack

namespace Gcs.Knapsack
open IntervalSet

section
variable {σ μ : Type} {W : Way} {is : List Nat} {d0 d : Doms} {J : Job} {i : Nat} {x : VarId} {ws : List Sums}

theorem keep_sub {α : Type} {p : α → Chk Bool} {T : α → Prop} : ∀ xs : List α, (∀ x ∈ xs, RightOrOverflow (p x) (fun b => T x → b = true)) → RightOrOverflow (Disjunctive2D.keep p xs) (fun ys => (∀ y ∈ ys, y ∈ xs) ∧ ∀ x ∈ xs, T x → x ∈ ys)
  | [], _ => .pure ⟨fun _ h => h, fun _ h => nomatch h⟩
  | x :: xs, h => by
    refine (h x List.mem_cons_self).bind fun b hb => (keep_sub xs fun y hy => h y (List.mem_cons_of_mem _ hy)).bind fun ys hy => .pure ?_
    cases b with
    | true => exact ⟨fun y k => by rcases List.mem_cons.1 k with rfl | k; simp; exact List.mem_cons_of_mem _ (hy.1 y k), fun y k t => by rcases List.mem_cons.1 k with rfl | k; simp; exact List.mem_cons_of_mem _ (hy.2 y k t)⟩
    | false => exact ⟨fun y k => List.mem_cons_of_mem _ (hy.1 y k), fun y k t => by rcases List.mem_cons.1 k with rfl | k; exact Bool.noConfusion (hb t); exact hy.2 y k t⟩

theorem choose_roo (h : W.OK is d0) (hd : DomsOK d) (hl : d.length = d0.length) (hs : ∀ a, Within d a → Within d0 a) (hi : i ∈ is) {w : Sums} (hw : Fine W.totals.length w) {v : Int} (hv : InI64 v) :
    RightOrOverflow (W.choose d i w v) (fun r => (∀ p ∈ r, p.1 = ⟨adv W.coeffs W.totals.length i w v, w, v⟩ ∧ Fine W.totals.length p.1.to) ∧
      (W.known (i + 1) (adv W.coeffs W.totals.length i w v) = true → ∃ b, (⟨adv W.coeffs W.totals.length i w v, w, v⟩, b) ∈ r ∧
        ∀ a, Within d a → W.Sum is a → ∀ qs post, is = qs.reverse ++ post → adv W.coeffs W.totals.length i w v = spot W.coeffs W.vars W.totals.length a qs → b = false)) := by
  refine (advance_roo h.rows (h.lt i hi) hw hv).bind fun w' hw' => ?_
  obtain ⟨rfl, hf⟩ := hw'
  split
  · refine (h.tooLarge hd hl hs hf).bind fun b hb => .pure ⟨fun p hp => ?_, fun _ => ⟨b, List.mem_singleton.2 rfl, hb⟩⟩
    rw [List.mem_singleton.1 hp]
    exact ⟨rfl, hf⟩
  · rename_i hk
    exact .pure ⟨fun p hp => (nomatch hp), fun k => absurd k hk⟩

theorem grow_roo (h : W.OK is d0) (hd : DomsOK d) (hl : d.length = d0.length) (hs : ∀ a, Within d a → Within d0 a) (hi : i ∈ is) (hx : x.Valid d0.length) (hws : ∀ w ∈ ws, Fine W.totals.length w) :
    RightOrOverflow (W.grow i x ws d) (fun r => (∀ p ∈ r, p.1.parent ∈ ws ∧ Poss d x p.1.val ∧ p.1.to = adv W.coeffs W.totals.length i p.1.parent p.1.val ∧ Fine W.totals.length p.1.to) ∧
      ∀ w ∈ ws, ∀ v, Poss d x v → W.known (i + 1) (adv W.coeffs W.totals.length i w v) = true → ∃ b, (⟨adv W.coeffs W.totals.length i w v, w, v⟩, b) ∈ r ∧
        ∀ a, Within d a → W.Sum is a → ∀ qs post, is = qs.reverse ++ post → adv W.coeffs W.totals.length i w v = spot W.coeffs W.vars W.totals.length a qs → b = false) := by
  refine (Tabulation.collect_roo (P := fun w r => (∀ p ∈ r, p.1.parent = w ∧ Poss d x p.1.val ∧ p.1.to = adv W.coeffs W.totals.length i p.1.parent p.1.val ∧ Fine W.totals.length p.1.to) ∧
      ∀ v, Poss d x v → W.known (i + 1) (adv W.coeffs W.totals.length i w v) = true → ∃ b, (⟨adv W.coeffs W.totals.length i w v, w, v⟩, b) ∈ r ∧
        ∀ a, Within d a → W.Sum is a → ∀ qs post, is = qs.reverse ++ post → adv W.coeffs W.totals.length i w v = spot W.coeffs W.vars W.totals.length a qs → b = false) ws fun w hw => ?_).mono fun r hr => ?_
  · refine (listed_roo hd (hl ▸ hx)).bind fun g hg => (Gcs.collect_roo hg).bind fun vs hvs => ?_
    refine (Tabulation.collect_roo _ fun v hv => choose_roo h hd hl hs hi (hws w hw) (hvs.1 v hv)).mono fun r hr => ⟨fun p hp => ?_, fun v hv hk => ?_⟩
    · obtain ⟨v, hv, rv, k1, k2⟩ := hr.1 p hp
      obtain ⟨e, f⟩ := k1.1 p k2
      refine ⟨by rw [e], by rw [e]; exact (hvs.2 v).1 hv, by rw [e], f⟩
    · obtain ⟨rv, k1, k2⟩ := hr.2 v ((hvs.2 v).2 hv)
      obtain ⟨b, m1, m2⟩ := k1.2 hk
      exact ⟨b, k2 _ m1, m2⟩
  · refine ⟨fun p hp => ?_, fun w hw v hv hk => ?_⟩
    · obtain ⟨w, hw, rw', k1, k2⟩ := hr.1 p hp
      obtain ⟨e1, e2⟩ := k1.1 p k2
      exact ⟨e1 ▸ hw, e2⟩
    · obtain ⟨rw', k1, k2⟩ := hr.2 w hw
      obtain ⟨b, m1, m2⟩ := k1.2 v hv hk
      exact ⟨b, k2 _ m1, m2⟩

/-- Only the values of the list are left. -/
theorem ver_pruneTo (ho : J.R .overflow) (hd : DomsOK d) (hl : d.length = J.n) (hx : x.Valid J.n) {vs : List Int} (hs : ∀ a, Within d a → J.C a → x.eval a ∈ vs) :
    (pruneTo x vs : Prog σ μ Unit).Ver J (fun _ => False) (fun _ d' => ∀ a, Within d' a ↔ Within d a ∧ x.eval a ∈ vs) d := by
  refine ver_ask (f := (eachValue · x)) ho (listed_roo hd (hl ▸ hx)) fun g hg => ?_
  have key := ver_forEach (σ := σ) (μ := μ) (J := J) (f := fun v => Prog.onlyIf (v ∉ vs) (Prog.tell (.cond (Cond.ne x v)))) (fun rest d' => (∀ v ∈ rest, InI64 v) ∧ (∀ a, Within d' a → Within d a) ∧
    (∀ v ∈ g.1, v ∉ rest → v ∉ vs → ∀ a, Within d' a → x.eval a ≠ v) ∧ (∀ a, Within d a → x.eval a ∈ vs → Within d' a))
    (fun v rest d' h1 h2 ⟨k1, k2, k3, k4⟩ => ver_onlyIf (fun hv => ver_tell_last (.ne hx (k1 v List.mem_cons_self)) (fun a ha hc => ?_) fun d'' j1 j2 j3 => ?_) fun hv => ?_) g.1 d hd hl
    ⟨fun v hv => (hg.1 v hv).1, fun _ h => h, fun v h1 h2 => absurd h1 h2, fun _ h _ => h⟩
  · have post : ∀ d', g.2 = none → (∀ a, Within d' a → Within d a) → (∀ v ∈ g.1, v ∉ ([] : List Int) → v ∉ vs → ∀ a, Within d' a → x.eval a ≠ v) → (∀ a, Within d a → x.eval a ∈ vs → Within d' a) →
        ∀ a, Within d' a ↔ Within d a ∧ x.eval a ∈ vs := fun d' e k2 k3 k4 a =>
      ⟨fun ha => ⟨k2 a ha, Classical.byContradiction fun hn => k3 _ (hg.2.1 e _ ⟨a, k2 a ha, rfl⟩) (by simp) hn a ha rfl⟩, fun h => k4 a h.1 h.2⟩
    unfold Prog.forGen
    refine ver_bind (fun _ h => h.elim) _ d hd hl (ver_mono (fun _ d' hq _ _ _ => ?_) _ _ key)
    cases e : g.2 with
    | none => exact post d' e hq.2.1 hq.2.2.1 hq.2.2.2
    | some e' => rw [hg.2.2 e' e]; exact ho
  · rw [Lit.holds_ne]
    exact fun e => hv (e ▸ hs a (k2 a ha) hc)
  · refine ⟨fun w hw => k1 w (List.mem_cons_of_mem _ hw), fun a ha => k2 a ((j3 a).1 ha).1, fun w m1 m2 m3 a ha => ?_, fun a ha hm => (j3 a).2 ⟨k4 a ha hm, ?_⟩⟩
    · by_cases e : w = v
      · subst e
        have := ((j3 a).1 ha).2
        rwa [Lit.holds_ne] at this
      · exact k3 w m1 (by simp [e, m2]) m3 a ((j3 a).1 ha).1
    · rw [Lit.holds_ne]; exact fun e => hv (e ▸ hm)
  · refine ⟨fun w hw => k1 w (List.mem_cons_of_mem _ hw), k2, fun w m1 m2 m3 a ha => ?_, k4⟩
    by_cases e : w = v
    · subst e; exact absurd m3 (fun h => hv h)
    · exact k3 w m1 (by simp [e, m2]) m3 a ha

theorem mem_nodes {es : List Edge} {w : Sums} : w ∈ nodes es ↔ ∃ e ∈ es, e.to = w := by simp [nodes, List.mem_eraseDups]

theorem ver_layerRest (ho : J.R .overflow) (h : W.OK is d0) (hJ : ∀ a, Within d0 a → J.C a → W.Sum is a) (hn : J.n = d0.length) (hd : DomsOK d) (hl : d.length = J.n) (hs : ∀ a, Within d a → Within d0 a) {qs post : List Nat} (hq : is = qs.reverse ++ i :: post)
    (hv : x.Valid d0.length) (hev : ∀ a, x.eval a = vl W.vars a i) {r : List (Edge × Bool)} (fine : ∀ p ∈ r, Fine W.totals.length p.1.to)
    (edge : ∀ a, Within d a → J.C a → (⟨spot W.coeffs W.vars W.totals.length a (i :: qs), spot W.coeffs W.vars W.totals.length a qs, vl W.vars a i⟩, false) ∈ r) :
    ((Prog.ask fun d => Disjunctive2D.keep (fun e => do return !(← W.tooLarge d e.to)) (r.map (·.1))).bind fun es => (pruneTo x ((r.filter fun p => !p.2).map (·.1.val))).bind fun _ => Prog.ret es : Prog σ μ (List Edge)).Ver J (fun _ => False)
      (fun (es : List Edge) _ => (∀ e ∈ es, ∃ p ∈ r, p.1 = e) ∧
      ∀ a, Within d a → J.C a → ⟨spot W.coeffs W.vars W.totals.length a (i :: qs), spot W.coeffs W.vars W.totals.length a qs, vl W.vars a i⟩ ∈ es) d := by
  have hl' : d.length = d0.length := hl.trans hn
  refine ver_ask (P := fun es => (∀ e ∈ es, e ∈ r.map (·.1)) ∧ ∀ e ∈ r.map (·.1), (∃ a, Within d a ∧ J.C a ∧ e.to = spot W.coeffs W.vars W.totals.length a (i :: qs)) → e ∈ es) ho (keep_sub _ fun e he => ?_) fun es hes => ?_
  · obtain ⟨p, hp, rfl⟩ := List.mem_map.1 he
    refine (h.tooLarge hd hl' hs (fine p hp)).bind fun b hb => .pure fun ⟨a, ha, hc, e⟩ => ?_
    rw [hb a ha (hJ a (hs a ha) hc) (i :: qs) post (by rw [hq]; simp) e]; rfl
  · refine ver_seq (S := fun _ => False) hd hl (fun _ h => h) (ver_pruneTo ho hd hl (hn ▸ hv) fun a ha hc => ?_) fun _ d' k1 k2 k3 k4 => ?_
    · rw [hev]
      exact List.mem_map.2 ⟨_, List.mem_filter.2 ⟨edge a ha hc, rfl⟩, rfl⟩
    · exact ⟨fun e he => List.mem_map.1 (hes.1 e he), fun a ha hc => hes.2 _ (List.mem_map.2 ⟨_, edge a ha hc, rfl⟩) ⟨a, ha, hc, rfl⟩⟩

/-- One layer. -/
theorem ver_layer (ho : J.R .overflow) (h : W.OK is d0) (hJ : ∀ a, Within d0 a → J.C a → W.Sum is a) (hn : J.n = d0.length) (hd : DomsOK d) (hl : d.length = J.n) (hs : ∀ a, Within d a → Within d0 a) {qs post : List Nat} (hq : is = qs.reverse ++ i :: post)
    (hx : W.vars[i]? = some x) (hws : ∀ w ∈ ws, Fine W.totals.length w) (hin : ∀ a, Within d a → J.C a → spot W.coeffs W.vars W.totals.length a qs ∈ ws) :
    (W.layer i ws : Prog σ μ (List Edge)).Ver J (fun _ => False) (fun (es : List Edge) _ => (∀ e ∈ es, e.parent ∈ ws ∧ Poss d x e.val ∧ e.to = adv W.coeffs W.totals.length i e.parent e.val ∧ Fine W.totals.length e.to) ∧
      ∀ a, Within d a → J.C a → ⟨spot W.coeffs W.vars W.totals.length a (i :: qs), spot W.coeffs W.vars W.totals.length a qs, vl W.vars a i⟩ ∈ es) d := by
  have hl' : d.length = d0.length := hl.trans hn
  have hi : i ∈ is := by rw [hq]; simp
  obtain ⟨x', e1, hm, hv, hev⟩ := h.var hi
  rw [hx] at e1; cases e1
  unfold Way.layer
  refine ver_lift (P := fun y => y = x) ho (.inr ⟨x, vecAt_ok.2 hx, rfl⟩) fun y hy => ?_
  rw [hy]
  refine ver_ask (f := W.grow i x ws) ho (grow_roo h hd hl' hs hi hv hws) fun r hr => ?_
  have edge : ∀ a, Within d a → J.C a → (⟨spot W.coeffs W.vars W.totals.length a (i :: qs), spot W.coeffs W.vars W.totals.length a qs, vl W.vars a i⟩, false) ∈ r := fun a ha hc => by
    have hk := h.known a (hs a ha) qs.reverse i post hq
    rw [List.reverse_reverse] at hk
    obtain ⟨b, m1, m2⟩ := hr.2 _ (hin a ha hc) (vl W.vars a i) ⟨a, ha, hev a⟩ (by rw [adv_spot]; exact hk)
    rw [adv_spot] at m1 m2
    rw [m2 a ha (hJ a (hs a ha) hc) (i :: qs) post (by rw [hq]; simp) rfl] at m1
    exact m1
  have key := ver_layerRest (σ := σ) (μ := μ) ho h hJ hn hd hl hs hq hv hev (fun p hp => (hr.1 p hp).2.2.2) edge
  exact ver_mono (fun es _ k => ⟨fun e he => by obtain ⟨p, hp, rfl⟩ := k.1 e he; exact hr.1 p hp, k.2⟩) _ _ key

/-- All of the variables have one value each. -/
def Way.Fixed (W : Way) (is : List Nat) (d0 : Doms) : Prop := ∀ i ∈ is, ∀ a b, Within d0 a → Within d0 b → vl W.vars a i = vl W.vars b i

/-- What holds between layers. -/
structure Way.Inv (W : Way) (is : List Nat) (d0 : Doms) (C : Asg → Prop) (ws : List Sums) (done : List (List Edge × Nat)) (d : Doms) : Prop where
  fine : ∀ w ∈ ws, Fine W.totals.length w
  path : ∀ a, Within d a → C a → W.Path a done ∧ spot W.coeffs W.vars W.totals.length a (done.map (·.2)) ∈ ws
  one : W.Fixed is d0 → ∀ a, Within d a → ∀ w ∈ ws, w = spot W.coeffs W.vars W.totals.length a (done.map (·.2))

theorem Way.Inv.mono {C : Asg → Prop} {done : List (List Edge × Nat)} {d' : Doms} (h : W.Inv is d0 C ws done d) (hs : ∀ a, Within d' a → Within d a) : W.Inv is d0 C ws done d' :=
  ⟨h.fine, fun a ha => h.path a (hs a ha), fun hf a ha => h.one hf a (hs a ha)⟩

theorem ver_forward (ho : J.R .overflow) (h : W.OK is d0) (hJ : ∀ a, Within d0 a → J.C a → W.Sum is a) (hn : J.n = d0.length) :
    ∀ (post : List Nat) (ws : List Sums) (done : List (List Edge × Nat)) (d : Doms), DomsOK d → d.length = J.n → (∀ a, Within d a → Within d0 a) → is = (done.map (·.2)).reverse ++ post → W.Inv is d0 J.C ws done d →
    (W.forward post ws done : Prog σ μ _).Ver J (fun _ => False) (fun (r : List Sums × List (List Edge × Nat)) d' => is = (r.2.map (·.2)).reverse ∧ W.Inv is d0 J.C r.1 r.2 d') d
  | [], ws, done, d, _, _, _, hq, hi => ⟨by simpa using hq, hi⟩
  | i :: post, ws, done, d, hd, hl, hs, hq, hi => by
    have him : i ∈ is := by rw [hq]; simp
    obtain ⟨x, hx, _, _, hev⟩ := h.var him
    refine ver_seq (S := fun _ => False) hd hl (fun _ h => h) (ver_layer ho h hJ hn hd hl hs hq hx hi.fine fun a ha hc => (hi.path a ha hc).2) fun es d' k1 k2 k3 k4 => ?_
    refine ver_forward ho h hJ hn post (nodes es) ((es, i) :: done) d' k1 k2 (fun a ha => hs a (k3 a ha)) (by rw [hq]; simp) ⟨fun w hw => ?_, fun a ha hc => ?_, fun hf a ha w hw => ?_⟩
    · obtain ⟨e, he, rfl⟩ := mem_nodes.1 hw
      exact (k4.1 e he).2.2.2
    · have ha' := k3 a ha
      exact ⟨⟨k4.2 a ha' hc, (hi.path a ha' hc).1⟩, mem_nodes.2 ⟨_, k4.2 a ha' hc, rfl⟩⟩
    · obtain ⟨e, he, rfl⟩ := mem_nodes.1 hw
      obtain ⟨m1, ⟨b, hb, m2⟩, m3, _⟩ := k4.1 e he
      have ha' := k3 a ha
      rw [m3, hi.one hf a ha' _ m1, ← m2, hev, hf i him b a (hs b hb) (hs a ha'), adv_spot]
      rfl

theorem foldl_min {c : Int} : ∀ {cs : List Int}, cs.foldl min c ∈ c :: cs ∧ ∀ y ∈ c :: cs, cs.foldl min c ≤ y := by
  intro cs
  induction cs generalizing c with
  | nil => simp
  | cons b cs ih =>
    obtain ⟨h1, h2⟩ := ih (c := min c b)
    rw [List.foldl_cons]
    refine ⟨?_, fun y hy => ?_⟩
    · rcases List.mem_cons.1 h1 with h | h
      · rw [h]; by_cases hb : c ≤ b
        · rw [Int.min_eq_left hb]; simp
        · rw [Int.min_eq_right (by omega)]; simp
      · simp [h]
    · have := h2 _ List.mem_cons_self
      rcases List.mem_cons.1 hy with rfl | hy
      · omega
      · rcases List.mem_cons.1 hy with rfl | hy
        · omega
        · exact h2 y (List.mem_cons_of_mem _ hy)

theorem foldl_max {c : Int} : ∀ {cs : List Int}, cs.foldl max c ∈ c :: cs ∧ ∀ y ∈ c :: cs, y ≤ cs.foldl max c := by
  intro cs
  induction cs generalizing c with
  | nil => simp
  | cons b cs ih =>
    obtain ⟨h1, h2⟩ := ih (c := max c b)
    rw [List.foldl_cons]
    refine ⟨?_, fun y hy => ?_⟩
    · rcases List.mem_cons.1 h1 with h | h
      · rw [h]; by_cases hb : c ≤ b
        · rw [Int.max_eq_right hb]; simp
        · rw [Int.max_eq_left (by omega)]; simp
      · simp [h]
    · have := h2 _ List.mem_cons_self
      rcases List.mem_cons.1 hy with rfl | hy
      · omega
      · rcases List.mem_cons.1 hy with rfl | hy
        · omega
        · exact h2 y (List.mem_cons_of_mem _ hy)

/-- What is inferred about a total is that it is one of the sums. -/
theorem aboutTotal_roo (h : W.OK is d0) (hd : DomsOK d) (hl : d.length = d0.length) (hws : ∀ w ∈ ws, Fine W.totals.length w) (hne : ws ≠ []) {t : Nat} (ht : t < W.totals.length) :
    RightOrOverflow (W.aboutTotal ws d t) (fun ls => (∀ l ∈ ls, l.Valid d0.length) ∧ ∀ a, Within d a → ((∀ l ∈ ls, l.holds a) ↔ ∃ w ∈ ws, vl W.totals a t = W.committed.getD t 0 + w.getD t 0)) := by
  obtain ⟨v, e, hv, hev⟩ := h.total ht
  unfold Way.aboutTotal
  rw [e, chk_ok_bind]
  refine (AllDifferent.mapAll_roo (P := fun w c => c = W.committed.getD t 0 + w.getD t 0 ∧ InI64 c) ws fun w hw => h.whole ht (hws w hw)).bind fun cs hcs => ?_
  have c1 : ∀ y ∈ cs, InI64 y ∧ ∃ w ∈ ws, y = W.committed.getD t 0 + w.getD t 0 := fun y hy => by
    obtain ⟨j, hj⟩ := List.getElem?_of_mem hy
    have hlt := (List.getElem?_eq_some_iff.1 hj).1
    have := hcs.2 j _ y (List.getElem?_eq_getElem (by omega)) hj
    exact ⟨this.2, _, List.getElem_mem _, this.1⟩
  have c2 : ∀ w ∈ ws, W.committed.getD t 0 + w.getD t 0 ∈ cs := fun w hw => by
    obtain ⟨j, hj⟩ := List.getElem?_of_mem hw
    have hlt := (List.getElem?_eq_some_iff.1 hj).1
    have hlt' : j < cs.length := by omega
    have := hcs.2 j w cs[j] hj (List.getElem?_eq_getElem hlt')
    rw [← this.1]
    exact List.getElem_mem hlt'
  cases cs with
  | nil => exact absurd (List.eq_nil_of_length_eq_zero (by simpa using hcs.1.symm)) hne
  | cons c cs =>
    obtain ⟨f1, f2⟩ := foldl_min (c := c) (cs := cs)
    obtain ⟨g1, g2⟩ := foldl_max (c := c) (cs := cs)
    refine (add_roo (c1 _ g1).1 (by decide)).bind fun hi hhi => (listed_roo hd (hl ▸ hv)).bind fun g hg => (Gcs.collect_roo hg).bind fun vs hvs => .pure ⟨fun l hm => ?_, fun a ha => ?_⟩
    · rcases List.mem_cons.1 hm with rfl | hm
      · exact .ge hv (c1 _ f1).1
      · rcases List.mem_cons.1 hm with rfl | hm
        · exact .lt hv hhi.2
        · obtain ⟨y, hy, rfl⟩ := List.mem_map.1 hm
          exact .ne hv (hvs.1 y (List.mem_filter.1 hy).1)
    · rw [← hev]
      constructor
      · intro hh
        have h1 := hh _ List.mem_cons_self
        have h2 := hh _ (List.mem_cons_of_mem _ List.mem_cons_self)
        rw [Lit.holds_ge] at h1
        rw [Lit.holds_lt] at h2
        refine Classical.byContradiction fun hn => ?_
        have h3 : v.eval a ∉ c :: cs := fun hm => hn (c1 _ hm).2
        have h4 := hh (.cond (Cond.ne v (v.eval a))) (List.mem_cons_of_mem _ (List.mem_cons_of_mem _ (List.mem_map.2 ⟨v.eval a, List.mem_filter.2 ⟨(hvs.2 _).2 ⟨a, ha, rfl⟩, decide_eq_true ⟨h1, h2, h3⟩⟩, rfl⟩)))
        rw [Lit.holds_ne] at h4
        exact h4 rfl
      · rintro ⟨w, hw, ew⟩ l hm
        have hmem := c2 w hw
        rw [← ew] at hmem
        rcases List.mem_cons.1 hm with rfl | hm
        · rw [Lit.holds_ge]; exact f2 _ hmem
        · rcases List.mem_cons.1 hm with rfl | hm
          · rw [Lit.holds_lt, hhi.1]; have := g2 _ hmem; omega
          · obtain ⟨y, hy, rfl⟩ := List.mem_map.1 hm
            rw [Lit.holds_ne]
            rintro rfl
            exact (of_decide_eq_true (List.mem_filter.1 hy).2).2.2 hmem

theorem ver_backward (ho : J.R .overflow) (h : W.OK is d0) (hn : J.n = d0.length) : ∀ (layers : List (List Edge × Nat)) (ws : List Sums) (d : Doms), DomsOK d → d.length = J.n → (∀ p ∈ layers, p.2 ∈ is) →
    (∀ a, Within d a → J.C a → W.Path a layers ∧ spot W.coeffs W.vars W.totals.length a (layers.map (·.2)) ∈ ws) → (W.backward ws layers : Prog σ μ Unit).Ver J (fun _ => False) (fun _ _ => True) d
  | [], _, _, _, _, _, _ => trivial
  | (es, i) :: rest, ws, d, hd, hl, hi, hp => by
    obtain ⟨x, hx, _, hv, hev⟩ := h.var (hi _ List.mem_cons_self)
    unfold Way.backward
    refine ver_lift (P := fun y => y = x) ho (.inr ⟨x, vecAt_ok.2 hx, rfl⟩) fun y hy => ?_
    subst hy
    have edge : ∀ a, Within d a → J.C a → ⟨spot W.coeffs W.vars W.totals.length a (i :: rest.map (·.2)), spot W.coeffs W.vars W.totals.length a (rest.map (·.2)), vl W.vars a i⟩ ∈ es.filter fun e => decide (e.to ∈ ws) := fun a ha hc => by
      obtain ⟨⟨k1, _⟩, k2⟩ := hp a ha hc
      exact List.mem_filter.2 ⟨k1, decide_eq_true k2⟩
    refine ver_seq (S := fun _ => False) hd hl (fun _ h => h) (ver_pruneTo ho hd hl (hn ▸ hv) fun a ha hc => ?_) fun _ d' k1 k2 k3 _ => ?_
    · rw [hev]
      exact List.mem_map.2 ⟨_, edge a ha hc, rfl⟩
    · exact ver_backward ho h hn rest _ d' k1 k2 (fun p hp => hi p (List.mem_cons_of_mem _ hp)) fun a ha hc => ⟨(hp a (k3 a ha) hc).1.2, List.mem_map.2 ⟨_, edge a (k3 a ha) hc, rfl⟩⟩

theorem ver_finish (ho : J.R .overflow) (h : W.OK is d0) (hJ : ∀ a, Within d0 a → J.C a → W.Sum is a) (hn : J.n = d0.length) {done : List (List Edge × Nat)} (hd : DomsOK d) (hl : d.length = J.n) (hs : ∀ a, Within d a → Within d0 a)
    (hq : is = (done.map (·.2)).reverse) (hi : W.Inv is d0 J.C ws done d) :
    (W.finish ws done : Prog σ μ Unit).Ver J (fun _ => False) (fun _ d' => W.Fixed is d0 → ∀ a, Within d' a → W.Sum is a) d := by
  have hl' : d.length = d0.length := hl.trans hn
  have hr : is.reverse = done.map (·.2) := by rw [hq, List.reverse_reverse]
  unfold Way.finish
  refine ver_ask (f := fun d => Disjunctive2D.keep (fun w => do return !(← W.tooSmall d w)) ws) ho (keep_sub (T := fun w => ∃ a, Within d a ∧ J.C a ∧ w = spot W.coeffs W.vars W.totals.length a (done.map (·.2))) ws fun w hw => ?_) fun ws1 h1 => ?_
  · refine (h.tooSmall hd hl' hs (hi.fine w hw)).bind fun b hb => .pure fun ⟨a, ha, hc, e⟩ => ?_
    rw [hb a ha (hJ a (hs a ha) hc) (by rw [hr]; exact e)]; rfl
  refine ver_ask (f := fun d => Disjunctive2D.keep (fun w => do return !(← W.missing d w)) ws1) ho (keep_sub (T := fun w => ∃ a, Within d a ∧ J.C a ∧ w = spot W.coeffs W.vars W.totals.length a (done.map (·.2))) ws1 fun w hw => ?_) fun ws2 h2 => ?_
  · refine (h.missing hd hl' (hi.fine w (h1.1 w hw))).bind fun b hb => .pure fun ⟨a, ha, hc, e⟩ => ?_
    cases b with
    | false => rfl
    | true =>
      obtain ⟨x, hx, k⟩ := hb.1 rfl
      refine absurd ⟨a, ha, ?_⟩ k
      rw [hJ a (hs a ha) hc x hx, e, spot_getD hx, ← hr, part_perm (List.reverse_perm is)]
  have fine : ∀ w ∈ ws2, Fine W.totals.length w := fun w hw => hi.fine w (h1.1 w (h2.1 w hw))
  have keeps : ∀ a, Within d a → J.C a → spot W.coeffs W.vars W.totals.length a (done.map (·.2)) ∈ ws2 := fun a ha hc => h2.2 _ (h1.2 _ (hi.path a ha hc).2 ⟨a, ha, hc, rfl⟩) ⟨a, ha, hc, rfl⟩
  split
  · rename_i he
    intro a ha hc
    have := keeps a ha hc
    rw [he] at this
    cases this
  · rename_i he
    refine ver_ask (f := fun d => Tabulation.collect (W.aboutTotal ws2 d) (List.range W.totals.length)) ho (Tabulation.collect_roo _ fun x hx => aboutTotal_roo h hd hl' fine he (List.mem_range.1 hx)) fun ls hls => ?_
    refine ver_seq (S := fun _ => False) hd hl (fun _ h => h) (ver_tells (lit := id) hd hl ls (fun l hm => ?_) fun l hm a ha hc => ?_) fun _ d' k1 k2 k3 k4 => ?_
    · obtain ⟨x, hx, rx, hp, hm⟩ := hls.1 l hm
      exact hn ▸ hp.1 l hm
    · obtain ⟨x, hx, rx, hp, hm⟩ := hls.1 l hm
      have hx := List.mem_range.1 hx
      refine (hp.2 a ha).2 ⟨_, keeps a ha hc, ?_⟩ l hm
      rw [hJ a (hs a ha) hc x hx, spot_getD hx, ← hr, part_perm (List.reverse_perm is)]
    · refine ver_mono (fun _ d'' hq' hf a ha x hx => ?_) _ _ (ver_facts _ _ k1 k2 (ver_backward ho h hn done ws2 d' k1 k2 (fun p hp => ?_) fun a ha hc => ⟨(hi.path a (k3 a ha) hc).1, keeps a (k3 a ha) hc⟩))
      · have ha' := hq'.1.2.2 a ha
        obtain ⟨had, hh⟩ := (k4 a).1 ha'
        obtain ⟨rx, hp, hm⟩ := hls.2 x (List.mem_range.2 hx)
        obtain ⟨w, hw, e⟩ := (hp.2 a had).1 fun l hl => hh l (hm l hl)
        rw [e, hi.one hf a had w (h1.1 w (h2.1 w hw)), spot_getD hx, ← hr, part_perm (List.reverse_perm is)]
      · rw [hq, List.mem_reverse]
        exact List.mem_map.2 ⟨p, hp, rfl⟩

/-- The whole of it. -/
theorem ver_gac (ho : J.R .overflow) (h : W.OK is d) (hJ : ∀ a, Within d a → J.C a → W.Sum is a) (hn : J.n = d.length) (hd : DomsOK d) :
    (W.gac is : Prog σ μ Unit).Ver J (fun _ => False) (fun _ d' => W.Fixed is d → ∀ a, Within d' a → W.Sum is a) d := by
  unfold Way.gac
  refine ver_seq (S := fun _ => False) hd hn.symm (fun _ h => h) (ver_forward ho h hJ hn is _ [] d hd hn.symm (fun _ h => h) (by simp) ⟨fun w hw => ?_, fun a ha hc => ⟨trivial, ?_⟩, fun _ a ha w hw => ?_⟩) fun r d' k1 k2 k3 k4 => ?_
  · rw [List.mem_singleton.1 hw]; exact fine_zero
  · rw [List.map_nil, spot_nil]; simp
  · rw [List.mem_singleton.1 hw, List.map_nil, spot_nil]
  · exact ver_finish ho h hJ hn k1 k2 k3 k4.1 k4.2

end
end Gcs.Knapsack
