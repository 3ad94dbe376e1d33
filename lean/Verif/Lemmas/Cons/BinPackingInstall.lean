import Verif.Lemmas.Cons.BinPackingSweep
import Verif.Lemmas.Rooted

namespace Gcs.BinPacking
open IntervalSet

/-- Layers in reverse that an assignment goes through, to get to a node. -/
def Trail (b : Int) (a : Asg) : List (List Edge × VarId × Bool) → Int → Prop
  | [], _ => True
  | (es, x, _) :: rest, w => ∃ p, (⟨w, p, decide (x.eval a = b)⟩ : Edge) ∈ es ∧ Trail b a rest p

section
variable {σ μ : Type} {d root : Doms} {b u : Int} {a : Asg} {ps : List (VarId × Int)}

theorem mem_edges {nodes ws : List Int} {f : Bool × Bool} {s : Int} {e : Edge} : e ∈ edges nodes u f s ws ↔ e.to ≤ u ∧ e.to ∈ nodes ∧ e.parent ∈ ws ∧ ((f.2 = true ∧ e.to = e.parent ∧ e.inside = false) ∨ (f.1 = true ∧ e.to = e.parent + s ∧ e.inside = true)) := by
  obtain ⟨t, p, i⟩ := e
  unfold edges
  rw [List.mem_filter, List.mem_flatMap, decide_eq_true_eq]
  constructor
  · rintro ⟨⟨w, hw, h⟩, hu⟩
    refine ⟨hu, ?_⟩
    rcases List.mem_append.1 h with h | h
    · split at h
      · rename_i hc
        cases List.mem_singleton.1 h
        exact ⟨hc.2, hw, .inl ⟨hc.1, rfl, rfl⟩⟩
      · cases h
    · split at h
      · rename_i hc
        cases List.mem_singleton.1 h
        exact ⟨hc.2, hw, .inr ⟨hc.1, rfl, rfl⟩⟩
      · cases h
  · rintro ⟨hu, hn, hp, h⟩
    refine ⟨⟨p, hp, ?_⟩, hu⟩
    rcases h with ⟨h1, h2, h3⟩ | ⟨h1, h2, h3⟩
    · have h2 : t = p := h2
      have h3 : i = false := h3
      subst h2 h3
      exact List.mem_append_left _ (by rw [if_pos ⟨h1, hn⟩]; exact List.mem_singleton.2 rfl)
    · have h2 : t = p + s := h2
      have h3 : i = true := h3
      subst h2 h3
      exact List.mem_append_right _ (by rw [if_pos ⟨h1, hn⟩]; exact List.mem_singleton.2 rfl)

theorem walk_ok : ∀ (qs : List (VarId × (Bool × Bool) × Int)) (ls : List (List Int)) (layer ws : List Int) (done : List (List Edge × VarId × Bool)) (w : Int), Closed layer ls (qs.map (·.2)) → (∀ v ∈ ws, v ∈ layer) → w ∈ ws →
    (∀ q ∈ qs, 0 ≤ q.2.2 ∧ (q.1.eval a = b → q.2.1.1 = true) ∧ (q.1.eval a ≠ b → q.2.1.2 = true)) → w + put b a (qs.map fun q => (q.1, q.2.2)) ≤ u → Trail b a done w →
    w + put b a (qs.map fun q => (q.1, q.2.2)) ∈ (walk u ls qs ws done).1 ∧ Trail b a (walk u ls qs ws done).2 (w + put b a (qs.map fun q => (q.1, q.2.2)))
  | [], ls, layer, ws, done, w, _, _, hw, _, _, ht => by
    have e : walk u ls [] ws done = (ws, done) := by cases ls <;> rfl
    rw [e]
    simp only [List.map_nil, put, Int.add_zero]
    exact ⟨hw, ht⟩
  | q :: qs, [], layer, ws, done, w, hc, _, _, _, _, _ => hc.elim
  | (x, f, s) :: qs, nodes :: ls, layer, ws, done, w, hc, hs, hw, hq, hu, ht => by
    have hq1 := hq (x, f, s) List.mem_cons_self
    have hq' : ∀ q ∈ qs, 0 ≤ q.2.2 ∧ (q.1.eval a = b → q.2.1.1 = true) ∧ (q.1.eval a ≠ b → q.2.1.2 = true) := fun q h => hq q (List.mem_cons_of_mem _ h)
    have h0 : 0 ≤ put b a (qs.map fun q => (q.1, q.2.2)) := put_nonneg fun p hp => by
      obtain ⟨q, hm, rfl⟩ := List.mem_map.1 hp
      exact (hq' q hm).1
    have hcl := hc.1 w (hs w hw)
    have e : w + put b a (((x, f, s) :: qs).map fun q => (q.1, q.2.2)) = (w + if x.eval a = b then s else 0) + put b a (qs.map fun q => (q.1, q.2.2)) := by
      rw [List.map_cons, put, Int.add_assoc]
    rw [e] at hu ⊢
    have hedge : (⟨w + if x.eval a = b then s else 0, w, decide (x.eval a = b)⟩ : Edge) ∈ edges nodes u f s ws := by
      refine mem_edges.2 ?_
      by_cases ex : x.eval a = b
      · rw [if_pos ex] at hu ⊢
        have hf := hq1.2.1 ex
        exact ⟨by show w + s ≤ u; omega, hcl.2 hf, hw, .inr ⟨hf, rfl, decide_eq_true ex⟩⟩
      · rw [if_neg ex, Int.add_zero] at hu ⊢
        have hf := hq1.2.2 ex
        exact ⟨by show w ≤ u; omega, hcl.1 hf, hw, .inl ⟨hf, rfl, decide_eq_false ex⟩⟩
    refine walk_ok qs ls nodes ((edges nodes u f s ws).map (·.to)).eraseDups ((edges nodes u f s ws, x, f.1) :: done) _ hc.2 (fun v hv => ?_) ?_ hq' hu ⟨w, hedge, ht⟩
    · obtain ⟨e', he, rfl⟩ := List.mem_map.1 (List.mem_eraseDups.1 hv)
      exact (mem_edges.1 he).2.1
    · exact List.mem_eraseDups.2 (List.mem_map.2 ⟨_, hedge, rfl⟩)

theorem walk_facts : ∀ (qs : List (VarId × (Bool × Bool) × Int)) (ls : List (List Int)) (ws : List Int) (done : List (List Edge × VarId × Bool)), (∀ l ∈ ls, ∀ w ∈ l, InI64 w) → (∀ w ∈ ws, InI64 w) →
    (∀ w ∈ (walk u ls qs ws done).1, InI64 w) ∧ ∀ e ∈ (walk u ls qs ws done).2, e ∈ done ∨ e.2.1 ∈ qs.map (·.1)
  | [], ls, ws, done, _, hw => by
    have e : walk u ls [] ws done = (ws, done) := by cases ls <;> rfl
    rw [e]; exact ⟨hw, fun e h => .inl h⟩
  | q :: qs, [], ws, done, _, hw => ⟨hw, fun e h => .inl h⟩
  | (x, f, s) :: qs, nodes :: ls, ws, done, hl, hw => by
    have ih := walk_facts qs ls ((edges nodes u f s ws).map (·.to)).eraseDups ((edges nodes u f s ws, x, f.1) :: done) (fun l h => hl l (List.mem_cons_of_mem _ h)) fun w hw => by
      obtain ⟨e', he, rfl⟩ := List.mem_map.1 (List.mem_eraseDups.1 hw)
      exact hl nodes List.mem_cons_self _ (mem_edges.1 he).2.1
    refine ⟨ih.1, fun e h => ?_⟩
    rcases ih.2 e h with h | h
    · rcases List.mem_cons.1 h with rfl | h
      · exact .inr List.mem_cons_self
      · exact .inl h
    · exact .inr (List.mem_cons_of_mem _ h)

theorem back_ok {x : VarId} : ∀ (done : List (List Edge × VarId × Bool)) (ws : List Int) (w : Int), w ∈ ws → Trail b a done w → x ∈ back done ws → x.eval a ≠ b
  | [], _, _, _, _, h => (nomatch h)
  | (es, y, c) :: rest, ws, w, hw, ⟨p, he, ht⟩, h => by
    have left : (⟨w, p, decide (y.eval a = b)⟩ : Edge) ∈ es.filter fun e => decide (e.to ∈ ws) := List.mem_filter.2 ⟨he, decide_eq_true hw⟩
    unfold back at h
    rcases List.mem_append.1 h with h | h
    · split at h
      · rename_i hc
        rw [List.mem_singleton.1 h]
        exact of_decide_eq_false (hc.2 _ left)
      · cases h
    · exact back_ok rest _ p (List.mem_map.2 ⟨_, left, rfl⟩) ht h

theorem back_mem {x : VarId} : ∀ {done : List (List Edge × VarId × Bool)} {ws : List Int}, x ∈ back done ws → ∃ e ∈ done, e.2.1 = x
  | [], _, h => (nomatch h)
  | (es, y, c) :: rest, ws, h => by
    unfold back at h
    rcases List.mem_append.1 h with h | h
    · split at h
      · exact ⟨_, List.mem_cons_self, (List.mem_singleton.1 h).symm⟩
      · cases h
    · obtain ⟨e, he, k⟩ := back_mem h
      exact ⟨e, List.mem_cons_of_mem _ he, k⟩

theorem closed_fewer : ∀ (sizes : List Int) (fs gs : List (Bool × Bool)) (ws : List Int) (ls : List (List Int)), fs.length = gs.length → (∀ (i : Nat) f g, fs[i]? = some f → gs[i]? = some g → Fewer f g) → Closed ws ls (gs.zip sizes) → Closed ws ls (fs.zip sizes)
  | [], fs, gs, ws, ls, _, _, h => by rw [List.zip_nil_right] at h ⊢; exact h
  | s :: ss, [], [], ws, ls, _, _, h => h
  | s :: ss, [], _ :: _, _, _, h, _, _ => by simp at h
  | s :: ss, _ :: _, [], _, _, h, _, _ => by simp at h
  | s :: ss, f :: fs, g :: gs, ws, [], _, _, h => h.elim
  | s :: ss, f :: fs, g :: gs, ws, next :: ls, hl, hf, h => by
    have hfg := hf 0 f g rfl rfl
    exact ⟨fun w hw => ⟨fun e => (h.1 w hw).1 (hfg.2 e), fun e => (h.1 w hw).2 (hfg.1 e)⟩, closed_fewer ss fs gs next ls (by simpa using hl) (fun i f g h1 h2 => hf (i + 1) f g h1 h2) h.2⟩

/-- A graph that was made of the domains at the time of posting. -/
def Graph (root : Doms) (b : Int) (ps : List (VarId × Int)) (layers : List (List Int)) : Prop :=
  ∃ (gs : List (Bool × Bool)) (ls : List (List Int)), layers = [0] :: ls ∧ gs.length = ps.length ∧ (∀ (i : Nat) p g, ps[i]? = some p → gs[i]? = some g → Flagged root b p.1 g) ∧ Closed [0] ls (gs.zip (ps.map (·.2))) ∧ ∀ l ∈ ls, ∀ w ∈ l, InI64 w

/-- What is said about a load holds. -/
theorem aboutLoad_roo {q : Cap} {ws : List Int} (hd : DomsOK d) (hq : ∀ t, q = .inl t → t.Valid d.length) (hne : ws ≠ []) (hw : ∀ w ∈ ws, InI64 w) :
    RightOrOverflow (aboutLoad d q ws) (fun ls => ∀ l ∈ ls, l.Valid d.length ∧ ∀ a, (∀ t, q = .inl t → t.eval a ∈ ws) → l.holds a) := by
  cases q with
  | inr c => exact .inr ⟨[], rfl, fun _ h => (nomatch h)⟩
  | inl t =>
    have ht := hq t rfl
    cases ws with
    | nil => exact absurd rfl hne
    | cons w ws =>
      have hmin := Knapsack.foldl_min (c := w) (cs := ws)
      have hmax := Knapsack.foldl_max (c := w) (cs := ws)
      unfold aboutLoad
      refine (add_roo (hw _ hmax.1) (by decide)).bind fun hi hhi => (listed_roo hd ht).bind fun g hg => (Gcs.collect_roo hg).bind fun vs hvs => .pure fun l hl => ?_
      rcases List.mem_cons.1 hl with rfl | hl
      · exact ⟨.ge ht (hw _ hmin.1), fun a ha => by rw [Lit.holds_ge]; exact hmin.2 _ (ha t rfl)⟩
      rcases List.mem_cons.1 hl with rfl | hl
      · exact ⟨.lt ht hhi.2, fun a ha => by rw [Lit.holds_lt]; have := hmax.2 _ (ha t rfl); omega⟩
      · obtain ⟨v, hv, rfl⟩ := List.mem_map.1 hl
        obtain ⟨h1, h2⟩ := List.mem_filter.1 hv
        refine ⟨.ne ht (hvs.1 v h1), fun a ha => ?_⟩
        rw [Lit.holds_ne]
        exact fun e => (of_decide_eq_true h2).2.2 (e ▸ ha t rfl)

theorem possible_roo {q : Cap} {ws : List Int} (hd : DomsOK d) (hq : ∀ t, q = .inl t → t.Valid d.length) (hw : ∀ w ∈ ws, InI64 w) :
    RightOrOverflow (possible d q ws) (fun r => (∀ w ∈ r, w ∈ ws) ∧ ∀ a, Within d a → ∀ w ∈ ws, (∀ t, q = .inl t → t.eval a = w) → w ∈ r) := by
  cases q with
  | inr c => exact .inr ⟨ws, rfl, fun _ h => h, fun _ _ _ h _ => h⟩
  | inl t =>
    have ht := hq t rfl
    haveI : DecidablePred (fun w : Int => ∀ l, IsMin (Poss d t) l → l ≤ w) := fun _ => Classical.propDecidable _
    haveI : DecidablePred (Poss d t) := fun _ => Classical.propDecidable _
    unfold possible
    refine (Disjunctive2D.keep_roo (P := fun w => ∀ l, IsMin (Poss d t) l → l ≤ w) ws fun w _ => ?_).bind fun ws' h' => ?_
    · refine (lower_roo hd ht).bind fun l hl => .pure ?_
      rw [decide_eq_true_iff]
      exact ⟨fun h l' h1 => Int.le_trans (h1.2 _ hl.2.1) h, fun h => h l hl.2⟩
    · subst h'
      refine (Disjunctive2D.keep_roo (P := Poss d t) _ fun w hm => inDomain_spec hd ht w (hw w (List.mem_filter.1 hm).1)).mono fun r hr => ?_
      subst hr
      refine ⟨fun w h => (List.mem_filter.1 (List.mem_filter.1 h).1).1, fun a ha w h e => ?_⟩
      have e := e t rfl
      exact List.mem_filter.2 ⟨List.mem_filter.2 ⟨h, decide_eq_true fun l hl => e ▸ hl.le ha⟩, decide_eq_true ⟨a, ha, e⟩⟩

theorem zipped : ∀ (ps : List (VarId × Int)) (fs : List (Bool × Bool)), fs.length = ps.length →
    ((ps.zip fs).map fun p => (p.1.1, p.2, p.1.2)).map (·.2) = fs.zip (ps.map (·.2)) ∧ (((ps.zip fs).map fun p => (p.1.1, p.2, p.1.2)).map fun q => (q.1, q.2.2)) = ps
  | [], [], _ => ⟨rfl, rfl⟩
  | [], _ :: _, h => by simp at h
  | _ :: _, [], h => by simp at h
  | p :: ps, f :: fs, h => by
    have ih := zipped ps fs (by simpa using h)
    refine ⟨?_, ?_⟩
    · rw [List.zip_cons_cons, List.map_cons, List.map_cons, ih.1]; rfl
    · rw [List.zip_cons_cons, List.map_cons, List.map_cons, ih.2]

/-- A bin that holds is possible, and what is said about it holds. -/
theorem wholeBin_roo {layers : List (List Int)} {q : Cap × Nat} (hd : DomsOK d) (hl : d.length = root.length) (hs : ∀ a, Within d a → Within root a) (hf : Fine d.length ps) (hb : InI64 q.2) (hq : ∀ t, q.1 = .inl t → t.Valid d.length) (hg : Graph root q.2 ps layers) :
    RightOrOverflow (wholeBin layers ps q.1 q.2 d) (fun r => (r = none → ∀ a, Within d a → ¬ Holds ps q a) ∧ ∀ ls, r = some ls → ∀ l ∈ ls, l.Valid d.length ∧ ∀ a, Within d a → Holds ps q a → l.holds a) := by
  obtain ⟨q1, b⟩ := q
  obtain ⟨gs, ls, rfl, hgl, hgf, hcl, hint⟩ := hg
  unfold wholeBin
  refine (AllDifferent.mapAll_roo (P := fun p f => Flagged d b p.1 f) ps fun p hp => flags_roo hd (hf p hp).1 hb).bind fun fs hfs => ?_
  have hu : RightOrOverflow (upperOf d q1) (fun u => ∀ a, Within d a → Holds ps (q1, b) a → put b a ps ≤ u) := by
    cases q1 with
    | inr c => exact .inr ⟨c, rfl, fun a _ h => h⟩
    | inl t =>
      refine (upper_roo hd (hq t rfl)).mono fun u hu a ha h => ?_
      have h : t.eval a = put b a ps := h
      exact h ▸ hu.2.ge ha
  refine hu.bind fun u hu => ?_
  obtain ⟨z1, z2⟩ := zipped ps fs hfs.1
  have hfewer : Closed [0] ls (((ps.zip fs).map fun p => (p.1.1, p.2, p.1.2)).map (·.2)) := by
    rw [z1]
    refine closed_fewer _ fs gs [0] ls (hfs.1.trans hgl.symm) (fun i f g h1 h2 => ?_) hcl
    obtain ⟨hi, _⟩ := List.getElem?_eq_some_iff.1 h1
    have hi' : i < ps.length := by rw [← hfs.1]; exact hi
    exact (hfs.2 i _ f (List.getElem?_eq_getElem hi') h1).fewer (hgf i _ g (List.getElem?_eq_getElem hi') h2) hs
  have hfacts := walk_facts (u := u) ((ps.zip fs).map fun p => (p.1.1, p.2, p.1.2)) ls [0] [] hint (fun w hw => by rw [List.mem_singleton.1 hw]; decide)
  have hwalk : ∀ a, Within d a → Holds ps (q1, b) a → put b a ps ∈ (walk u ls ((ps.zip fs).map fun p => (p.1.1, p.2, p.1.2)) [0] []).1 ∧ Trail b a (walk u ls ((ps.zip fs).map fun p => (p.1.1, p.2, p.1.2)) [0] []).2 (put b a ps) := fun a ha hh => by
    have := walk_ok (a := a) (b := b) (u := u) ((ps.zip fs).map fun p => (p.1.1, p.2, p.1.2)) ls [0] [0] [] 0 hfewer (fun _ h => h) List.mem_cons_self (fun q hq => ?_) (by rw [z2, Int.zero_add]; exact hu a ha hh) trivial
    · rw [z2, Int.zero_add] at this; exact this
    · obtain ⟨p, hp, rfl⟩ := List.mem_map.1 hq
      obtain ⟨i, hi⟩ := List.getElem?_of_mem hp
      have h2 := List.getElem?_zip_eq_some.1 hi
      have h3 := (hfs.2 i _ _ h2.1 h2.2).allows ha
      exact ⟨(hf _ (List.mem_of_getElem? h2.1)).2.2, h3⟩
  simp only [List.tail_cons]
  generalize walk u ls ((ps.zip fs).map fun p => (p.1.1, p.2, p.1.2)) [0] [] = r at hfacts hwalk ⊢
  refine (possible_roo hd hq hfacts.1).bind fun ws hws => ?_
  have hin : ∀ a, Within d a → Holds ps (q1, b) a → put b a ps ∈ ws := fun a ha hh => hws.2 a ha _ (hwalk a ha hh).1 fun t e => by
    subst e; exact hh
  split
  · rename_i e
    exact .pure ⟨fun _ a ha hh => (by have := hin a ha hh; rw [e] at this; cases this), fun _ h => (nomatch h)⟩
  · rename_i hne
    refine (aboutLoad_roo hd hq hne fun w hw => hfacts.1 w (hws.1 w hw)).bind fun ls' hls => .pure ⟨fun h => (nomatch h), fun ls'' e l hl' => ?_⟩
    cases e
    rcases List.mem_append.1 hl' with h | h
    · refine ⟨(hls l h).1, fun a ha hh => (hls l h).2 a fun t e => ?_⟩
      have := hin a ha hh
      subst e
      have hh : t.eval a = put b a ps := hh
      rw [hh]; exact this
    · obtain ⟨x, hx, rfl⟩ := List.mem_map.1 h
      obtain ⟨e, he, hex⟩ := back_mem hx
      have hx' : x ∈ ps.map (·.1) := by
        rcases hfacts.2 e he with h | h
        · cases h
        · rw [hex, List.map_map] at h
          obtain ⟨p, hp, rfl⟩ := List.mem_map.1 h
          exact List.mem_map.2 ⟨p.1, (List.of_mem_zip (a := p.1) (b := p.2) hp).1, rfl⟩
      obtain ⟨p, hp, rfl⟩ := List.mem_map.1 hx'
      refine ⟨.ne (hf p hp).1 hb, fun a ha hh => ?_⟩
      rw [Lit.holds_ne]
      exact back_ok r.2 ws _ (hin a ha hh) (hwalk a ha hh).2 hx

theorem ver_stage3 {J : Job} {mode : Mode} {q : (Cap × Nat) × List (List Int)} (ho : J.R .overflow) (hd : DomsOK d) (hl : d.length = J.n) (hr : J.n = root.length) (hs : ∀ a, Within d a → Within root a) (hf : Fine J.n ps) (hb : InI64 q.1.2) (hq : ∀ t, q.1.1 = .inl t → t.Valid J.n)
    (hC : ∀ a, J.C a → Holds ps q.1 a) (hg : Graph root q.1.2 ps q.2) : (stage3 mode ps q : Prog σ μ Unit).Ver J (fun _ => False) (fun _ _ => True) d := by
  obtain ⟨⟨q1, b⟩, layers⟩ := q
  cases mode with
  | bc => exact trivial
  | perCall =>
    unfold stage3
    refine ver_ask (f := fun d => AllDifferent.mapAll (fun p => flags d b p.1) ps) ho (AllDifferent.mapAll_roo (P := fun p f => Flagged d b p.1 f) ps fun p hp => flags_roo hd (hl.symm ▸ (hf p hp).1) hb) fun fs hfs => ?_
    obtain ⟨gs, ls, hlay, hgl, hgf, hcl, hint⟩ := hg
    have hlay : layers = [0] :: ls := hlay
    subst hlay
    have hsz : gs.length = (ps.map (·.2)).length := by rw [List.length_map]; exact hgl
    have hcl : Closed [0] ls (gs.zip (ps.map (·.2))) := hcl
    have hat := hcl.at hsz (by simp)
    have hfl : fs.length = (ps.map (·.2)).length := by rw [List.length_map]; exact hfs.1
    have : (sweep ([0] :: ls) (ps.map (·.2)) fs (fresh ps.length)).2 = [] := by
      refine sweep_prunes (gs := gs) (by rw [hat.2]; omega) hfl (.inl rfl) (by omega) hat.1 fun i hi => ?_
      have hi1 : i < ps.length := by have := hfs.1; omega
      have hi2 : i < gs.length := by omega
      have h1 := hfs.2 i _ _ (List.getElem?_eq_getElem hi1) (List.getElem?_eq_getElem hi)
      have h2 := hgf i _ _ (List.getElem?_eq_getElem hi1) (List.getElem?_eq_getElem hi2)
      have e1 : fs.getD i (false, false) = fs[i] := by simp [hi]
      have e2 : gs.getD i (false, false) = gs[i] := by simp [hi2]
      rw [e1, e2]
      exact ⟨h1.fewer h2 hs, h1.some hd⟩
    show (Prog.forEach _ (sweep ([0] :: ls) (ps.map (·.2)) fs (fresh ps.length)).2 : Prog σ μ Unit).Ver _ _ _ _
    rw [this]
    exact trivial
  | upfront =>
    unfold stage3
    refine ver_ask (f := wholeBin layers ps q1 b) ho (wholeBin_roo (q := (q1, b)) hd (hl.trans hr) hs (hl.symm ▸ hf) hb (fun t e => hl.symm ▸ hq t e) hg) fun r hr' => ?_
    cases r with
    | none => exact fun a ha hc => hr'.1 rfl a ha (hC a hc)
    | some ls =>
      refine ver_mono (fun _ _ _ => trivial) _ _ (ver_tells (lit := fun l => l) hd hl ls (fun l hm => hl ▸ (hr'.2 ls rfl l hm).1) fun l hm a ha hc => (hr'.2 ls rfl l hm).2 a ha (hC a hc))

/-- What it says, apart from items being in bins. -/
def Means (ps : List (VarId × Int)) (bins : List Cap) (a : Asg) : Prop := ∀ q ∈ bins.zipIdx, Holds ps q a

theorem ver_propagate {bins : List Cap} {ds : List (List (List Int))} {mode : Mode} {m : Nat} {R : Err → Prop} (ho : R .overflow) (hf : Fine root.length ps) (hb : ∀ q ∈ bins.zipIdx, InI64 q.2) (hq : ∀ t, .inl t ∈ bins → t.Valid root.length)
    (hg : ∀ p ∈ bins.zipIdx.zip ds, Graph root p.1.2 ps p.2) (hd : DomsOK d) (hl : d.length = root.length) (hs : ∀ a, Within d a → Within root a) :
    (propagate mode ps bins ds : Prog σ μ PState).Ver { n := root.length, m, R, C := fun a => Within root a ∧ Means ps bins a } (fun _ => True) (Enforced (fun a => Within root a → Means ps bins a) ((ps.map (·.1)).filterMap VarId.underlyingIndex) d) d := by
  unfold propagate
  refine ver_seq (S := fun _ => False) hd hl (fun _ h => h) (ver_stage2 ho hd hl hf hb hq fun a ha => ha.2) fun _ d1 k1 k2 k3 k4 => ?_
  refine ver_seq (S := fun _ => False) (Q' := fun _ _ => True) k1 k2 (fun _ h => h) (ver_mono (fun _ _ _ => trivial) _ _ (ver_forEach (fun rest d' => (∀ a, Within d' a → Within d1 a) ∧ ∀ p ∈ rest, p ∈ bins.zipIdx.zip ds) (fun p rest d' m1 m2 m3 => ?_) (bins.zipIdx.zip ds) d1 k1 k2 ⟨fun _ h => h, fun _ h => h⟩)) fun _ d2 j1 j2 j3 _ => ?_
  · have hp := m3.2 p List.mem_cons_self
    have hz := (List.of_mem_zip (a := p.1) (b := p.2) hp).1
    refine ver_mono (fun _ d'' hq' => ⟨fun a ha => m3.1 a (hq'.1.2.2 a ha), fun r hr => m3.2 r (List.mem_cons_of_mem _ hr)⟩) _ _ (ver_facts _ d' m1 m2 (ver_stage3 (root := root) ho m1 m2 rfl (fun a ha => hs a (k3 a (m3.1 a ha))) hf (hb _ hz) (fun t e => hq t ?_) (fun a ha => ha.2 _ hz) (hg p hp)))
    rw [← e]
    exact (List.mem_zipIdx hz).2.2 ▸ List.getElem_mem _
  · refine .intro (fun hk a ha _ => ?_) (fun h => nomatch h) (fun h => nomatch h)
    exact k4 (fun p hp => hk p.1 (List.mem_map.2 ⟨p, hp, rfl⟩)) a (j3 a ha)


/-- What the arguments have to be like. -/
structure Accepted (items : List VarId) (sizes : List Int) (bins : List Cap) (root : Doms) : Prop where
  len : items.length = sizes.length
  sizes : ∀ s ∈ sizes, 0 ≤ s
  some : bins ≠ []
  items : ∀ x ∈ items, ∀ a, Within root a → 0 ≤ x.eval a ∧ x.eval a < bins.length
  loads : ∀ t, .inl t ∈ bins → ∀ a, Within root a → 0 ≤ t.eval a
  capacities : ∀ c, .inr c ∈ bins → 0 ≤ c

theorem refused_roo {items : List VarId} {sizes : List Int} {bins : List Cap} (hd : DomsOK root) (hv : ∀ x ∈ items, x.Valid root.length) (hq : ∀ t, .inl t ∈ bins → t.Valid root.length) :
    RightOrOverflow (refused items sizes bins root) (fun r => r = true ↔ ¬ Accepted items sizes bins root) := by
  unfold refused
  split
  · rename_i h
    exact .pure ⟨fun _ k => h k.len, fun _ => rfl⟩
  rename_i h1
  split
  · rename_i h
    obtain ⟨s, hs, hlt⟩ := h
    exact .pure ⟨fun _ k => by have := k.sizes s hs; omega, fun _ => rfl⟩
  rename_i h2
  split
  · rename_i h
    exact .pure ⟨fun _ k => k.some h, fun _ => rfl⟩
  rename_i h3
  refine (anyOf_roo (P := fun x => ∃ a, Within root a ∧ (x.eval a < 0 ∨ x.eval a ≥ (bins.length : Int))) items fun x hx => ?_).bind fun r hr => ?_
  · refine (bounds_roo hd (hv x hx)).bind fun p hp => .pure ?_
    rw [decide_eq_true_iff]
    constructor
    · rintro (h | h)
      · obtain ⟨a, ha, e⟩ := hp.1.2.1
        exact ⟨a, ha, .inl (by omega)⟩
      · obtain ⟨a, ha, e⟩ := hp.2.2.1
        exact ⟨a, ha, .inr (by omega)⟩
    · rintro ⟨a, ha, h⟩
      have := hp.1.2.le ha; have := hp.2.2.ge ha
      omega
  cases r with
  | true =>
    obtain ⟨x, hx, a, ha, h⟩ := hr.1 rfl
    exact .pure ⟨fun _ k => by have := k.items x hx a ha; omega, fun _ => rfl⟩
  | false =>
    refine (anyOf_roo (P := fun q => match q with
      | .inl t => ∃ a, Within root a ∧ t.eval a < 0
      | .inr c => c < 0) bins fun q hm => ?_).mono fun r hr' => ?_
    · cases q with
      | inl t =>
        refine (lower_roo hd (hq t hm)).bind fun l hl => .pure ?_
        rw [decide_eq_true_iff]
        exact ⟨fun h => by obtain ⟨a, ha, e⟩ := hl.2.1; exact ⟨a, ha, by omega⟩, fun ⟨a, ha, h⟩ => by have := hl.2.le ha; omega⟩
      | inr c => exact .inr ⟨_, rfl, decide_eq_true_iff⟩
    · rw [hr']
      constructor
      · rintro ⟨q, hm, h⟩ k
        cases q with
        | inl t =>
          obtain ⟨a, ha, hlt⟩ := h
          have := k.loads t hm a ha; omega
        | inr c =>
          have h : c < 0 := h
          have := k.capacities c hm; omega
      · intro hn
        refine Classical.byContradiction fun hno => hn ⟨Classical.byContradiction h1, fun s hs => Int.not_lt.1 fun hlt => h2 ⟨s, hs, hlt⟩, h3, fun x hx a ha => ?_, fun t hm a ha => Int.not_lt.1 fun hlt => hno ⟨.inl t, hm, a, ha, hlt⟩, fun c hm => Int.not_lt.1 fun hlt => hno ⟨.inr c, hm, hlt⟩⟩
        refine Classical.byContradiction fun hx' => ?_
        have := hr.2 ⟨x, hx, a, ha, by omega⟩
        cases this

theorem sizes_sum : ∀ (gs : List (Bool × Bool)) (ss : List Int), gs.length = ss.length → sizesOf (gs.zip ss) = ss.sum
  | [], [], _ => rfl
  | [], _ :: _, h => by simp at h
  | _ :: _, [], h => by simp at h
  | g :: gs, s :: ss, h => by
    have := sizes_sum gs ss (by simpa using h)
    unfold sizesOf at *
    rw [List.zip_cons_cons, List.map_cons, List.sum_cons, List.sum_cons, this]

theorem dags_roo {bins : List Cap} (hd : DomsOK root) (hf : Fine root.length ps) (hb : ∀ q ∈ bins.zipIdx, InI64 q.2) (hsum : (ps.map (·.2)).sum ≤ i64Max) : RightOrOverflow (dags ps bins root) (fun ds => ∀ p ∈ bins.zipIdx.zip ds, Graph root p.1.2 ps p.2) := by
  have h0 : ∀ s ∈ ps.map (·.2), 0 ≤ s := fun s hs => by
    obtain ⟨p, hp, rfl⟩ := List.mem_map.1 hs
    exact (hf p hp).2.2
  have htot : total (ps.map (·.2)) 0 = .ok (ps.map (·.2)).sum := by
    rcases total_spec (ps.map (·.2)) 0 h0 (Int.le_refl _) (by decide) with h | h
    · rw [h.2, Int.zero_add]
    · have := h.1; omega
  unfold dags
  refine (AllDifferent.mapAll_roo (P := fun (q : Cap × Nat) l => Graph root q.2 ps l) bins.zipIdx fun q hq => ?_).mono fun ds hds p hp => ?_
  · rw [htot, Knapsack.chk_ok_bind]
    refine (AllDifferent.mapAll_roo (P := fun p f => Flagged root q.2 p.1 f) ps fun p hp => flags_roo hd (hf p hp).1 (hb q hq)).bind fun gs hgs => ?_
    have hgl : gs.length = (ps.map (·.2)).length := by rw [List.length_map]; exact hgs.1
    have hss := sizes_sum gs (ps.map (·.2)) hgl
    have hn : ∀ p ∈ gs.zip (ps.map (·.2)), 0 ≤ p.2 := fun p hp => h0 _ (List.of_mem_zip (a := p.1) (b := p.2) hp).2
    have hz := sizesOf_nonneg hn
    obtain ⟨ls, e, h1, h2⟩ := dag_ok (cap := (ps.map (·.2)).sum) ⟨by have : i64Min ≤ 0 := by decide
                                                                     omega, hsum⟩ (gs.zip (ps.map (·.2))) [0] hn (fun w hw => by rw [List.mem_singleton.1 hw]; omega)
    exact .inr ⟨_, e, gs, ls, rfl, hgs.1, hgs.2, h1, h2⟩
  · obtain ⟨i, hi⟩ := List.getElem?_of_mem hp
    have h2 := List.getElem?_zip_eq_some.1 hi
    exact hds.2 i _ _ h2.1 h2.2

theorem dags_ub {bins : List Cap} (hf : ∀ p ∈ ps, 0 ≤ p.2) (hne : bins ≠ []) (hsum : i64Max < (ps.map (·.2)).sum) : dags ps bins root = .error .ub := by
  have h0 : ∀ s ∈ ps.map (·.2), 0 ≤ s := fun s hs => by
    obtain ⟨p, hp, rfl⟩ := List.mem_map.1 hs
    exact hf p hp
  have htot : total (ps.map (·.2)) 0 = .error .ub := by
    rcases total_spec (ps.map (·.2)) 0 h0 (Int.le_refl _) (by decide) with h | h
    · have := h.1; omega
    · exact h.2
  unfold dags
  cases bins with
  | nil => exact absurd rfl hne
  | cons q bins =>
    rw [List.zipIdx_cons, AllDifferent.mapAll, htot]; rfl

theorem install_ok {items : List VarId} {sizes : List Int} {bins : List Cap} {mode : Mode} {m : Nat} {R : Err → Prop} {z0 : List σ} (ho : R .overflow) (hd : DomsOK root) (hv : ∀ x ∈ items, x.Valid root.length) (hs : ∀ s ∈ sizes, InI64 s) (hq : ∀ t, .inl t ∈ bins → t.Valid root.length) (hb : InI64 bins.length)
    (h : Accepted items sizes bins root) (hsum : mode ≠ .bc → sizes.sum ≤ i64Max) :
    RightOrOverflow (install (σ := σ) (μ := μ) mode items sizes bins root) (fun is => ∃ I es, es.map (·.1) = is ∧ Served root.length m R root z0 I (fun _ => False) (Means (items.zip sizes) bins) items es) := by
  have e1 : (items.zip sizes).map (·.1) = items := List.map_fst_zip (Nat.le_of_eq h.len)
  have e2 : (items.zip sizes).map (·.2) = sizes := List.map_snd_zip (Nat.le_of_eq h.len.symm)
  have hf : Fine root.length (items.zip sizes) := fun p hp => by
    have := List.of_mem_zip (a := p.1) (b := p.2) hp
    exact ⟨hv _ this.1, hs _ this.2, h.sizes _ this.2⟩
  have hb' : ∀ q ∈ bins.zipIdx, InI64 q.2 := fun q hq => by
    have := (List.mem_zipIdx (x := q.1) (i := q.2) hq).2.1
    have : i64Min ≤ 0 := by decide
    have := hb.2
    exact ⟨by omega, by omega⟩
  unfold install
  refine (refused_roo hd hv hq).bind fun r hr => ?_
  have er : r = false := by
    cases r with
    | false => rfl
    | true => exact absurd h (hr.1 rfl)
  subst er
  rw [if_neg (by decide)]
  have hds : RightOrOverflow (graphs mode (items.zip sizes) bins root) (fun ds => ∀ p ∈ bins.zipIdx.zip ds, Graph root p.1.2 (items.zip sizes) p.2) := by
    unfold graphs
    split
    · exact .inr ⟨[], rfl, fun p hp => by rw [List.zip_nil_right] at hp; cases hp⟩
    · rename_i hm
      exact dags_roo hd hf hb' (by rw [e2]; exact hsum hm)
  refine hds.bind fun ds hds => .pure ?_
  refine ⟨_, [(_, _)], rfl, served_rooted (ys := items) (fun d h1 h2 h3 => ?_) (fun y hy => hy) (fun x hx v e => ⟨x, .inl hx, e⟩) rfl⟩
  have := ver_propagate (σ := σ) (μ := μ) (m := m) (R := R) (mode := mode) ho hf hb' hq hds h1 h2 h3
  rwa [e1] at this

end
end Gcs.BinPacking
