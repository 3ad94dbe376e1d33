import Verif.Lemmas.Cons.SmartTable

/-!
# Building the trees of a row

If no comparison is between variables that are linked by the others, then every entry of a row is in one of its trees, and in the order in which they are gone through a comparison has a variable that is in no later entry.
-/

namespace Gcs.SmartTable

variable {es : List SmartEntry}

theorem _root_.Gcs.Linked.trans {u v w : VarId} (h1 : Linked es u v) (h2 : Linked es v w) : Linked es u w := by
  induction h2 with
  | refl => exact h1
  | step _ hb ih => exact .step ih hb

theorem _root_.Gcs.Linked.symm {u v : VarId} (h : Linked es u v) : Linked es v u := by
  induction h with
  | refl => exact .refl _
  | step _ hb ih => exact Linked.trans (.step (.refl _) hb.symm) ih

theorem _root_.Gcs.Linked.mono {es' : List SmartEntry} (hs : ∀ x y r, SmartEntry.binary x y r ∈ es → .binary x y r ∈ es') {u v : VarId} (h : Linked es u v) : Linked es' u v := by
  induction h with
  | refl => exact .refl _
  | step _ hb ih => exact .step ih (hb.imp (hs _ _ _) (hs _ _ _))

theorem deview_of {x : VarId} (h : ∃ i, x = .simple i) : deview x = x := by obtain ⟨i, rfl⟩ := h; rfl

theorem deview_vars {e : SmartEntry} (h : Proper e) : e.vars.map deview = e.vars :=
  (List.map_congr_left fun x hx => deview_of (h.1 x hx)).trans (List.map_id' _)

theorem mem_adjacent (hp : ∀ e ∈ es, Proper e) {v : VarId} {e : SmartEntry} : e ∈ adjacent es v ↔ e ∈ es ∧ v ∈ e.vars := by
  rw [adjacent, List.mem_filter, decide_eq_true_eq]
  exact ⟨fun h => ⟨h.1, deview_vars (hp e h.1) ▸ h.2⟩, fun h => ⟨h.1, (deview_vars (hp e h.1)).symm ▸ h.2⟩⟩

/-- How many comparisons of two variables there are in a tree. -/
def binaries (t : List (Nat × SmartEntry)) : Nat := t.countP fun q => decide (q.2.vars.length = 2)

/-- What is true while a tree is built from `ρ`, where `vis` had been visited before, and those in `pend` are about to be. -/
structure Inv (es : List SmartEntry) (vis : List VarId) (ρ : VarId) (dep : VarId → Nat) (b : Build) (pend : List VarId) : Prop where
  old : ∀ q ∈ b.tree, q.2 ∈ es
  ends : ∀ q ∈ b.tree, ∀ x ∈ q.2.vars, x ∈ pend ++ b.visited
  lev : ∀ q ∈ b.tree, ∃ p ∈ q.2.vars, dep p = q.1 ∧ ∀ k ∈ q.2.vars, k = p ∨ dep k = q.1 + 1
  once : b.tree.Pairwise fun p q => ∀ k ∈ p.2.vars, k ∈ q.2.vars → dep k = p.1 + 1 → dep k ≠ q.1 + 1
  height : ∀ q ∈ b.tree, q.1 ≤ binaries b.tree
  link : ∀ w ∈ pend ++ b.visited, w ∈ vis ∨ Linked (b.tree.map (·.2)) ρ w

/-- Everything that has to do with a variable has been dealt with. -/
def Done (es : List SmartEntry) (b : Build) (w : VarId) : Prop := ∀ e ∈ es, w ∈ e.vars → (∀ y ∈ e.vars, y ∈ b.visited) ∧ (e.vars.length ≠ 2 → e ∈ b.tree.map (·.2))

/-- From one moment to a later one. -/
structure Ext (es : List SmartEntry) (dep dep' : VarId → Nat) (b b' : Build) : Prop where
  vis : ∀ w ∈ b.visited, w ∈ b'.visited
  tree : ∀ q ∈ b.tree, q ∈ b'.tree
  count : binaries b.tree ≤ binaries b'.tree
  agree : ∀ w ∈ b.visited, dep' w = dep w
  done : ∀ w ∈ b'.visited, w ∈ b.visited ∨ Done es b' w

theorem Done.mono {b b' : Build} {w : VarId} (h : Done es b w) (hv : ∀ w ∈ b.visited, w ∈ b'.visited) (ht : ∀ q ∈ b.tree, q ∈ b'.tree) : Done es b' w := by
  intro e he hw
  obtain ⟨h1, h2⟩ := h e he hw
  refine ⟨fun y hy => hv y (h1 y hy), fun k => ?_⟩
  obtain ⟨q, hq, rfl⟩ := List.mem_map.1 (h2 k)
  exact List.mem_map_of_mem (ht q hq)

theorem Ext.refl {dep : VarId → Nat} {b : Build} : Ext es dep dep b b := ⟨fun _ h => h, fun _ h => h, Nat.le_refl _, fun _ _ => rfl, fun _ h => .inl h⟩

theorem Ext.trans {d1 d2 d3 : VarId → Nat} {b1 b2 b3 : Build} (h : Ext es d1 d2 b1 b2) (k : Ext es d2 d3 b2 b3) : Ext es d1 d3 b1 b3 where
  vis w hw := k.vis w (h.vis w hw)
  tree q hq := k.tree q (h.tree q hq)
  count := Nat.le_trans h.count k.count
  agree w hw := (k.agree w (h.vis w hw)).trans (h.agree w hw)
  done w hw := (k.done w hw).elim (fun hw' => (h.done w hw').imp id fun hd => hd.mono k.vis k.tree) .inr

/-- The variables that have not been visited. -/
def unseen (es : List SmartEntry) (vis : List VarId) : Nat := (es.flatMap SmartEntry.vars).countP fun x => decide (x ∉ vis)

theorem unseen_mono {v1 v2 : List VarId} (h : ∀ w ∈ v1, w ∈ v2) : unseen es v2 ≤ unseen es v1 :=
  List.countP_mono_left fun x _ hx => by simp only [decide_eq_true_eq] at *; exact fun k => hx (h x k)

theorem countP_lt {p q : VarId → Bool} : ∀ {l : List VarId}, (∀ x ∈ l, p x = true → q x = true) → ∀ v ∈ l, q v = true → p v = false → l.countP p < l.countP q
  | [], _, _, h, _, _ => nomatch h
  | x :: xs, h, v, hv, h1, h2 => by
    have hm : xs.countP p ≤ xs.countP q := List.countP_mono_left fun y hy => h y (List.mem_cons_of_mem _ hy)
    rcases List.mem_cons.1 hv with rfl | hv
    · rw [List.countP_cons_of_pos h1, List.countP_cons_of_neg (by simp [h2])]; omega
    · have := countP_lt (fun y hy => h y (List.mem_cons_of_mem _ hy)) v hv h1 h2
      rw [List.countP_cons, List.countP_cons]
      have := h x (by simp)
      split <;> split <;> simp_all <;> omega

theorem unseen_lt {vis : List VarId} {v : VarId} (hv : v ∈ es.flatMap SmartEntry.vars) (h : v ∉ vis) : unseen es (v :: vis) < unseen es vis :=
  countP_lt (fun x _ hx => by simp only [decide_eq_true_eq, List.mem_cons, not_or] at *; exact hx.2) v hv (by simpa using h) (by simp)

section
variable {vis : List VarId} {ρ : VarId}

theorem binaries_append {t : List (Nat × SmartEntry)} {q : Nat × SmartEntry} : binaries (t ++ [q]) = binaries t + if q.2.vars.length = 2 then 1 else 0 := by
  rw [binaries, List.countP_append, List.countP_singleton]; simp [binaries]

/-- An entry with one variable is added. -/
theorem Inv.unary {dep : VarId → Nat} {b : Build} {l : Nat} {e : SmartEntry} {v : VarId} (h : Inv es vis ρ dep b []) (he : e ∈ es) (hv : e.vars = [v]) (hvis : v ∈ b.visited) (hd : dep v = l) (hb : l ≤ binaries b.tree) :
    Inv es vis ρ dep { b with tree := b.tree ++ [(l, e)] } [] where
  old q hq := by
    rcases List.mem_append.1 hq with hq | hq
    · exact h.old q hq
    · rw [List.mem_singleton.1 hq]; exact he
  ends q hq x hx := by
    rcases List.mem_append.1 hq with hq | hq
    · exact h.ends q hq x hx
    · rw [List.mem_singleton.1 hq] at hx
      replace hx : x ∈ e.vars := hx
      rw [hv, List.mem_singleton] at hx; subst hx; exact hvis
  lev q hq := by
    rcases List.mem_append.1 hq with hq | hq
    · exact h.lev q hq
    · rw [List.mem_singleton.1 hq]
      exact ⟨v, by simp [hv], hd, fun k hk => .inl (by simpa [hv] using hk)⟩
  once := by
    refine List.pairwise_append.2 ⟨h.once, by simp, fun p hp q hq k _ hk _ => ?_⟩
    rw [List.mem_singleton.1 hq] at hk ⊢
    replace hk : k ∈ e.vars := hk
    rw [hv, List.mem_singleton] at hk; subst hk; show dep k ≠ l + 1; omega
  height q hq := by
    rw [binaries_append]
    rcases List.mem_append.1 hq with hq | hq
    · have := h.height q hq; omega
    · rw [List.mem_singleton.1 hq]; show l ≤ _; omega
  link w hw := (h.link w hw).imp id fun k => k.mono fun x y r hx => by
    rw [List.map_append]; exact List.mem_append_left _ hx

/-- A comparison is added, before its other variable is visited. -/
theorem Inv.binary {dep : VarId → Nat} {b : Build} {l : Nat} {x y : VarId} {r : Rel} {v k : VarId} (h : Inv es vis ρ dep b []) (he : .binary x y r ∈ es) (hv : v ∈ b.visited) (hk : k ∉ b.visited) (hxy : (x = k ∧ y = v) ∨ (x = v ∧ y = k)) (hd : dep v = l) (hvis : ∀ w ∈ vis, w ∈ b.visited)
    (hvv : v ∉ vis) (hb : l ≤ binaries b.tree) :
    Inv es vis ρ (fun w => if w = k then l + 1 else dep w) { b with tree := b.tree ++ [(l, .binary x y r)] } [k] := by
  have hkv : v ≠ k := fun e => hk (e ▸ hv)
  have mem : ∀ z, z ∈ (SmartEntry.binary x y r).vars ↔ z = v ∨ z = k := fun z => by
    rcases hxy with ⟨rfl, rfl⟩ | ⟨rfl, rfl⟩ <;> simp [SmartEntry.vars, or_comm]
  have far : ∀ q ∈ b.tree, ∀ z ∈ q.2.vars, z ≠ k := fun q hq z hz e => hk (e ▸ by simpa using h.ends q hq z hz)
  have dk : ∀ z, z ≠ k → (fun w => if w = k then l + 1 else dep w) z = dep z := fun z hz => if_neg hz
  have dkk : (fun w => if w = k then l + 1 else dep w) k = l + 1 := if_pos rfl
  refine ⟨fun q hq => ?_, fun q hq z hz => ?_, fun q hq => ?_, ?_, fun q hq => ?_, fun w hw => ?_⟩
  · rcases List.mem_append.1 hq with hq | hq
    · exact h.old q hq
    · rw [List.mem_singleton.1 hq]; exact he
  · rcases List.mem_append.1 hq with hq | hq
    · exact List.mem_cons_of_mem _ (h.ends q hq z hz)
    · rw [List.mem_singleton.1 hq] at hz
      rcases (mem z).1 hz with rfl | rfl
      · exact List.mem_cons_of_mem _ hv
      · exact List.mem_cons_self
  · rcases List.mem_append.1 hq with hq | hq
    · obtain ⟨p, hp, h1, h2⟩ := h.lev q hq
      refine ⟨p, hp, (dk p (far q hq p hp)).trans h1, fun z hz => (h2 z hz).imp id fun e => (dk z (far q hq z hz)).trans e⟩
    · rw [List.mem_singleton.1 hq]
      exact ⟨v, (mem v).2 (.inl rfl), (dk v hkv).trans hd, fun z hz => ((mem z).1 hz).imp id fun (e : z = k) => e ▸ dkk⟩
  · refine List.pairwise_append.2 ⟨h.once.imp_of_mem fun {p q} hp hq hh z hz1 hz2 => ?_, by simp, fun p hp q hq z hz1 hz2 _ => ?_⟩
    · have e : (if z = k then l + 1 else dep z) = dep z := if_neg (far p hp z hz1)
      rw [e]; exact hh z hz1 hz2
    · rw [List.mem_singleton.1 hq] at hz2 ⊢
      have e : (if z = k then l + 1 else dep z) = dep z := if_neg (far p hp z hz1)
      rw [e]
      rcases (mem z).1 hz2 with rfl | rfl
      · show dep z ≠ l + 1; omega
      · exact absurd rfl (far p hp z hz1)
  · rw [binaries_append]
    rcases List.mem_append.1 hq with hq | hq
    · have := h.height q hq; omega
    · rw [List.mem_singleton.1 hq]; show l ≤ _; omega
  · have up : ∀ {u w}, Linked (b.tree.map (·.2)) u w → Linked ((b.tree ++ [(l, SmartEntry.binary x y r)]).map (·.2)) u w := fun k => k.mono fun x y r hx => by
      rw [List.map_append]; exact List.mem_append_left _ hx
    rcases List.mem_cons.1 hw with rfl | hw
    · refine .inr (.step (v := v) (r := r) (up ((h.link v hv).resolve_left hvv)) ?_)
      have hm : SmartEntry.binary x y r ∈ (b.tree ++ [(l, SmartEntry.binary x y r)]).map (·.2) := by simp
      rcases hxy with ⟨rfl, rfl⟩ | ⟨rfl, rfl⟩
      · exact .inr hm
      · exact .inl hm
    · exact (h.link w hw).imp id up

/-- What `build_tree` does. -/
def Builds (es : List SmartEntry) (vis : List VarId) (ρ : VarId) (visit : VarId → Nat → Build → Chk Build) (fuel : Nat) : Prop :=
  ∀ v l b dep, v ∈ es.flatMap SmartEntry.vars → v ∉ b.visited → (∀ w ∈ vis, w ∈ b.visited) → unseen es b.visited < fuel → Inv es vis ρ dep b [v] → dep v = l → l ≤ binaries b.tree →
    ∃ b' dep', visit v l b = .ok b' ∧ Inv es vis ρ dep' b' [] ∧ Ext es dep dep' b b' ∧ v ∈ b'.visited ∧ dep' v = dep v

theorem grow_ok (hp : ∀ e ∈ es, Proper e) {visit : VarId → Nat → Build → Chk Build} {fuel : Nat} (hvisit : Builds es vis ρ visit fuel) {v : VarId} {l : Nat} : ∀ (L : List SmartEntry) (b : Build) (dep : VarId → Nat),
    (∀ e ∈ L, e ∈ es ∧ v ∈ e.vars) → v ∈ b.visited → v ∉ vis → (∀ w ∈ vis, w ∈ b.visited) → unseen es b.visited < fuel → Inv es vis ρ dep b [] → dep v = l → l ≤ binaries b.tree →
    ∃ b' dep', grow visit l L b = .ok b' ∧ Inv es vis ρ dep' b' [] ∧ Ext es dep dep' b b' ∧ ∀ e ∈ L, (∀ y ∈ e.vars, y ∈ b'.visited) ∧ (e.vars.length ≠ 2 → e ∈ b'.tree.map (·.2))
  | [], b, dep, _, _, _, _, _, hi, _, _ => ⟨b, dep, rfl, hi, .refl, fun _ h => nomatch h⟩
  | e :: L, b, dep, hL, hv, hvv, hvis, hf, hi, hd, hb => by
    obtain ⟨he, hve⟩ := hL e (by simp)
    have pe := hp e he
    have unary : ∀ x, e.vars = [x] → grow visit l (e :: L) b = grow visit l L { b with tree := b.tree ++ [(l, e)] } → ∃ b' dep', grow visit l (e :: L) b = .ok b' ∧ Inv es vis ρ dep' b' [] ∧ Ext es dep dep' b b' ∧ ∀ e' ∈ e :: L, (∀ y ∈ e'.vars, y ∈ b'.visited) ∧ (e'.vars.length ≠ 2 → e' ∈ b'.tree.map (·.2)) := by
      intro x hx hg
      have hxv : x = v := by rw [hx, List.mem_singleton] at hve; exact hve.symm
      subst hxv
      have hb' : l ≤ binaries (b.tree ++ [(l, e)]) := by rw [binaries_append]; omega
      obtain ⟨b', dep', k1, k2, k3, k4⟩ := grow_ok hp hvisit L { b with tree := b.tree ++ [(l, e)] } dep (fun f hf => hL f (List.mem_cons_of_mem _ hf)) hv hvv hvis hf (hi.unary he hx hv hd hb) hd hb'
      refine ⟨b', dep', hg.trans k1, k2, Ext.trans (b2 := { b with tree := b.tree ++ [(l, e)] }) ⟨fun _ h => h, fun q hq => List.mem_append_left _ hq, by show _ ≤ binaries (b.tree ++ [(l, e)]); rw [binaries_append]; omega, fun _ _ => rfl, fun _ h => .inl h⟩ k3, fun f hf => ?_⟩
      rcases List.mem_cons.1 hf with rfl | hf
      · refine ⟨fun y hy => ?_, fun _ => List.mem_map.2 ⟨(l, f), k3.tree _ (by simp), rfl⟩⟩
        rw [hx, List.mem_singleton] at hy; subst hy; exact k3.vis y hv
      · exact k4 f hf
    cases e with
    | value x w r => exact unary x rfl rfl
    | set x ws m => exact unary x rfl rfl
    | binary x y r =>
      have dx := deview_of (pe.1 x (by simp [SmartEntry.vars]))
      have dy := deview_of (pe.1 y (by simp [SmartEntry.vars]))
      have pool : ∀ z ∈ (SmartEntry.binary x y r).vars, z ∈ es.flatMap SmartEntry.vars := fun z hz => List.mem_flatMap.2 ⟨_, he, hz⟩
      have hve' : v = x ∨ v = y := by simpa [SmartEntry.vars] using hve
      -- a variable that is new
      have fresh : ∀ k, k ∉ b.visited → ((x = k ∧ y = v) ∨ (x = v ∧ y = k)) → grow visit l (.binary x y r :: L) b = (do let b' ← visit k (l + 1) { b with tree := b.tree ++ [(l, .binary x y r)] }; grow visit l L b') →
          ∃ b' dep', grow visit l (.binary x y r :: L) b = .ok b' ∧ Inv es vis ρ dep' b' [] ∧ Ext es dep dep' b b' ∧ ∀ e' ∈ .binary x y r :: L, (∀ y ∈ e'.vars, y ∈ b'.visited) ∧ (e'.vars.length ≠ 2 → e' ∈ b'.tree.map (·.2)) := by
        intro k hk hxy hg
        have hkv : v ≠ k := fun e => hk (e ▸ hv)
        have hcount : binaries (b.tree ++ [(l, .binary x y r)]) = binaries b.tree + 1 := by rw [binaries_append]; rfl
        obtain ⟨b1, d1, a1, a2, a3, a4, a5⟩ := hvisit k (l + 1) { b with tree := b.tree ++ [(l, .binary x y r)] } (fun w => if w = k then l + 1 else dep w) (pool k (by rcases hxy with ⟨rfl, _⟩ | ⟨_, rfl⟩ <;> simp [SmartEntry.vars])) hk hvis hf
          (hi.binary he hv hk hxy hd hvis hvv hb) (if_pos rfl) (by show _ ≤ binaries (b.tree ++ [_]); omega)
        have hd1 : d1 v = l := (a3.agree v hv).trans ((if_neg hkv).trans hd)
        have hcount' : binaries b.tree + 1 ≤ binaries b1.tree := hcount ▸ a3.count
        obtain ⟨b', dep', k1, k2, k3, k4⟩ := grow_ok hp hvisit L b1 d1 (fun f hf => hL f (List.mem_cons_of_mem _ hf)) (a3.vis v hv) hvv (fun w hw => a3.vis w (hvis w hw)) (Nat.lt_of_le_of_lt (unseen_mono a3.vis) hf) a2 hd1 (by omega)
        refine ⟨b', dep', ?_, k2, Ext.trans (d2 := d1) (b2 := b1) ⟨a3.vis, fun q hq => a3.tree q (List.mem_append_left _ hq), by omega, fun w hw => (a3.agree w hw).trans (if_neg fun (e : w = k) => hk (e ▸ hw)), a3.done⟩ k3, fun f hf => ?_⟩
        · rw [hg, a1]; exact k1
        · rcases List.mem_cons.1 hf with rfl | hf
          · refine ⟨fun z hz => ?_, fun h => absurd rfl h⟩
            have hz' : z = x ∨ z = y := by simpa [SmartEntry.vars] using hz
            have : z = k ∨ z = v := by
              rcases hxy with ⟨rfl, rfl⟩ | ⟨rfl, rfl⟩
              · exact hz'
              · exact hz'.symm
            rcases this with rfl | rfl
            · exact k3.vis _ a4
            · exact k3.vis _ (a3.vis _ hv)
          · exact k4 f hf
      by_cases h1 : x ∈ b.visited
      · by_cases h2 : y ∈ b.visited
        · obtain ⟨b', dep', k1, k2, k3, k4⟩ := grow_ok hp hvisit L b dep (fun f hf => hL f (List.mem_cons_of_mem _ hf)) hv hvv hvis hf hi hd hb
          refine ⟨b', dep', ?_, k2, k3, fun f hf => ?_⟩
          · rw [grow, dx, dy, if_neg (not_not_intro h1), if_neg (not_not_intro h2)]; exact k1
          · rcases List.mem_cons.1 hf with rfl | hf
            · refine ⟨fun z hz => k3.vis z ?_, fun h => absurd rfl h⟩
              have hz' : z = x ∨ z = y := by simpa [SmartEntry.vars] using hz
              rcases hz' with rfl | rfl
              · exact h1
              · exact h2
            · exact k4 f hf
        · refine fresh y h2 (.inr ⟨?_, rfl⟩) ?_
          · rcases hve' with e | e
            · exact e.symm
            · exact absurd (e ▸ hv) h2
          · rw [grow, dx, dy, if_neg (not_not_intro h1), if_pos h2]
      · refine fresh x h1 (.inl ⟨rfl, ?_⟩) ?_
        · rcases hve' with e | e
          · exact absurd (e ▸ hv) h1
          · exact e.symm
        · rw [grow, dx, if_pos h1]

theorem build_ok (hp : ∀ e ∈ es, Proper e) : ∀ fuel, Builds es vis ρ (build es fuel) fuel
  | 0 => fun _ _ _ _ _ _ _ h => absurd h (by omega)
  | fuel + 1 => by
    intro v l b dep hv hb hvis hf hi hd hl
    obtain ⟨e0, he0, hv0⟩ := List.mem_flatMap.1 hv
    have dv := deview_of ((hp e0 he0).1 v hv0)
    have hlt := unseen_lt hv hb
    obtain ⟨b', dep', k1, k2, k3, k4⟩ := grow_ok (v := v) (l := l) hp (build_ok hp fuel) (adjacent es v) { b with visited := v :: b.visited } dep (fun e he => (mem_adjacent hp).1 he) List.mem_cons_self (fun k => hb (hvis v k))
      (fun w hw => List.mem_cons_of_mem _ (hvis w hw)) (by show unseen es (v :: b.visited) < fuel; omega) ⟨hi.old, hi.ends, hi.lev, hi.once, hi.height, hi.link⟩ hd hl
    have hdone : Done es b' v := fun e he hve => k4 e ((mem_adjacent hp).2 ⟨he, hve⟩)
    refine ⟨b', dep', by rw [build, dv]; exact k1, k2, ⟨fun w hw => k3.vis w (List.mem_cons_of_mem _ hw), k3.tree, k3.count, fun w hw => k3.agree w (List.mem_cons_of_mem _ hw), fun w hw => ?_⟩, k3.vis v List.mem_cons_self, k3.agree v List.mem_cons_self⟩
    rcases k3.done w hw with h | h
    · rcases List.mem_cons.1 h with rfl | h
      · exact .inr hdone
      · exact .inl h
    · exact .inr h

end

theorem mem_walk {t : List (Nat × SmartEntry)} (h : ∀ q ∈ t, q.1 ≤ binaries t) {e : SmartEntry} : e ∈ walk t ↔ e ∈ t.map (·.2) := by
  simp only [walk, List.mem_flatMap, List.mem_reverse, List.mem_range, List.mem_map, List.mem_filter, decide_eq_true_eq]
  constructor
  · rintro ⟨_, _, q, ⟨hq, _⟩, rfl⟩; exact ⟨q, hq, rfl⟩
  · rintro ⟨q, hq, rfl⟩
    exact ⟨q.1, Nat.lt_succ_of_le (h q hq), q, ⟨hq, rfl⟩, rfl⟩

theorem ordered_iff : ∀ {l : List SmartEntry}, Ordered l ↔ ∀ (l1 l2 : List SmartEntry) (e : SmartEntry), l = l1 ++ e :: l2 → ∀ x y r, e = .binary x y r → ∃ k ∈ e.vars, ∀ f ∈ l2, k ∉ f.vars
  | [] => ⟨fun _ l1 l2 e h => by simp at h, fun _ => trivial⟩
  | a :: l => by
    rw [Ordered, ordered_iff (l := l)]
    constructor
    · rintro ⟨h1, h2⟩ l1 l2 e h
      cases l1 with
      | nil => cases h; exact h1
      | cons c cs => cases h; exact h2 cs l2 e rfl
    · intro h
      exact ⟨h [] l a rfl, fun l1 l2 e he => h (a :: l1) l2 e (by rw [he]; rfl)⟩

/-- Going through the levels from the deepest. -/
def levels (t : List (Nat × SmartEntry)) : Nat → List (Nat × SmartEntry)
  | 0 => []
  | n + 1 => (t.filter fun q => decide (q.1 = n)) ++ levels t n

theorem walk_levels (t : List (Nat × SmartEntry)) : walk t = (levels t (binaries t + 1)).map (·.2) := by
  have : ∀ n, ((List.range n).reverse.flatMap fun l => (t.filter fun q => decide (q.1 = l)).map (·.2)) = (levels t n).map (·.2) := by
    intro n
    induction n with
    | zero => rfl
    | succ n ih => rw [List.range_succ, List.reverse_append, List.reverse_singleton, List.singleton_append, List.flatMap_cons, ih, levels, List.map_append]
  exact this _

theorem mem_levels {t : List (Nat × SmartEntry)} {q : Nat × SmartEntry} : ∀ {n : Nat}, q ∈ levels t n → q ∈ t ∧ q.1 < n
  | 0, h => nomatch h
  | n + 1, h => by
    rcases List.mem_append.1 h with h | h
    · have := List.mem_filter.1 h
      have e : q.1 = n := by simpa using this.2
      exact ⟨this.1, by omega⟩
    · have := mem_levels h; exact ⟨this.1, by omega⟩

theorem walk_ordered {vis : List VarId} {ρ : VarId} {dep : VarId → Nat} {b : Build} (hp : ∀ e ∈ es, Proper e) (hi : Inv es vis ρ dep b []) : Ordered (walk b.tree) := by
  have key : ∀ {T : List (Nat × SmartEntry)}, (∀ q ∈ T, q ∈ b.tree) → T.Pairwise (fun p q => q.1 ≤ p.1 ∧ ∀ k ∈ p.2.vars, k ∈ q.2.vars → dep k = p.1 + 1 → dep k ≠ q.1 + 1) → Ordered (T.map (·.2)) := by
    intro T
    induction T with
    | nil => intro _ _; trivial
    | cons q T ih =>
      intro hT hw
      rw [List.pairwise_cons] at hw
      refine ⟨fun x y r (e : q.2 = .binary x y r) => ?_, ih (fun p h => hT p (List.mem_cons_of_mem _ h)) hw.2⟩
      have hq := hT q (by simp)
      obtain ⟨p, hp1, hp2, hp3⟩ := hi.lev q hq
      have pe := hp _ (hi.old q hq)
      rw [e] at hp1 hp3 pe
      have hxy : x ≠ y := fun e => by have := pe.2; rw [SmartEntry.vars, e] at this; simp at this
      have : ∃ k ∈ (SmartEntry.binary x y r).vars, dep k = q.1 + 1 := by
        simp only [SmartEntry.vars, List.mem_cons, List.not_mem_nil, or_false] at hp1
        rcases hp1 with rfl | rfl
        · exact ⟨y, by simp [SmartEntry.vars], (hp3 y (by simp [SmartEntry.vars])).resolve_left hxy.symm⟩
        · exact ⟨x, by simp [SmartEntry.vars], (hp3 x (by simp [SmartEntry.vars])).resolve_left hxy⟩
      obtain ⟨k, hk, hk'⟩ := this
      rw [← e] at hk
      show ∃ k ∈ q.2.vars, _
      refine ⟨k, hk, fun f hf hkf => ?_⟩
      obtain ⟨g, hg, rfl⟩ := List.mem_map.1 hf
      obtain ⟨w1, w2⟩ := hw.1 g hg
      have := w2 k hk hkf hk'
      obtain ⟨p', _, g2, g3⟩ := hi.lev g (hT g (List.mem_cons_of_mem _ hg))
      rcases g3 k hkf with e | e
      · subst e; omega
      · exact this e
  rw [walk_levels]
  refine key (fun q hq => (mem_levels hq).1) ?_
  have : ∀ n, (levels b.tree n).Pairwise (fun p q => q.1 ≤ p.1 ∧ ∀ k ∈ p.2.vars, k ∈ q.2.vars → dep k = p.1 + 1 → dep k ≠ q.1 + 1) := by
    intro n
    induction n with
    | zero => exact .nil
    | succ n ih =>
      refine List.pairwise_append.2 ⟨?_, ih, fun p h q hq => ?_⟩
      · refine (hi.once.filter _).imp_of_mem fun {p q} hp hq h => ⟨?_, h⟩
        have e1 : p.1 = n := by simpa using (List.mem_filter.1 hp).2
        have e2 : q.1 = n := by simpa using (List.mem_filter.1 hq).2
        omega
      · have e1 : p.1 = n := by simpa using (List.mem_filter.1 h).2
        have e2 := (mem_levels hq).2
        exact ⟨by omega, fun _ _ _ e => by omega⟩
  exact this _

/-- Comparisons have both of their variables in a set of variables, or none. -/
def Closed (es : List SmartEntry) (vis : List VarId) : Prop := ∀ e ∈ es, ∀ x ∈ e.vars, ∀ y ∈ e.vars, x ∈ vis → y ∈ vis

theorem forest_ok (hp : ∀ e ∈ es, Proper e) (ha : Acyclic es) : ∀ (vs vis : List VarId), (∀ v ∈ vs, v ∈ es.flatMap SmartEntry.vars) → Closed es vis →
    ∃ ts, forest es vs vis = .ok ts ∧ (∀ t ∈ ts, Ordered t ∧ ∀ e ∈ t, e ∈ es) ∧ ∀ e ∈ es, ∀ v ∈ e.vars, v ∈ vs → v ∈ vis ∨ ∃ t ∈ ts, e ∈ t
  | [], vis, _, _ => ⟨[], rfl, fun _ h => (nomatch h), fun _ _ _ _ h => nomatch h⟩
  | v :: vs, vis, hv, hc => by
    by_cases h : v ∈ vis
    · obtain ⟨ts, h1, h2, h3⟩ := forest_ok hp ha vs vis (fun w hw => hv w (List.mem_cons_of_mem _ hw)) hc
      refine ⟨ts, by rw [forest, if_pos h]; exact h1, h2, fun e he w hw hwv => ?_⟩
      rcases List.mem_cons.1 hwv with rfl | hwv
      · exact .inl h
      · exact h3 e he w hw hwv
    · obtain ⟨b, dep, k1, k2, k3, k4, _⟩ := build_ok (vis := vis) (ρ := v) hp ((es.flatMap SmartEntry.vars).length + 1) v 0 ⟨[], vis⟩ (fun _ => 0) (hv v (by simp)) h (fun _ h => h) (Nat.lt_succ_of_le List.countP_le_length)
        ⟨fun _ h => (nomatch h), fun _ h => (nomatch h), fun _ h => (nomatch h), .nil, fun _ h => (nomatch h), fun w hw => (List.mem_cons.1 hw).elim (fun e => .inr (e ▸ .refl _)) .inl⟩ rfl (Nat.zero_le _)
      have hw := @mem_walk b.tree k2.height
      have hc' : Closed es b.visited := fun e he x hx y hy hxb => by
        rcases k3.done x hxb with h | h
        · exact k3.vis y (hc e he x hx y hy h)
        · exact (h e he hx).1 y hy
      have full : ∀ e ∈ es, ∀ w ∈ e.vars, w ∈ b.visited → w ∉ vis → e ∈ walk b.tree := by
        intro e he w hw' hwb hwv
        rw [hw]
        have hd := ((k3.done w hwb).resolve_left hwv) e he hw'
        by_cases h2 : e.vars.length = 2
        · refine Classical.byContradiction fun hn => ?_
          cases e with
          | value x v r => cases h2
          | set x vs m => cases h2
          | binary x y r =>
            obtain ⟨i, hi⟩ := List.getElem?_of_mem he
            refine ha i x y r hi ?_
            have lk : ∀ z ∈ (SmartEntry.binary x y r).vars, Linked (b.tree.map (·.2)) v z := fun z hz =>
              (k2.link z (hd.1 z hz)).resolve_left fun hzv => hwv (hc _ he z hz w hw' hzv)
            refine Linked.mono (fun x' y' r' hm => ?_) (Linked.trans (Linked.symm (lk x (by simp [SmartEntry.vars]))) (lk y (by simp [SmartEntry.vars])))
            obtain ⟨q, hq, hq'⟩ := List.mem_map.1 hm
            have hes := k2.old q hq
            obtain ⟨j, hj⟩ := List.getElem?_of_mem hes
            have hij : j ≠ i := fun e => hn (by rw [e, hi] at hj; exact List.mem_map.2 ⟨q, hq, (Option.some.inj hj).symm⟩)
            rw [← hq', List.mem_eraseIdx_iff_getElem?]
            exact ⟨j, hij, hj⟩
        · exact hd.2 h2
      obtain ⟨ts, h1, h2, h3⟩ := forest_ok hp ha vs b.visited (fun w hw => hv w (List.mem_cons_of_mem _ hw)) hc'
      refine ⟨walk b.tree :: ts, ?_, fun t ht => ?_, fun e he w hw' hwv => ?_⟩
      · rw [forest, if_neg h, k1]
        show (do return walk b.tree :: (← forest es vs b.visited)) = _
        rw [h1]; rfl
      · rcases List.mem_cons.1 ht with rfl | ht
        · refine ⟨walk_ordered hp k2, fun e he => ?_⟩
          obtain ⟨q, hq, rfl⟩ := List.mem_map.1 (hw.1 he)
          exact k2.old q hq
        · exact h2 t ht
      · by_cases hx : w ∈ vis
        · exact .inl hx
        · by_cases hxb : w ∈ b.visited
          · exact .inr ⟨_, List.mem_cons_self, full e he w hw' hxb hx⟩
          · rcases List.mem_cons.1 hwv with rfl | hwv
            · exact absurd k4 hxb
            · rcases h3 e he w hw' hwv with h | ⟨t, ht, he'⟩
              · exact absurd h hxb
              · exact .inr ⟨t, List.mem_cons_of_mem _ ht, he'⟩

end Gcs.SmartTable
