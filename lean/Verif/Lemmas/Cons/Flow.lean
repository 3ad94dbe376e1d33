import Verif.Model.Cons.Flow
import Verif.Lemmas.Cons.Matching

/-!
# Maximum flows
-/

namespace Gcs.Flow
open Gac (put put_same put_ne)

abbrev Edge.shape (e : Edge) : Nat × Nat × Int := (e.src, e.dst, e.cap)

/-- What flows into a vertex, less what flows out of it. -/
def net (g : List Edge) (v : Nat) : Int := (g.map fun e => (if e.dst = v then e.flow else 0) - (if e.src = v then e.flow else 0)).sum

def Bounded (g : List Edge) : Prop := ∀ e ∈ g, 0 ≤ e.flow ∧ e.flow ≤ e.cap

theorem mem_arcsFrom {u : Nat} {a : Arc} : ∀ {g : List Edge} {k : Nat}, a ∈ arcsFrom u k g ↔
    ∃ i e, a.edge = k + i ∧ g[i]? = some e ∧ (a.forward = true ∧ e.src = u ∧ a.dst = e.dst ∨ a.forward = false ∧ e.dst = u ∧ a.dst = e.src)
  | [], k => by simp [arcsFrom]
  | e :: g, k => by
    simp only [arcsFrom, List.mem_append, mem_arcsFrom (g := g) (k := k + 1)]
    constructor
    · rintro (h | h | ⟨i, e', h1, h2, h3⟩)
      · split at h
        · rename_i hs
          rw [List.mem_singleton.1 h]; exact ⟨0, e, rfl, rfl, .inl ⟨rfl, hs, rfl⟩⟩
        · cases h
      · split at h
        · rename_i hs
          rw [List.mem_singleton.1 h]; exact ⟨0, e, rfl, rfl, .inr ⟨rfl, hs, rfl⟩⟩
        · cases h
      · exact ⟨i + 1, e', by omega, by simpa using h2, h3⟩
    · rintro ⟨i, e', h1, h2, h3⟩
      cases i with
      | zero =>
        cases h2
        rcases h3 with ⟨f1, f2, f3⟩ | ⟨f1, f2, f3⟩
        · left; rw [if_pos f2]; obtain ⟨x, y, z⟩ := a; simp_all
        · right; left; rw [if_pos f2]; obtain ⟨x, y, z⟩ := a; simp_all
      | succ i => exact .inr (.inr ⟨i, e', by omega, by simpa using h2, h3⟩)

theorem mem_arcs {g : List Edge} {u : Nat} {a : Arc} : a ∈ arcs g u ↔ ∃ e, g[a.edge]? = some e ∧ (a.forward = true ∧ e.src = u ∧ a.dst = e.dst ∨ a.forward = false ∧ e.dst = u ∧ a.dst = e.src) := by
  rw [arcs, mem_arcsFrom]
  constructor
  · rintro ⟨i, e, h1, h2, h3⟩
    exact ⟨e, by rw [h1, Nat.zero_add]; exact h2, h3⟩
  · rintro ⟨e, h1, h2⟩
    exact ⟨a.edge, e, by omega, h1, h2⟩

theorem arcsFrom_congr {u : Nat} : ∀ {g g' : List Edge} (k : Nat), g.map Edge.shape = g'.map Edge.shape → arcsFrom u k g = arcsFrom u k g'
  | [], [], _, _ => rfl
  | [], _ :: _, _, h => by simp at h
  | _ :: _, [], _, h => by simp at h
  | e :: g, e' :: g', k, h => by
    simp only [List.map_cons, List.cons.injEq, Prod.mk.injEq] at h
    simp only [arcsFrom]
    rw [arcsFrom_congr (k + 1) h.2, h.1.1, h.1.2.1]

theorem arcs_congr {g g' : List Edge} (h : g.map Edge.shape = g'.map Edge.shape) (u : Nat) : arcs g u = arcs g' u := arcsFrom_congr 0 h

theorem shape_push (g : List Edge) (a : Arc) (d : Int) : (push g a d).map Edge.shape = g.map Edge.shape := by
  unfold push
  generalize a.edge = k
  induction g generalizing k with
  | nil => simp
  | cons e g ih =>
    cases k with
    | zero => simp [List.modify_cons]
    | succ k => simp only [List.modify_succ_cons, List.map_cons, ih k]

theorem net_modify {f : Edge → Edge} {v : Nat} {c : Int} : ∀ {g : List Edge} {k : Nat} {e : Edge}, g[k]? = some e →
    ((if (f e).dst = v then (f e).flow else 0) - (if (f e).src = v then (f e).flow else 0)) = ((if e.dst = v then e.flow else 0) - (if e.src = v then e.flow else 0)) + c → net (g.modify k f) v = net g v + c
  | [], _, _, h, _ => by simp at h
  | x :: g, 0, e, h, hc => by
    cases h
    unfold net
    rw [List.modify_zero_cons, List.map_cons, List.map_cons, List.sum_cons, List.sum_cons, hc]; omega
  | x :: g, k + 1, e, h, hc => by
    have := net_modify (g := g) (k := k) (e := e) (by simpa using h) hc
    unfold net at this ⊢
    rw [List.modify_succ_cons, List.map_cons, List.map_cons, List.sum_cons, List.sum_cons, this]; omega

theorem net_push {g : List Edge} {u v : Nat} {a : Arc} {d : Int} (ha : a ∈ arcs g u) : net (push g a d) v = net g v + ((if v = a.dst then d else 0) - (if v = u then d else 0)) := by
  obtain ⟨e, h1, h2⟩ := mem_arcs.1 ha
  unfold push
  refine net_modify h1 ?_
  dsimp only
  rcases h2 with ⟨f1, f2, f3⟩ | ⟨f1, f2, f3⟩
  · rw [f1, f3, ← f2]
    simp only [↓reduceIte]
    by_cases h : e.dst = v <;> by_cases h' : e.src = v <;> simp only [h, h', eq_comm (a := v), ↓reduceIte] <;> omega
  · rw [f1, f3, ← f2]
    simp only [Bool.false_eq_true, ↓reduceIte]
    by_cases h : e.dst = v <;> by_cases h' : e.src = v <;> simp only [h, h', eq_comm (a := v), ↓reduceIte] <;> omega

theorem getElem?_push (g : List Edge) (a : Arc) (d : Int) (k : Nat) :
    (push g a d)[k]? = if k = a.edge then (g[k]?).map (fun e => { e with flow := if a.forward then e.flow + d else e.flow - d }) else g[k]? := by
  unfold push
  rw [List.getElem?_modify]
  by_cases h : a.edge = k
  · rw [if_pos h.symm]; simp [h]
  · rw [if_neg (Ne.symm h)]; simp [h]

theorem bounded_push {g : List Edge} {a : Arc} {d : Int} (h : Bounded g) (h0 : 0 ≤ d) (h1 : d ≤ left g a) : Bounded (push g a d) := by
  intro e he
  obtain ⟨k, hk⟩ := List.getElem?_of_mem he
  rw [getElem?_push] at hk
  split at hk
  · rename_i e1
    obtain ⟨x, hx, rfl⟩ := Option.map_eq_some_iff.1 hk
    have hb := h x (List.mem_of_getElem? hx)
    unfold left at h1
    rw [← e1, hx] at h1
    dsimp only at h1 ⊢
    split <;> rename_i hf
    · rw [if_pos hf] at h1; omega
    · rw [if_neg hf] at h1; omega
  · exact h e (List.mem_of_getElem? hk)

/-- A way to `t` with ever higher levels. -/
inductive Path (g : List Edge) (lv : Nat → Int) (t : Nat) : Nat → Prop
  | here : Path g lv t t
  | step {u : Nat} {a : Arc} : a ∈ arcs g u → 0 < left g a → lv u < lv a.dst → Path g lv t a.dst → Path g lv t u

/-- The arcs that have been tried lead nowhere. -/
def Tried (g : List Edge) (lv : Nat → Int) (t : Nat) (it : Nat → Nat) : Prop := ∀ u, ∀ a ∈ (arcs g u).take (it u), 0 < left g a → lv u < lv a.dst → ¬ Path g lv t a.dst

structure Pushed (lv : Nat → Int) (t u : Nat) (g g' : List Edge) (d : Int) : Prop where
  same : g'.map Edge.shape = g.map Edge.shape
  bounded : Bounded g'
  net : ∀ v, net g' v = net g v + ((if v = t then d else 0) - (if v = u then d else 0))
  above : ∀ (k : Nat) e, g[k]? = some e → lv e.src < lv u ∨ lv e.dst < lv u → g'[k]? = some e

/-- What a call of `dfs` does. -/
structure Dfs (lv : Nat → Int) (t u : Nat) (f : Int) (g : List Edge) (it : Nat → Nat) (d : Int) (g' : List Edge) (it' : Nat → Nat) : Prop where
  nonneg : 0 ≤ d
  most : d ≤ f
  pushed : Pushed lv t u g g' d
  iter : ∀ w, lv w < lv u → it' w = it w
  none : d = 0 → g' = g ∧ (Tried g lv t it → Tried g lv t it' ∧ ¬ Path g lv t u)

theorem pushed_refl {lv : Nat → Int} {t u : Nat} {g : List Edge} (h : Bounded g) : Pushed lv t u g g 0 := ⟨rfl, h, fun v => by simp, fun _ _ h _ => h⟩

theorem tried_step {g : List Edge} {lv : Nat → Int} {t u : Nat} {it : Nat → Nat} {a : Arc} {as : List Arc} (h : Tried g lv t it) (hd : (arcs g u).drop (it u) = a :: as) (ha : 0 < left g a → lv u < lv a.dst → ¬ Path g lv t a.dst) :
    Tried g lv t (put it u (it u + 1)) := by
  intro w b hb h1 h2
  by_cases e : w = u
  · subst e
    rw [put_same] at hb
    have hg : (arcs g w)[it w]? = some a := by rw [← List.head?_drop, hd]; rfl
    rw [List.take_add_one, hg] at hb
    rcases List.mem_append.1 hb with hb | hb
    · exact h w b hb h1 h2
    · have : b = a := by simpa using hb
      rw [this] at h1 h2 ⊢; exact ha h1 h2
  · rw [put_ne _ _ e] at hb
    exact h w b hb h1 h2

theorem tryArcs_spec {lv : Nat → Int} {t u : Nat} {f : Int} {again : Nat → Int → List Edge → (Nat → Nat) → Chk (Int × List Edge × (Nat → Nat))} (hu : u ≠ t) (hf : 0 < f)
    (hr : ∀ w f g it, lv u < lv w → 0 < f → Bounded g → ∃ d g' it', again w f g it = .ok (d, g', it') ∧ Dfs lv t w f g it d g' it') :
    ∀ (as : List Arc) (g : List Edge) (it : Nat → Nat), Bounded g → (arcs g u).drop (it u) = as → ∃ d g' it', tryArcs again lv u f as g it = .ok (d, g', it') ∧ Dfs lv t u f g it d g' it'
  | [], g, it, hb, hd => by
    refine ⟨0, g, it, rfl, Int.le_refl _, Int.le_of_lt hf, pushed_refl hb, fun _ _ => rfl, fun _ => ⟨rfl, fun ht => ⟨ht, fun hp => ?_⟩⟩⟩
    cases hp with
    | here => exact hu rfl
    | step ha h1 h2 hp =>
      refine ht u _ ?_ h1 h2 hp
      rw [List.take_of_length_le (List.drop_eq_nil_iff.1 hd)]; exact ha
  | a :: as, g, it, hb, hd => by
    have hda : (arcs g u).drop (it u + 1) = as := by rw [← List.tail_drop, hd]; rfl
    have ham : a ∈ arcs g u := List.mem_of_mem_drop (by rw [hd]; simp)
    have next : ∀ it1 : Nat → Nat, it1 u = it u → (∀ w, lv w < lv u → it1 w = it w) → (Tried g lv t it → Tried g lv t (put it1 u (it1 u + 1))) →
        ∃ d g' it', tryArcs again lv u f as g (put it1 u (it1 u + 1)) = .ok (d, g', it') ∧ Dfs lv t u f g it d g' it' := by
      intro it1 h1 h2 h3
      obtain ⟨d, g', it', r, h⟩ := tryArcs_spec hu hf hr as g (put it1 u (it1 u + 1)) hb (by rw [put_same, h1]; exact hda)
      refine ⟨d, g', it', r, h.nonneg, h.most, h.pushed, fun w hw => ?_, fun h0 => ⟨(h.none h0).1, fun ht => (h.none h0).2 (h3 ht)⟩⟩
      rw [h.iter w hw, put_ne _ _ (fun e => by rw [e] at hw; omega), h2 w hw]
    rw [tryArcs]
    by_cases hc : left g a > 0 ∧ lv u < lv a.dst
    · rw [if_pos hc]
      obtain ⟨d, g1, it1, r, h⟩ := hr a.dst (min f (left g a)) g it hc.2 (by omega) hb
      rw [r]
      simp only [bind, Except.bind]
      have hm := h.most
      have hn := h.nonneg
      by_cases h0 : d > 0
      · rw [if_pos h0]
        obtain ⟨e, h1, h2⟩ := mem_arcs.1 ham
        have he : lv e.src < lv a.dst ∨ lv e.dst < lv a.dst := by
          rcases h2 with ⟨_, f2, f3⟩ | ⟨_, f2, f3⟩
          · left; rw [f2]; exact hc.2
          · right; rw [f2]; exact hc.2
        have hk := h.pushed.above _ e h1 he
        have hl : left g1 a = left g a := by unfold left; rw [hk, h1]
        have ham1 : a ∈ arcs g1 u := by rw [arcs_congr h.pushed.same]; exact ham
        refine ⟨d, _, it1, rfl, hn, by omega, ⟨(shape_push _ _ _).trans h.pushed.same, bounded_push h.pushed.bounded hn (by omega), fun v => ?_, fun k e' hk' hlt => ?_⟩, fun w hw => h.iter w (by omega), fun h' => by omega⟩
        · rw [net_push ham1, h.pushed.net v]
          omega
        · rw [getElem?_push, if_neg, h.pushed.above k e' hk' (by omega)]
          rintro rfl
          rw [h1] at hk'; cases hk'
          rcases h2 with ⟨_, f2, f3⟩ | ⟨_, f2, f3⟩
          · rw [f2, ← f3] at hlt; omega
          · rw [f2, ← f3] at hlt; omega
      · rw [if_neg h0]
        obtain ⟨hg, hT⟩ := h.none (by omega)
        rw [hg]
        refine next it1 (h.iter u hc.2) (fun w hw => h.iter w (by omega)) fun ht => ?_
        exact tried_step (hT ht).1 (by rw [h.iter u hc.2]; exact hd) fun _ _ => (hT ht).2
    · rw [if_neg hc]
      exact next it rfl (fun _ _ => rfl) fun ht => tried_step ht hd fun h1 h2 => absurd ⟨h1, h2⟩ hc

theorem dfs_spec {lv : Nat → Int} {t n : Nat} (hlv : ∀ v, lv v < n) : ∀ (fuel u : Nat) (f : Int) (g : List Edge) (it : Nat → Nat), (n : Int) - lv u ≤ fuel → 0 < f → Bounded g →
    ∃ d g' it', dfs lv t fuel u f g it = .ok (d, g', it') ∧ Dfs lv t u f g it d g' it'
  | 0, u, _, _, _, hn, _, _ => by have := hlv u; omega
  | fuel + 1, u, f, g, it, hn, hf, hb => by
    rw [dfs]
    by_cases h : u = t
    · rw [if_pos h]
      subst h
      exact ⟨f, g, it, rfl, Int.le_of_lt hf, Int.le_refl _, ⟨rfl, hb, fun v => by omega, fun _ _ h _ => h⟩, fun _ _ => rfl, fun h => by omega⟩
    · rw [if_neg h]
      exact tryArcs_spec h hf (fun w f g it hw hf hb => dfs_spec hlv fuel w f g it (by omega) hf hb) _ g it hb rfl

/-! ## Levels -/

/-- The number of vertices that have a level. -/
def vis : Nat → (Nat → Int) → Nat
  | 0, _ => 0
  | n + 1, lv => vis n lv + if 0 ≤ lv n then 1 else 0

theorem vis_le (lv : Nat → Int) : ∀ n, vis n lv ≤ n
  | 0 => Nat.le_refl _
  | n + 1 => by have := vis_le lv n; rw [vis]; split <;> omega

theorem vis_put {lv : Nat → Int} {w : Nat} {x : Int} (hx : 0 ≤ x) (hw : lv w < 0) : ∀ n, vis n (put lv w x) = vis n lv + if w < n then 1 else 0
  | 0 => by simp [vis]
  | n + 1 => by
    rw [vis, vis, vis_put hx hw n]
    by_cases e : n = w
    · subst e
      rw [put_same, if_pos hx, if_neg (by omega), if_neg (by omega), if_pos (by omega)]
    · rw [put_ne _ _ e]
      by_cases h : w < n
      · rw [if_pos h, if_pos (show w < n + 1 by omega)]; omega
      · rw [if_neg h, if_neg (show ¬ w < n + 1 by omega)]; omega

def InRange (n : Nat) (g : List Edge) : Prop := ∀ e ∈ g, e.src < n ∧ e.dst < n

theorem arc_range {n : Nat} {g : List Edge} (h : InRange n g) {u : Nat} {a : Arc} (ha : a ∈ arcs g u) : a.dst < n := by
  obtain ⟨e, h1, h2⟩ := mem_arcs.1 ha
  have := h e (List.mem_of_getElem? h1)
  rcases h2 with ⟨_, _, f3⟩ | ⟨_, _, f3⟩ <;> omega

/-- While levels are given: all arcs of those with a level are done, but for those in the queue. -/
structure Lev (n s : Nat) (g : List Edge) (lv : Nat → Int) (q : List Nat) (done : Nat → Arc → Prop) : Prop where
  start : lv s = 0
  few : ∀ v, lv v < vis n lv
  queue : ∀ v ∈ q, 0 ≤ lv v
  pred : ∀ v, 0 ≤ lv v → v = s ∨ ∃ u a, a ∈ arcs g u ∧ a.dst = v ∧ 0 < left g a ∧ 0 ≤ lv u ∧ lv u < lv v
  closed : ∀ u a, 0 ≤ lv u → a ∈ arcs g u → 0 < left g a → u ∈ q ∨ done u a ∨ 0 ≤ lv a.dst

theorem reach_spec {n s : Nat} {g : List Edge} (hg : InRange n g) {u : Nat} : ∀ (as : List Arc) (lv : Nat → Int) (q : List Nat), (∀ a ∈ as, a ∈ arcs g u) → 0 ≤ lv u → Lev n s g lv q (fun w a => w = u ∧ a ∈ as) →
    Lev n s g (reach g u as lv q).1 (reach g u as lv q).2 (fun _ _ => False) ∧ (reach g u as lv q).2.length + (n - vis n (reach g u as lv q).1) ≤ q.length + (n - vis n lv)
  | [], lv, q, _, _, h => ⟨⟨h.start, h.few, h.queue, h.pred, fun w a h1 h2 h3 => (h.closed w a h1 h2 h3).imp id (Or.imp (fun h => nomatch h.2) id)⟩, Nat.le_refl _⟩
  | a :: as, lv, q, ha, hu, h => by
    rw [reach]
    have ham := ha a (by simp)
    by_cases hc : left g a > 0 ∧ lv a.dst < 0
    · rw [if_pos hc]
      have hv := vis_put (x := lv u + 1) (by omega) hc.2 n
      rw [if_pos (arc_range hg ham)] at hv
      have hvn := vis_le (put lv a.dst (lv u + 1)) n
      have hle : ∀ w, 0 ≤ lv w → put lv a.dst (lv u + 1) w = lv w := fun w hw => put_ne _ _ fun e => by rw [e] at hw; omega
      have := reach_spec (n := n) (s := s) hg as (put lv a.dst (lv u + 1)) (q ++ [a.dst]) (fun b hb => ha b (by simp [hb])) (by rw [hle u hu]; exact hu) ⟨?_, fun v => ?_, fun v hv => ?_, fun v hv => ?_, fun w b h1 h2 h3 => ?_⟩
      · refine ⟨this.1, Nat.le_trans this.2 ?_⟩
        simp only [List.length_append, List.length_singleton]
        omega
      · rw [hle s (by rw [h.start]; omega)]; exact h.start
      · by_cases e : v = a.dst
        · rw [e, put_same, hv]; have := h.few u; omega
        · rw [put_ne _ _ e, hv]; have := h.few v; omega
      · rcases List.mem_append.1 hv with hv | hv
        · rw [hle v (h.queue v hv)]; exact h.queue v hv
        · rw [List.mem_singleton.1 hv, put_same]; omega
      · by_cases e : v = a.dst
        · exact .inr ⟨u, a, ham, e.symm, hc.1, by rw [hle u hu]; exact hu, by rw [hle u hu, e, put_same]; omega⟩
        · rw [put_ne _ _ e] at hv
          rcases h.pred v hv with h' | ⟨w, b, b1, b2, b3, b4, b5⟩
          · exact .inl h'
          · exact .inr ⟨w, b, b1, b2, b3, by rw [hle w b4]; exact b4, by rw [hle w b4, hle v hv]; exact b5⟩
      · by_cases e : w = a.dst
        · exact .inl (by rw [e]; simp)
        · rw [put_ne _ _ e] at h1
          rcases h.closed w b h1 h2 h3 with h' | ⟨h', h''⟩ | h'
          · exact .inl (List.mem_append_left _ h')
          · rcases List.mem_cons.1 h'' with e' | h''
            · rw [e', put_same]; exact .inr (.inr (by omega))
            · exact .inr (.inl ⟨h', h''⟩)
          · rw [hle _ h']; exact .inr (.inr h')
    · rw [if_neg hc]
      refine reach_spec hg as lv q (fun b hb => ha b (by simp [hb])) hu ⟨h.start, h.few, h.queue, h.pred, fun w b h1 h2 h3 => ?_⟩
      rcases h.closed w b h1 h2 h3 with h' | ⟨h', h''⟩ | h'
      · exact .inl h'
      · rcases List.mem_cons.1 h'' with e | h''
        · rw [e] at h3 ⊢; exact .inr (.inr (by omega))
        · exact .inr (.inl ⟨h', h''⟩)
      · exact .inr (.inr h')

theorem levels_spec {n s : Nat} {g : List Edge} (hg : InRange n g) : ∀ (fuel : Nat) (q : List Nat) (lv : Nat → Int), q.length + (n - vis n lv) < fuel → Lev n s g lv q (fun _ _ => False) →
    ∃ lv', levels g fuel q lv = .ok lv' ∧ Lev n s g lv' [] (fun _ _ => False)
  | 0, _, _, hf, _ => by omega
  | fuel + 1, [], lv, _, h => ⟨lv, rfl, h⟩
  | fuel + 1, u :: q, lv, hf, h => by
    rw [levels]
    have := reach_spec hg (arcs g u) lv q (fun _ h => h) (h.queue u (by simp)) ⟨h.start, h.few, fun v hv => h.queue v (by simp [hv]), h.pred, fun w a h1 h2 h3 => ?_⟩
    · refine levels_spec hg fuel _ _ ?_ this.1
      simp only [List.length_cons] at hf
      omega
    · rcases h.closed w a h1 h2 h3 with h' | h' | h'
      · rcases List.mem_cons.1 h' with e | h'
        · exact .inr (.inl ⟨e, by rw [← e]; exact h2⟩)
        · exact .inl h'
      · exact h'.elim
      · exact .inr (.inr h')

theorem vis_empty : ∀ n, vis n (fun _ => -1) = 0
  | 0 => rfl
  | n + 1 => by rw [vis, vis_empty n]; decide

theorem bfs_spec {n s : Nat} {g : List Edge} (hg : InRange n g) (hs : s < n) : ∃ lv, bfs n g s = .ok lv ∧ lv s = 0 ∧ (∀ v, lv v < n) ∧ (∀ u a, 0 ≤ lv u → a ∈ arcs g u → 0 < left g a → 0 ≤ lv a.dst) ∧
    ∀ t, 0 ≤ lv t → Path g lv t s := by
  have h1 : vis n (put (fun _ => -1) s 0) = 1 := by rw [vis_put (by omega) (by omega), vis_empty, if_pos hs]
  have hL : Lev n s g (put (fun _ => -1) s 0) [s] (fun _ _ => False) := by
    refine ⟨put_same _ _ _, fun v => ?_, fun v hv => ?_, fun v hv => ?_, fun u a hu ha _ => ?_⟩
    · rw [h1]
      by_cases e : v = s
      · rw [e, put_same]; decide
      · rw [put_ne _ _ e]; decide
    · rw [List.mem_singleton.1 hv, put_same]; exact Int.le_refl _
    · by_cases e : v = s
      · exact .inl e
      · rw [put_ne _ _ e] at hv; omega
    · by_cases e : u = s
      · exact .inl (by simp [e])
      · rw [put_ne _ _ e] at hu; omega
  obtain ⟨lv, h, hl⟩ := levels_spec (s := s) hg (n + 1) [s] (put (fun _ => -1) s 0) (by simp only [h1, List.length_singleton]; omega) hL
  refine ⟨lv, h, hl.start, fun v => ?_, fun u a h1 h2 h3 => (hl.closed u a h1 h2 h3).elim (fun h => nomatch h) fun h => h.elim False.elim id, fun t ht => ?_⟩
  · have := hl.few v; have := vis_le lv n; omega
  · have key : ∀ (k : Nat) v, (lv v).toNat ≤ k → 0 ≤ lv v → Path g lv t v → Path g lv t s := by
      intro k
      induction k with
      | zero =>
        intro v hk hv hp
        rcases hl.pred v hv with rfl | ⟨u, a, b1, b2, b3, b4, b5⟩
        · exact hp
        · omega
      | succ k ih =>
        intro v hk hv hp
        rcases hl.pred v hv with rfl | ⟨u, a, b1, b2, b3, b4, b5⟩
        · exact hp
        · exact ih u (by omega) b4 (.step b1 b3 (by rw [b2]; exact b5) (by rw [b2]; exact hp))
    exact key _ t (Nat.le_refl _) ht .here

/-! ## Maximum flow -/

/-- A flow from `s` to `t`, of the size `flow`. -/
structure IsFlow (s t : Nat) (g0 g : List Edge) (flow : Int) : Prop where
  same : g.map Edge.shape = g0.map Edge.shape
  bounded : Bounded g
  even : ∀ v, v ≠ s → v ≠ t → net g v = 0
  size : net g t = flow
  nonneg : 0 ≤ flow

theorem total_congr {g g' : List Edge} (h : g.map Edge.shape = g'.map Edge.shape) : total g = total g' := by
  have e : ∀ l : List Edge, total l = ((l.map Edge.shape).map fun s => s.2.2.toNat).sum := fun l => by rw [total, List.map_map]; rfl
  rw [e, e, h]

theorem net_total {g : List Edge} (h : Bounded g) (t : Nat) : net g t ≤ total g := by
  unfold net total
  induction g with
  | nil => simp
  | cons e g ih =>
    have := ih fun e he => h e (by simp [he])
    have := h e (by simp)
    simp only [List.map_cons, List.sum_cons]
    split <;> split <;> omega

theorem IsFlow.le_total {s t : Nat} {g0 g : List Edge} {flow : Int} (h : IsFlow s t g0 g flow) : flow ≤ total g0 := by
  rw [← total_congr h.same, ← h.size]; exact net_total h.bounded t

theorem IsFlow.pushed {s t : Nat} {g0 g g' : List Edge} {flow d : Int} {lv : Nat → Int} (h : IsFlow s t g0 g flow) (hst : s ≠ t) (hd : 0 ≤ d) (hp : Pushed lv t s g g' d) : IsFlow s t g0 g' (flow + d) := by
  refine ⟨hp.same.trans h.same, hp.bounded, fun v h1 h2 => ?_, ?_, by have := h.nonneg; omega⟩
  · rw [hp.net v, h.even v h1 h2, if_neg h2, if_neg h1]; rfl
  · rw [hp.net t, h.size, if_pos rfl, if_neg (Ne.symm hst)]; omega

theorem augment_spec {n s t : Nat} {lv : Nat → Int} {g0 : List Edge} (hst : s ≠ t) (hlv : ∀ v, lv v < n) (h0 : lv s = 0) : ∀ (fuel : Nat) (flow : Int) (g : List Edge) (it : Nat → Nat), IsFlow s t g0 g flow → (total g0 : Int) - flow < fuel →
    ∃ flow' g', augment n lv s t fuel flow g it = .ok (flow', g') ∧ IsFlow s t g0 g' flow' ∧ flow ≤ flow' ∧ (Tried g lv t it → Path g lv t s → flow < flow')
  | 0, flow, g, it, h, hf => by have := h.le_total; omega
  | fuel + 1, flow, g, it, h, hf => by
    obtain ⟨d, g1, it1, r, hd⟩ := dfs_spec hlv (n + 1) s 9223372036854775807 g it (by omega) (by decide) h.bounded
    rw [augment, r]
    simp only [bind, Except.bind]
    have hn := hd.nonneg
    have hfl := h.pushed hst hn hd.pushed
    by_cases e : d = 0
    · rw [if_pos e]
      subst e
      rw [Int.add_zero] at hfl
      exact ⟨flow, g1, rfl, hfl, Int.le_refl _, fun ht hp => absurd hp ((hd.none rfl).2 ht).2⟩
    · rw [if_neg e]
      obtain ⟨flow', g', r', h1, h2, _⟩ := augment_spec hst hlv h0 fuel (flow + d) g1 it1 hfl (by omega)
      exact ⟨flow', g', r', h1, by omega, fun _ _ => by omega⟩

theorem inRange_congr {n : Nat} {g g' : List Edge} (h : g.map Edge.shape = g'.map Edge.shape) (hg : InRange n g') : InRange n g := by
  intro e he
  have : e.shape ∈ g'.map Edge.shape := h ▸ List.mem_map.2 ⟨e, he, rfl⟩
  obtain ⟨e', he', hs⟩ := List.mem_map.1 this
  have := hg e' he'
  simp only [Edge.shape, Prod.mk.injEq] at hs
  omega

/-- A set of vertices with `s` and without `t` out of which nothing more can flow. -/
def Closed (s t : Nat) (g : List Edge) : Prop := ∃ Q : Nat → Prop, Q s ∧ ¬ Q t ∧ ∀ u a, Q u → a ∈ arcs g u → 0 < left g a → Q a.dst

theorem phases_spec {n s t : Nat} {g0 : List Edge} (hst : s ≠ t) (hs : s < n) (hg : InRange n g0) : ∀ (fuel : Nat) (flow : Int) (g : List Edge), IsFlow s t g0 g flow → (total g0 : Int) - flow < fuel →
    ∃ flow' g', phases n s t fuel flow g = .ok (flow', g') ∧ IsFlow s t g0 g' flow' ∧ Closed s t g'
  | 0, flow, g, h, hf => by have := h.le_total; omega
  | fuel + 1, flow, g, h, hf => by
    obtain ⟨lv, r, h0, hlv, hcl, hp⟩ := bfs_spec (inRange_congr h.same hg) hs
    rw [phases, r]
    simp only [bind, Except.bind]
    by_cases ht : lv t ≥ 0
    · rw [if_pos ht]
      obtain ⟨flow1, g1, r1, h1, h2, h3⟩ := augment_spec hst hlv h0 (total g + 1) flow g (fun _ => 0) h (by rw [total_congr h.same]; have := h.nonneg; omega)
      rw [r1]
      have := h3 (fun u a ha => by simp at ha) (hp t ht)
      exact phases_spec hst hs hg fuel flow1 g1 h1 (by omega)
    · rw [if_neg ht]
      exact ⟨flow, g, rfl, h, fun v => 0 ≤ lv v, by omega, ht, fun u a h1 h2 h3 => hcl u a h1 h2 h3⟩

theorem net_zero {g : List Edge} (h : ∀ e ∈ g, e.flow = 0) (v : Nat) : net g v = 0 := by
  unfold net
  induction g with
  | nil => rfl
  | cons e g ih =>
    simp only [List.map_cons, List.sum_cons, h e (by simp), ih fun e he => h e (by simp [he])]
    split <;> split <;> rfl

/-- `max_flow` ends, with a flow that cannot be increased. -/
theorem maxFlow_spec {n s t : Nat} {g : List Edge} (hst : s ≠ t) (hs : s < n) (hg : InRange n g) (h0 : ∀ e ∈ g, e.flow = 0 ∧ 0 ≤ e.cap) : ∃ flow g', maxFlow n s t g = .ok (flow, g') ∧ IsFlow s t g g' flow ∧ Closed s t g' :=
  phases_spec hst hs hg (total g + 1) 0 g ⟨rfl, fun e he => by have := h0 e he; omega, fun v _ _ => net_zero (fun e he => (h0 e he).1) v, net_zero (fun e he => (h0 e he).1) t, Int.le_refl _⟩ (by omega)

end Gcs.Flow
