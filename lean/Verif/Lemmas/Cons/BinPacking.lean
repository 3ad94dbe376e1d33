import Verif.Model.Cons.BinPacking
import Verif.Lemmas.Cons.KnapsackInstall

namespace Gcs.BinPacking
open IntervalSet

/-- How much of the items is put in a bin. -/
def put (b : Int) (a : Asg) : List (VarId × Int) → Int
  | [] => 0
  | p :: ps => (if p.1.eval a = b then p.2 else 0) + put b a ps

/-- Items as they have to be. -/
def Fine (n : Nat) (ps : List (VarId × Int)) : Prop := ∀ p ∈ ps, p.1.Valid n ∧ InI64 p.2 ∧ 0 ≤ p.2

/-- What is to hold for a bin and its number. -/
def Holds (ps : List (VarId × Int)) (q : Cap × Nat) (a : Asg) : Prop :=
  match q.1 with
  | .inl t => t.eval a = put q.2 a ps
  | .inr c => put q.2 a ps ≤ c

section
variable {σ μ : Type} {d : Doms} {J : Job} {b : Int} {ps : List (VarId × Int)}

theorem put_nonneg {a : Asg} (h : ∀ p ∈ ps, 0 ≤ p.2) : 0 ≤ put b a ps := by
  induction ps with
  | nil => exact Int.le_refl _
  | cons p ps ih =>
    have := ih fun q hq => h q (List.mem_cons_of_mem _ hq)
    have := h p List.mem_cons_self
    rw [put]; split <;> omega

/-- What `scan` finds out. -/
structure Scanned (d : Doms) (b : Int) (known : Prop) (S : Asg → Int) (floor ceiling : Int) (still : List (VarId × Int)) : Prop where
  low : InI64 floor
  high : InI64 ceiling
  fine : Fine d.length still
  le : ∀ a, Within d a → floor ≤ S a ∧ S a ≤ ceiling
  exact : known → ∀ a, Within d a → floor = S a ∧ ceiling = S a
  into : ∀ a, Within d a → ∀ p ∈ still, p.1.eval a = b → floor + p.2 ≤ S a
  out : ∀ a, Within d a → ∀ p ∈ still, p.1.eval a ≠ b → S a + p.2 ≤ ceiling

theorem scan_roo {known : Prop} (hd : DomsOK d) (hb : InI64 b) : ∀ (ps : List (VarId × Int)) (S : Asg → Int) (floor ceiling : Int) (still : List (VarId × Int)), Fine d.length ps → (known → ∀ p ∈ ps, Known d p.1) →
    Scanned d b known S floor ceiling still → RightOrOverflow (scan d b ps floor ceiling still) (fun r => Scanned d b known (fun a => S a + put b a ps) r.1 r.2.1 r.2.2)
  | [], S, floor, ceiling, still, _, _, h => .inr ⟨_, rfl, by simpa [put] using h⟩
  | (x, s) :: ps, S, floor, ceiling, still, hf, hk, h => by
    obtain ⟨hx, hs, h0⟩ := hf (x, s) List.mem_cons_self
    have hf' : Fine d.length ps := fun p hp => hf p (List.mem_cons_of_mem _ hp)
    have hk' : known → ∀ p ∈ ps, Known d p.1 := fun k p hp => hk k p (List.mem_cons_of_mem _ hp)
    have go : ∀ (f c : Int) (st : List (VarId × Int)), Scanned d b known (fun a => S a + if x.eval a = b then s else 0) f c st →
        RightOrOverflow (scan d b ps f c st) (fun r => Scanned d b known (fun a => S a + put b a ((x, s) :: ps)) r.1 r.2.1 r.2.2) := fun f c st hsc => by
      have := scan_roo hd hb ps _ f c st hf' hk' hsc
      simp only [put]
      simpa only [Int.add_assoc] using this
    unfold scan
    refine (single_pin hd hx).bind fun v hv => ?_
    split
    · rename_i e
      have hp := ((hv b).1).1 e
      refine (add_roo h.low hs).bind fun f hf => (add_roo h.high hs).bind fun c hc => go f c still ?_
      have ev : ∀ a, Within d a → (if x.eval a = b then s else 0) = s := fun a ha => if_pos (hp a ha)
      refine ⟨hf.2, hc.2, h.fine, fun a ha => ?_, fun k a ha => ?_, fun a ha p hp' e => ?_, fun a ha p hp' e => ?_⟩
      · have := h.le a ha; rw [ev a ha, hf.1, hc.1]; omega
      · have := h.exact k a ha; rw [ev a ha, hf.1, hc.1]; omega
      · have := h.into a ha p hp' e; rw [ev a ha, hf.1]; omega
      · have := h.out a ha p hp' e; rw [ev a ha, hc.1]; omega
    · rename_i hne
      refine (inDomain_spec hd hx b hb).bind fun i hi => ?_
      split
      · rename_i ei
        refine (add_roo h.high hs).bind fun c hc => go floor c _ ?_
        refine ⟨h.low, hc.2, fun p hp => ?_, fun a ha => ?_, fun k => ?_, fun a ha p hp' e => ?_, fun a ha p hp' e => ?_⟩
        · rcases List.mem_append.1 hp with hp | hp
          · exact h.fine p hp
          · rw [List.mem_singleton.1 hp]; exact ⟨hx, hs, h0⟩
        · have := h.le a ha; rw [hc.1]; split <;> omega
        · exfalso
          obtain ⟨a, ha, e⟩ := hi.1 ei
          exact hne (((hv b).1).2 fun c hc => (hk k (x, s) List.mem_cons_self c a hc ha).trans e)
        · have h1 := h.le a ha
          rcases List.mem_append.1 hp' with hp' | hp'
          · have := h.into a ha p hp' e; split <;> omega
          · rw [List.mem_singleton.1 hp'] at e ⊢
            rw [if_pos e]; show floor + s ≤ _; omega
        · have h1 := h.le a ha
          rcases List.mem_append.1 hp' with hp' | hp'
          · have := h.out a ha p hp' e; rw [hc.1]; split <;> omega
          · rw [List.mem_singleton.1 hp'] at e ⊢
            rw [if_neg e, hc.1]; show _ + s ≤ _; omega
      · rename_i ei
        refine go floor ceiling still ?_
        have ev : ∀ a, Within d a → (if x.eval a = b then s else 0) = 0 := fun a ha => if_neg fun (e : x.eval a = b) => ei (hi.2 ⟨a, ha, e⟩)
        refine ⟨h.low, h.high, h.fine, fun a ha => ?_, fun k a ha => ?_, fun a ha p hp' e => ?_, fun a ha p hp' e => ?_⟩
        · have := h.le a ha; rw [ev a ha]; omega
        · have := h.exact k a ha; rw [ev a ha]; omega
        · have := h.into a ha p hp' e; rw [ev a ha]; omega
        · have := h.out a ha p hp' e; rw [ev a ha]; omega

theorem scan_start (hd : DomsOK d) (hb : InI64 b) (hf : Fine d.length ps) : RightOrOverflow (scan d b ps 0 0 []) (fun r => Scanned d b (∀ p ∈ ps, Known d p.1) (fun a => put b a ps) r.1 r.2.1 r.2.2) := by
  have := scan_roo (known := ∀ p ∈ ps, Known d p.1) hd hb ps (fun _ => 0) 0 0 [] hf id ⟨by decide, by decide, fun _ h => (nomatch h), fun _ _ => ⟨Int.le_refl _, Int.le_refl _⟩, fun _ _ _ => ⟨rfl, rfl⟩, fun _ _ _ h => (nomatch h), fun _ _ _ h => (nomatch h)⟩
  simpa only [Int.zero_add] using this

theorem ver_bounds2 {q : Cap × Nat} (ho : J.R .overflow) (hd : DomsOK d) (hl : d.length = J.n) (hf : Fine J.n ps) (hb : InI64 q.2) (hq : ∀ t, q.1 = .inl t → t.Valid J.n) (hC : ∀ a, J.C a → Holds ps q a) :
    (bounds2 ps q : Prog σ μ Unit).Ver J (fun _ => False) (fun _ d' => (∀ p ∈ ps, Known d p.1) → ∀ a, Within d' a → Holds ps q a) d := by
  obtain ⟨q1, b⟩ := q
  unfold bounds2
  refine ver_ask (f := fun d => scan d b ps 0 0 []) ho (scan_start hd hb (hl.symm ▸ hf)) fun r hr => ?_
  obtain ⟨floor, ceiling, still⟩ := r
  replace hr : Scanned d b (∀ p ∈ ps, Known d p.1) (fun a => put b a ps) floor ceiling still := hr
  have hst : Fine J.n still := hl ▸ hr.fine
  cases q1 with
  | inl t =>
    have ht : t.Valid J.n := hq t rfl
    have hC : ∀ a, J.C a → t.eval a = put b a ps := hC
    show (loadBounds t b floor ceiling still : Prog σ μ Unit).Ver J _ _ d
    unfold loadBounds
    refine ver_ask (f := fun d => lowerBound d t) ho (lower_roo hd (hl.symm ▸ ht)) fun lo hlo => ver_ask (f := fun d => upperBound d t) ho (upper_roo hd (hl.symm ▸ ht)) fun hi hhi => ?_
    refine ver_seq (S := fun _ => False) (Q' := fun _ d' => ∀ a, Within d' a → floor ≤ t.eval a) hd hl (fun _ h => h) (ver_onlyIf (fun _ => ver_tell_last (.ge ht hr.low) (fun a ha hc => ?_) fun d' _ _ h3 a ha => ((h3 a).1 ha).2) fun hn a ha => ?_) fun _ d1 h1 h2 h3 h4 => ?_
    · show floor ≤ t.eval a
      rw [hC a hc]; exact (hr.le a ha).1
    · have := hlo.2.le ha; omega
    refine ver_seq (S := fun _ => False) (Q' := fun _ d' => ∀ a, Within d' a → t.eval a ≤ ceiling) h1 h2 (fun _ h => h) (ver_onlyIf (fun _ => ?_) fun hn a ha => ?_) fun _ d2 k1 k2 k3 k4 => ?_
    · refine ver_lift ho (add_roo hr.high (by decide)) fun c hc => ver_tell_last (.lt ht hc.2) (fun a ha hcc => ?_) fun d' _ _ h3 a ha => ?_
      · show t.eval a < c
        have := (hr.le a (h3 a ha)).2
        rw [hC a hcc, hc.1]; omega
      · have : t.eval a < c := ((h3 a).1 ha).2
        omega
    · have := hhi.2.ge (h3 a ha); omega
    have hlo' : ∀ a, Within d a → J.C a → (if floor > lo then floor else lo) ≤ put b a ps := fun a ha hc => by
      have := hlo.2.le ha; have := (hr.le a ha).1; have := hC a hc; split <;> omega
    have hhi' : ∀ a, Within d a → J.C a → put b a ps ≤ (if ceiling < hi then ceiling else hi) := fun a ha hc => by
      have := hhi.2.ge ha; have := (hr.le a ha).2; have := hC a hc; split <;> omega
    generalize (if floor > lo then floor else lo) = L at hlo' ⊢
    generalize (if ceiling < hi then ceiling else hi) = H at hhi' ⊢
    refine ver_mono (fun _ d' hi hk a ha => ?_) _ _ (ver_forEach (fun rest d' => (∀ a, Within d' a → Within d2 a) ∧ ∀ p ∈ rest, p ∈ still) (fun p rest d' m1 m2 m3 => ?_) still d2 k1 k2 ⟨fun _ h => h, fun _ h => h⟩)
    · have h5 := k3 a (hi.1 a ha)
      have e := hr.exact hk a (h3 a h5)
      have := h4 a h5; have := k4 a (hi.1 a ha)
      show t.eval a = put b a ps
      omega
    · obtain ⟨hpx, hps, hp0⟩ := hst p (m3.2 p List.mem_cons_self)
      have sub : ∀ a, Within d' a → Within d a := fun a ha => h3 a (k3 a (m3.1 a ha))
      have rest' : ∀ p ∈ rest, p ∈ still := fun p' hp' => m3.2 p' (List.mem_cons_of_mem _ hp')
      unfold decideItem
      refine ver_lift ho (add_roo hr.low hps) fun f hf => ?_
      by_cases hgt : f > H
      · rw [if_pos hgt]
        refine ver_tell_last (.ne hpx hb) (fun a ha hc => ?_) fun d'' _ _ hb' => ⟨fun a ha => m3.1 a ((hb' a).1 ha).1, rest'⟩
        rw [Lit.holds_ne]
        intro e
        have := hr.into a (sub a ha) p (m3.2 p List.mem_cons_self) e
        have := hhi' a (sub a ha) hc
        omega
      · rw [if_neg hgt]
        refine ver_lift ho (sub_roo hr.high hps) fun c hc => ver_onlyIf (fun hlt => ?_) fun _ => ⟨m3.1, rest'⟩
        refine ver_tell_last (.eq hpx hb) (fun a ha hcc => ?_) fun d'' _ _ hb' => ⟨fun a ha => m3.1 a ((hb' a).1 ha).1, rest'⟩
        rw [Lit.holds_eq]
        refine Classical.byContradiction fun e => ?_
        have := hr.out a (sub a ha) p (m3.2 p List.mem_cons_self) e
        have := hlo' a (sub a ha) hcc
        omega
  | inr c =>
    have hC : ∀ a, J.C a → put b a ps ≤ c := hC
    show (limitBounds c b floor still : Prog σ μ Unit).Ver J _ _ d
    unfold limitBounds
    refine ver_seq (S := fun _ => False) (Q' := fun _ _ => floor ≤ c) hd hl (fun _ h => h) (ver_onlyIf (fun h a ha hc => ?_) fun hn => Int.not_lt.1 hn) fun _ d1 h1 h2 h3 h4 => ?_
    · have := hC a hc; have := (hr.le a ha).1; omega
    refine ver_mono (fun _ d' hi hk a ha => ?_) _ _ (ver_forEach (fun rest d' => (∀ a, Within d' a → Within d1 a) ∧ ∀ p ∈ rest, p ∈ still) (fun p rest d' m1 m2 m3 => ?_) still d1 h1 h2 ⟨fun _ h => h, fun _ h => h⟩)
    · have e := hr.exact hk a (h3 a (hi.1 a ha))
      show put b a ps ≤ c
      omega
    · obtain ⟨hpx, hps, hp0⟩ := hst p (m3.2 p List.mem_cons_self)
      have rest' : ∀ p ∈ rest, p ∈ still := fun p' hp' => m3.2 p' (List.mem_cons_of_mem _ hp')
      refine ver_lift ho (add_roo hr.low hps) fun f hf => ver_onlyIf (fun hgt => ?_) fun _ => ⟨m3.1, rest'⟩
      refine ver_tell_last (.ne hpx hb) (fun a ha hc => ?_) fun d'' _ _ hb' => ⟨fun a ha => m3.1 a ((hb' a).1 ha).1, rest'⟩
      rw [Lit.holds_ne]
      intro e
      have := hr.into a (h3 a (m3.1 a ha)) p (m3.2 p List.mem_cons_self) e
      have := hC a hc
      omega

theorem ver_stage2 {bins : List Cap} (ho : J.R .overflow) (hd : DomsOK d) (hl : d.length = J.n) (hf : Fine J.n ps) (hb : ∀ q ∈ bins.zipIdx, InI64 q.2) (hq : ∀ t, .inl t ∈ bins → t.Valid J.n) (hC : ∀ a, J.C a → ∀ q ∈ bins.zipIdx, Holds ps q a) :
    (stage2 ps bins : Prog σ μ Unit).Ver J (fun _ => False) (fun _ d' => (∀ p ∈ ps, Known d p.1) → ∀ a, Within d' a → ∀ q ∈ bins.zipIdx, Holds ps q a) d := by
  unfold stage2
  refine ver_mono (fun _ d' hi hk a ha q hm => ?_) _ _ (ver_forEach (fun rest d' => (∀ a, Within d' a → Within d a) ∧ (∀ q ∈ rest, q ∈ bins.zipIdx) ∧ ((∀ p ∈ ps, Known d p.1) → ∀ a, Within d' a → ∀ q ∈ bins.zipIdx, q ∈ rest ∨ Holds ps q a)) (fun q rest d' m1 m2 m3 => ?_) bins.zipIdx d hd hl ⟨fun _ h => h, fun _ h => h, fun _ _ _ q hm => .inl hm⟩)
  · exact (hi.2.2 hk a ha q hm).resolve_left (fun h => nomatch h)
  · have hm := m3.2.1 q List.mem_cons_self
    refine ver_mono (fun _ d'' hq' => ⟨fun a ha => m3.1 a (hq'.1.2.2 a ha), fun r hr => m3.2.1 r (List.mem_cons_of_mem _ hr), fun hk a ha r hr => ?_⟩) _ _ (ver_facts _ d' m1 m2 (ver_bounds2 ho m1 m2 hf (hb q hm) (fun t e => hq t ?_) fun a hc => hC a hc q hm))
    · rw [← e]
      obtain ⟨c, i⟩ := q
      exact (List.mem_zipIdx hm).2.2 ▸ List.getElem_mem _
    · rcases m3.2.2 hk a (hq'.1.2.2 a ha) r hr with h | h
      · rcases List.mem_cons.1 h with rfl | h
        · exact .inr (hq'.2 (fun p hp a b ha hb => hk p hp a b (m3.1 a ha) (m3.1 b hb)) a ha)
        · exact .inl h
      · exact .inr h

end
end Gcs.BinPacking
