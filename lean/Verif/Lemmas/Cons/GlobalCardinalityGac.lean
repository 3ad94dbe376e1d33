import Verif.Lemmas.Cons.GlobalCardinalityCut

/-!
# The generalised arc consistent GlobalCardinality
-/

namespace Gcs.GlobalCardinality.Gac
open IntervalSet Flow
open Gcs.Gac (put put_same put_ne Scc Reach)
open Classical

/-! ## Growing sets -/

section
variable {α : Type} {test : α → (Nat → Bool) → Chk Bool} {adds : Nat → Nat → Bool} {all : List (α × Nat)} {Meets : α → (Nat → Bool) → Prop} {Inv : (Nat → Bool) → (Nat → Bool) → Prop}

noncomputable def out (all : List (α × Nat)) (b : Nat → Bool) : Nat := cnt (fun p => b p.2 = false) all

theorem growRound_roo (ht : ∀ p ∈ all, ∀ a, RightOrOverflow (test p.1 a) (fun t => t = true ↔ Meets p.1 a))
    (hstep : ∀ p ∈ all, ∀ a b, Inv a b → b p.2 = false → Meets p.1 a → Inv (fun i => a i || adds p.2 i) (put b p.2 true)) :
    ∀ (ps : List (α × Nat)) (a b : Nat → Bool) (g : Bool), (∀ p ∈ ps, p ∈ all) → Inv a b →
    RightOrOverflow (growRound test adds ps a b g) (fun r => Inv r.1 r.2.1 ∧ out all r.2.1 ≤ out all b ∧ (r.2.2 = false → g = false ∧ r.1 = a ∧ r.2.1 = b ∧ ∀ p ∈ ps, b p.2 = true ∨ ¬ Meets p.1 a) ∧
      (r.2.2 = true → g = true ∨ out all r.2.1 < out all b))
  | [], a, b, g, _, hi => .pure ⟨hi, Nat.le_refl _, fun h => ⟨h, rfl, rfl, by simp⟩, .inl⟩
  | p :: ps, a, b, g, hm, hi => by
    have hm' := fun q hq => hm q (List.mem_cons_of_mem p hq)
    rw [growRound]
    split
    · rename_i hb
      refine (growRound_roo ht hstep ps a b g hm' hi).mono fun r hr => ⟨hr.1, hr.2.1, fun h => ?_, hr.2.2.2⟩
      obtain ⟨h1, h2, h3, h4⟩ := hr.2.2.1 h
      exact ⟨h1, h2, h3, fun q hq => (List.mem_cons.1 hq).elim (fun e => .inl (e ▸ hb)) (h4 q)⟩
    · rename_i hb
      have hb' : b p.2 = false := Bool.eq_false_iff.2 hb
      refine (ht p (hm p (by simp)) a).bind fun t htt => ?_
      cases t with
      | true =>
        simp only [↓reduceIte]
        have hlt : out all (put b p.2 true) < out all b := cnt_lt all (fun q _ hq => by
          by_cases e : q.2 = p.2
          · rw [e, put_same] at hq; exact nomatch hq
          · rwa [put_ne _ _ e] at hq) ⟨p, hm p (by simp), hb', by rw [put_same]; simp⟩
        refine (growRound_roo ht hstep ps _ _ true hm' (hstep p (hm p (by simp)) a b hi hb' (htt.1 rfl))).mono fun r hr => ⟨hr.1, Nat.le_of_lt (Nat.lt_of_le_of_lt hr.2.1 hlt), (fun h => nomatch (hr.2.2.1 h).1), fun _ => .inr (Nat.lt_of_le_of_lt hr.2.1 hlt)⟩
      | false =>
        simp only [Bool.false_eq_true, ↓reduceIte]
        refine (growRound_roo ht hstep ps a b g hm' hi).mono fun r hr => ⟨hr.1, hr.2.1, fun h => ?_, hr.2.2.2⟩
        obtain ⟨h1, h2, h3, h4⟩ := hr.2.2.1 h
        exact ⟨h1, h2, h3, fun q hq => (List.mem_cons.1 hq).elim (fun e => .inr (e ▸ fun h => nomatch htt.2 h)) (h4 q)⟩

theorem grow_roo (ht : ∀ p ∈ all, ∀ a, RightOrOverflow (test p.1 a) (fun t => t = true ↔ Meets p.1 a))
    (hstep : ∀ p ∈ all, ∀ a b, Inv a b → b p.2 = false → Meets p.1 a → Inv (fun i => a i || adds p.2 i) (put b p.2 true)) :
    ∀ (fuel : Nat) (a b : Nat → Bool), out all b < fuel → Inv a b → RightOrOverflow (grow test adds all fuel a b) (fun r => Inv r.1 r.2 ∧ ∀ p ∈ all, r.2 p.2 = true ∨ ¬ Meets p.1 r.1)
  | 0, _, _, h, _ => by omega
  | fuel + 1, a, b, h, hi => by
    refine (growRound_roo ht hstep all a b false (fun _ h => h) hi).bind fun r hr => ?_
    obtain ⟨r1, r2, r3⟩ := r
    obtain ⟨h1, h2, h3, h4⟩ := hr
    dsimp only at *
    cases r3 with
    | true =>
      rcases h4 rfl with h | h
      · exact nomatch h
      · exact grow_roo ht hstep fuel r1 r2 (by omega) h1
    | false =>
      obtain ⟨_, rfl, rfl, h5⟩ := h3 rfl
      exact .pure ⟨h1, h5⟩

end

section
variable {d : Doms} {vars : List VarId} {cover : List (Int × VarId)} {closed : Bool} {fl : List Int} {miss : Nat → Int} {Q : Nat → Prop}

def Wanted (d : Doms) (vars : List VarId) (p : Int × VarId) (a : Nat → Bool) : Prop := ∃ x i, vars[i]? = some x ∧ a i = true ∧ Poss d x p.1
def Supplies (d : Doms) (cover : List (Int × VarId)) (x : VarId) (b : Nat → Bool) : Prop := ∃ (p : Int × VarId) (j : Nat), cover[j]? = some p ∧ b j = true ∧ Poss d x p.1

theorem wanted_roo (hd : DomsOK d) (hv : ∀ x ∈ vars, x.Valid d.length) {p : Int × VarId} (hI : InI64 p.1) (a : Nat → Bool) : RightOrOverflow (wanted d vars p a) (fun t => t = true ↔ Wanted d vars p a) := by
  refine (anyOf_roo (P := fun q : VarId × Nat => a q.2 = true ∧ Poss d q.1 p.1) vars.zipIdx fun q hq => ?_).mono fun t ht => ht.trans ⟨?_, ?_⟩
  · split
    · rename_i h
      exact (inDomain_spec hd (hv _ (snd_zipIdx hq).2.2) _ hI).mono fun b hb => hb.trans ⟨fun k => ⟨h, k⟩, fun k => k.2⟩
    · rename_i h
      exact .pure ⟨fun k => (nomatch k), fun k => absurd k.1 h⟩
  · rintro ⟨q, hq, h1, h2⟩; exact ⟨q.1, q.2, (snd_zipIdx hq).2.1, h1, h2⟩
  · rintro ⟨x, i, hx, h1, h2⟩; exact ⟨(x, i), List.mem_zipIdx_iff_getElem?.2 hx, h1, h2⟩

theorem supplies_roo (hd : DomsOK d) {x : VarId} (hx : x.Valid d.length) (hI : ∀ p ∈ cover, InI64 p.1) (b : Nat → Bool) : RightOrOverflow (supplies d cover x b) (fun t => t = true ↔ Supplies d cover x b) := by
  refine (anyOf_roo (P := fun p : (Int × VarId) × Nat => b p.2 = true ∧ Poss d x p.1.1) cover.zipIdx fun p hp => ?_).mono fun t ht => ht.trans ⟨?_, ?_⟩
  · split
    · rename_i h
      exact (inDomain_spec hd hx _ (hI _ (snd_zipIdx hp).2.2)).mono fun b hb => hb.trans ⟨fun k => ⟨h, k⟩, fun k => k.2⟩
    · rename_i h
      exact .pure ⟨fun k => (nomatch k), fun k => absurd k.1 h⟩
  · rintro ⟨p, hp, h1, h2⟩; exact ⟨p.1, p.2, (snd_zipIdx hp).2.1, h1, h2⟩
  · rintro ⟨p, j, hj, h1, h2⟩; exact ⟨(p, j), List.mem_zipIdx_iff_getElem?.2 hj, h1, h2⟩

theorem sumBounds_roo {f : Int × Int → Int} (hf : ∀ b : Int × Int, InI64 b.1 → InI64 b.2 → InI64 (f b)) : ∀ (xs : List VarId) (s : Int), InI64 s → (∀ x ∈ xs, IsBd d x) → RightOrOverflow (sumBounds d f s xs) (fun r => r = s + (xs.map fun x => f (bd d x)).sum)
  | [], s, _, _ => .pure (by simp)
  | x :: xs, s, hs, hx => by
    have hb := hx x (by simp)
    rw [sumBounds, hb.eq]
    refine (add_roo hs (hf _ hb.fits.1 hb.fits.2)).bind fun s' hs' => (sumBounds_roo hf xs s' hs'.2 fun y hy => hx y (by simp [hy])).mono fun r hr => ?_
    rw [hr, hs'.1, List.map_cons, List.sum_cons]; omega

theorem onlyIn_roo (hd : DomsOK d) {x : VarId} (hx : x.Valid d.length) (hall : List Int) : RightOrOverflow (onlyIn hall d x) (fun b => b = true ↔ Confined d hall x) := by
  refine (listed_roo hd hx).bind fun g hg => (anyOfGen_roo (P := (· ∉ hall)) hg fun y _ _ => .pure (by simp)).bind fun b hb => .pure ?_
  have key : b = true ↔ ¬ Confined d hall x := by
    rw [hb]
    constructor
    · rintro ⟨y, ⟨a, ha, rfl⟩, hy⟩ hc; exact hy (hc a ha)
    · intro h
      refine Classical.byContradiction fun hn => h fun a ha => Classical.byContradiction fun hy => hn ⟨_, ha.poss x, hy⟩
  cases b with
  | true => simpa using key.1 rfl
  | false => simpa using Classical.not_not.1 fun h => nomatch key.2 h

/-- The part of the cover that is chosen. -/
def chosen (cover : List (Int × VarId)) (b : Nat → Bool) : List (Int × VarId) := (cover.zipIdx.filter fun p => b p.2).map (·.1)

theorem chosen_sub (b : Nat → Bool) : (chosen cover b).Sublist cover := by
  have : (cover.zipIdx.map (·.1)) = cover := List.zipIdx_map_fst 0 cover
  conv => rhs; rw [← this]
  exact List.Sublist.map _ (List.filter_sublist)

theorem mem_chosen {b : Nat → Bool} {p : Int × VarId} : p ∈ chosen cover b ↔ ∃ j, cover[j]? = some p ∧ b j = true := by
  simp only [chosen, List.mem_map, List.mem_filter, Prod.exists, List.mem_zipIdx_iff_getElem?]
  constructor
  · rintro ⟨x, y, j, ⟨h1, h2⟩, rfl⟩; exact ⟨j, h1, h2⟩
  · rintro ⟨j, h1, h2⟩; exact ⟨p.1, p.2, j, ⟨h1, h2⟩, rfl⟩

theorem chosen_sum (b : Nat → Bool) (f : VarId → Int) : (((chosen cover b).map (·.2)).map f).sum = (cover.zipIdx.map fun p => if b p.2 then f p.1.2 else 0).sum := by
  rw [chosen, List.map_map, List.map_map, sum_filter]; rfl

theorem chosen_tally {b : Nat → Bool} {a : Asg} (hn : (cover.map (·.1)).Nodup) (ht : Tally vars cover a) : total (chosen cover b) a = cnt (fun x => x.eval a ∈ (chosen cover b).map (·.1)) vars :=
  total_eq _ (((chosen_sub b).map _).nodup hn) fun p hp => ht p ((chosen_sub b).subset hp)

/-- There are as many variables chosen as the sum says. -/
theorem filter_length (a : Nat → Bool) : ((vars.zipIdx.filter fun q => a q.2).length : Int) = (vars.zipIdx.map fun q => if a q.2 then (1 : Int) else 0).sum := by
  rw [len_sum, sum_filter]

theorem none_missing (hP : Partial (netw d vars cover closed) fl (nodes vars cover) miss Q) (h : ∀ v < nodes vars cover, 0 ≤ miss v) : False := by
  obtain ⟨v, hv, hs⟩ := hP.short
  have := hP.even fun _ => 1
  rw [sum_zero fun p _ => by omega, sum_congr (g := miss) fun v _ => Int.one_mul _] at this
  have := sum_eq_zero (fun v hv => h v (List.mem_range.1 hv)) this.symm v (List.mem_range.2 hv)
  omega

/-! ## Without a feasible flow -/

variable (hP : Partial (netw d vars cover closed) fl (nodes vars cover) miss Q)

local notation "F" => fv (netw d vars cover closed) fl

/-- What is found by going back from a variable that has no value. -/
structure CapInv (d : Doms) (vars : List VarId) (cover : List (Int × VarId)) (closed : Bool) (fl : List Int) (Q : Nat → Prop) (i0 : Nat) (a b : Nat → Bool) : Prop where
  start : a i0 = true
  var : ∀ i < vars.length, a i = true → ¬ Q (varNode cover.length i) ∧ (i = i0 ∨ ∃ j < cover.length, b j = true ∧ fv (netw d vars cover closed) fl (valueNode j) (varNode cover.length i) = 1)
  val : ∀ j < cover.length, b j = true → ¬ Q (valueNode j) ∧ ∀ i < vars.length, fv (netw d vars cover closed) fl (valueNode j) (varNode cover.length i) = 1 → a i = true

structure Unused (d : Doms) (vars : List VarId) (cover : List (Int × VarId)) (closed : Bool) (fl : List Int) (miss : Nat → Int) (i0 : Nat) : Prop where
  lt : i0 < vars.length
  miss : miss (varNode cover.length i0) = -1
  val : ∀ j < cover.length, fv (netw d vars cover closed) fl (valueNode j) (varNode cover.length i0) = 0
  dummy : fv (netw d vars cover closed) fl (dummyNode cover.length) (varNode cover.length i0) = 0

include hP

theorem unassigned_sum {i : Nat} (hi : i < vars.length) : unassigned (flowOn (netw d vars cover closed) fl) cover.length i = decide (miss (varNode cover.length i) = -1) := by
  have e := eq_var hP hi
  rw [sum_index fun k => F (valueNode k) (varNode cover.length i)] at e
  rw [unassigned]
  refine decide_eq_decide.2 ?_
  show ((List.range cover.length).map fun j => F (valueNode j) (varNode cover.length i)).sum + F (dummyNode cover.length) (varNode cover.length i) = 0 ↔ _
  omega

theorem unassigned_spec {i : Nat} (hi : i < vars.length) (h : unassigned (flowOn (netw d vars cover closed) fl) cover.length i = true) : Unused d vars cover closed fl miss i := by
  rw [unassigned_sum hP hi, decide_eq_true_iff] at h
  have e := eq_var hP hi
  rw [sum_index fun k => F (valueNode k) (varNode cover.length i), h] at e
  have hd := fv_nonneg hP (dummyNode cover.length) (varNode cover.length i)
  have hs := sum_nonneg (l := List.range cover.length) (f := fun k => F (valueNode k) (varNode cover.length i)) fun k _ => fv_nonneg hP _ _
  exact ⟨hi, h, fun j hj => sum_eq_zero (l := List.range cover.length) (f := fun k => F (valueNode k) (varNode cover.length i)) (fun k _ => fv_nonneg hP _ _) (by omega) j (List.mem_range.2 hj), by omega⟩

theorem capInv_step {i0 : Nat} (hu : Unused d vars cover closed fl miss i0) (p : (Int × VarId) × Nat) (hp : p ∈ cover.zipIdx) (a b : Nat → Bool) (hi : CapInv d vars cover closed fl Q i0 a b) (hb : b p.2 = false)
    (hw : Wanted d vars p.1 a) : CapInv d vars cover closed fl Q i0 (fun i => a i || decide (flowOn (netw d vars cover closed) fl (valueNode p.2) (varNode cover.length i) = some 1)) (put b p.2 true) := by
  obtain ⟨hj, hpj, _⟩ := snd_zipIdx hp
  obtain ⟨x, i, hx, hai, hpo⟩ := hw
  have hil := lt_of_get hx
  have hnq : ¬ Q (valueNode p.2) := fun hq => by
    obtain ⟨hv, hm⟩ := hi.var i hil hai
    have hle := fv_le_one hP (i := i) hj
    have hge := fv_nonneg hP (valueNode p.2) (varNode cover.length i)
    have h1 : F (valueNode p.2) (varNode cover.length i) = 1 := Classical.byContradiction fun h => hv (forth_edge hP (mem_assign hpj hx hpo) hq (by omega))
    rcases hm with rfl | ⟨j', hj', hbj, hf⟩
    · have := hu.val p.2 hj; omega
    · rw [(one_value hP hil hj h1).1 j' hj' hf, hb] at hbj
      exact nomatch hbj
  refine ⟨by simp [hi.start], fun i' hi' h => ?_, fun j hj' h => ?_⟩
  · rw [Bool.or_eq_true, decide_eq_true_iff, flowOn_one] at h
    rcases h with h | h
    · obtain ⟨h1, h2⟩ := hi.var i' hi' h
      refine ⟨h1, h2.imp id fun ⟨j, hj, hbj, hf⟩ => ⟨j, hj, ?_, hf⟩⟩
      by_cases e : j = p.2
      · rw [e, put_same]
      · rwa [put_ne _ _ e]
    · refine ⟨fun hq => hnq ?_, .inr ⟨p.2, hj, put_same _ _ _, h⟩⟩
      obtain ⟨p', x', h1, h2, h3⟩ := assign_of_pos (d := d) (vars := vars) (closed := closed) (fl := fl) (i := i') hj (by omega)
      exact back_edge hP (mem_assign h1 h2 h3) hq (by omega)
  · by_cases e : j = p.2
    · subst e
      exact ⟨hnq, fun i' hi' h => by rw [Bool.or_eq_true, decide_eq_true_iff, flowOn_one]; exact .inr h⟩
    · rw [put_ne _ _ e] at h
      obtain ⟨h1, h2⟩ := hi.val j hj' h
      exact ⟨h1, fun i' hi' h => by rw [Bool.or_eq_true]; exact .inl (h2 i' hi' h)⟩

theorem confined_of {a b : Nat → Bool} {i0 : Nat} (hcl : closed = false) (hQ : Q 1) (hu : Unused d vars cover closed fl miss i0) (hi : CapInv d vars cover closed fl Q i0 a b)
    (hdone : ∀ p ∈ cover.zipIdx, b p.2 = true ∨ ¬ Wanted d vars p.1 a) {x : VarId} {i : Nat} (hx : vars[i]? = some x) (ha : a i = true) : Q 0 ∧ Confined d ((chosen cover b).map (·.1)) x := by
  have hil := lt_of_get hx
  have h1 : F 1 0 < (vars.length : Int) + 1 := by
    have := eq_sink hP
    have := hP.enough 1 (by simp only [nodes]; omega) hQ
    omega
  have hQ0 : Q 0 := forth_edge hP (mem_netw.2 (.inr (.inr (.inr (.inr (.inr rfl)))))) hQ h1
  refine ⟨hQ0, ?_⟩
  have h2 : F 0 (dummyNode cover.length) < (vars.length : Int) + 1 := by
    have e := eq_dummy hP
    rw [dummy_zero hP] at e
    have := sum_le (l := vars.zipIdx) (f := fun q => F (dummyNode cover.length) (varNode cover.length q.2)) (g := fun _ => 1) fun q _ => fv_dummy_le hP
    rw [← len_sum, List.length_zipIdx] at this
    omega
  have hQd : Q (dummyNode cover.length) := forth_edge hP (mem_netw.2 (.inr (.inr (.inl ⟨hcl, rfl⟩)))) hQ0 h2
  obtain ⟨hnq, hm⟩ := hi.var i hil ha
  have hdum : F (dummyNode cover.length) (varNode cover.length i) = 0 := by
    rcases hm with rfl | ⟨j, hj, _, hf⟩
    · exact hu.dummy
    · exact (one_value hP hil hj hf).2.1
  have hall : Confined d (cover.map (·.1)) x := Classical.byContradiction fun hn =>
    hnq (forth_edge hP (mem_netw.2 (.inr (.inr (.inr (.inl ⟨hcl, x, i, hx, hn, rfl⟩))))) hQd (by omega))
  intro a' ha'
  obtain ⟨p, hp, hpe⟩ := List.mem_map.1 (hall a' ha')
  obtain ⟨j, hj⟩ := List.mem_iff_getElem?.1 hp
  rcases hdone (p, j) (List.mem_zipIdx_iff_getElem?.2 hj) with h | h
  · exact List.mem_map.2 ⟨p, mem_chosen.2 ⟨j, hj, h⟩, hpe⟩
  · exact absurd ⟨x, i, hx, ha, hpe ▸ ha'.poss x⟩ h

theorem capacityCut_roo (hd : DomsOK d) (hv : ∀ x ∈ vars, x.Valid d.length) (hI : ∀ p ∈ cover, InI64 p.1) (hb : ∀ p ∈ cover, IsBd d p.2) (hn : (cover.map (·.1)).Nodup) {i0 : Nat}
    (hu : Unused d vars cover closed fl miss i0) : RightOrOverflow (capacityCut d vars cover (flowOn (netw d vars cover closed) fl) i0)
      (fun c => (c = true → ∀ a, Within d a → ¬ Tally vars cover a) ∧ (closed = false → Q 1 → c = true)) := by
  refine (grow_roo (all := cover.zipIdx) (Meets := Wanted d vars) (Inv := CapInv d vars cover closed fl Q i0) (fun p hp a => wanted_roo hd hv (hI _ (snd_zipIdx hp).2.2) a) (capInv_step hP hu) _ _ _ ?_ ?_).bind
    fun r hr => ?_
  · have := cnt_le_length (P := fun _ : (Int × VarId) × Nat => false = false) cover.zipIdx
    rw [List.length_zipIdx] at this
    exact Nat.lt_of_le_of_lt this (by omega)
  · refine ⟨put_same _ _ _, fun i hi h => ?_, fun j _ h => nomatch h⟩
    by_cases e : i = i0
    · subst e
      refine ⟨fun hq => ?_, .inl rfl⟩
      have := hP.enough _ (by simp only [nodes, varNode]; omega) hq
      have := hu.miss
      omega
    · rw [put_ne _ _ e] at h; exact nomatch h
  obtain ⟨a, b⟩ := r
  obtain ⟨hi, hdone⟩ := hr
  dsimp only at hi hdone ⊢
  refine (sumBounds_roo (fun _ _ h => h) ((chosen cover b).map (·.2)) 0 (by decide) fun x hx => ?_).bind fun cap hcap => (keepIf_roo vars fun x hx => onlyIn_roo hd (hv x hx) ((chosen cover b).map (·.1))).bind
    fun ys hys => (ofSize_roo ys.length).bind fun k hk => ?_
  · obtain ⟨p, hp, rfl⟩ := List.mem_map.1 hx
    exact hb p ((chosen_sub b).subset hp)
  refine .pure ⟨fun hc => ?_, fun hcl hQ => ?_⟩
  · rw [Bool.and_eq_true, decide_eq_true_iff, hk.1, hys.1, hcap] at hc
    intro a' ha' ht
    have h1 := chosen_tally (b := b) hn ht
    have h2 : cnt (Confined d ((chosen cover b).map (·.1))) vars ≤ cnt (fun x => x.eval a' ∈ (chosen cover b).map (·.1)) vars := cnt_le vars fun x _ h => h a' ha'
    have h3 : total (chosen cover b) a' ≤ (((chosen cover b).map (·.2)).map fun x => (bd d x).2).sum := by
      rw [total, List.map_map]
      exact sum_le fun p hp => (hb p ((chosen_sub b).subset hp)).high a' ha'
    have := hc.1
    omega
  · have hcon := fun {x i} hx ha => confined_of hP (x := x) (i := i) hcl hQ hu hi hdone hx ha
    have hQ0 := (hcon (List.getElem?_eq_getElem hu.lt) hi.start).1
    have hmiss := hu.miss
    have h1 := cap_count hP hu.lt hi.start (by omega) hQ0 (fun j hj h => (hi.val j hj h).1) fun j hj h => (hi.val j hj h).2
    have h2 : (vars.zipIdx.map fun q => if a q.2 then (1 : Int) else 0).sum ≤ cnt (Confined d ((chosen cover b).map (·.1))) vars := by
      rw [cnt_zipIdx]
      refine sum_le fun q hq => ?_
      by_cases h : a q.2 = true
      · rw [if_pos h, if_pos (hcon (snd_zipIdx hq).2.1 h).2]; exact Int.le_refl _
      · rw [if_neg h]; split <;> omega
    rw [Bool.and_eq_true, decide_eq_true_iff, hk.1, hys.1, hcap, chosen_sum b fun x => (bd d x).2]
    refine ⟨by omega, ?_⟩
    obtain ⟨a', ha'⟩ := exists_within hd
    have := (hcon (List.getElem?_eq_getElem hu.lt) hi.start).2 a' ha'
    cases h : chosen cover b with
    | nil => rw [h] at this; simp at this
    | cons p ps => exact congrArg (fun l => ! List.isEmpty l) h

/-- What is found by going forth from a value that has too little. -/
structure DemInv (d : Doms) (vars : List VarId) (cover : List (Int × VarId)) (closed : Bool) (fl : List Int) (Q : Nat → Prop) (u : Nat) (a b : Nat → Bool) : Prop where
  start : a u = true
  val : ∀ j < cover.length, a j = true → Q (valueNode j)
  var : ∀ i < vars.length, b i = true → (∀ j < cover.length, fv (netw d vars cover closed) fl (valueNode j) (varNode cover.length i) = 1 → a j = true) ∧
    (Q (varNode cover.length i) ∨ ∃ j < cover.length, fv (netw d vars cover closed) fl (valueNode j) (varNode cover.length i) = 1)

theorem demInv_step {u : Nat} (q : VarId × Nat) (hq : q ∈ vars.zipIdx) (a b : Nat → Bool) (hi : DemInv d vars cover closed fl Q u a b) (_ : b q.2 = false)
    (hw : Supplies d cover q.1 a) : DemInv d vars cover closed fl Q u (fun j => a j || decide (flowOn (netw d vars cover closed) fl (valueNode j) (varNode cover.length q.2) = some 1)) (put b q.2 true) := by
  obtain ⟨hil, hx, _⟩ := snd_zipIdx hq
  obtain ⟨p, j, hj, haj, hpo⟩ := hw
  have hjl := lt_of_get hj
  have hQj := hi.val j hjl haj
  have hle := fv_le_one hP (i := q.2) hjl
  have hge := fv_nonneg hP (valueNode j) (varNode cover.length q.2)
  have hor : Q (varNode cover.length q.2) ∨ F (valueNode j) (varNode cover.length q.2) = 1 := by
    by_cases h : F (valueNode j) (varNode cover.length q.2) = 1
    · exact .inr h
    · exact .inl (forth_edge hP (mem_assign hj hx hpo) hQj (by omega))
  refine ⟨by simp [hi.start], fun j' hj' h => ?_, fun i hi' h => ?_⟩
  · rw [Bool.or_eq_true, decide_eq_true_iff, flowOn_one] at h
    rcases h with h | h
    · exact hi.val j' hj' h
    · rcases hor with hQi | h1
      · obtain ⟨p', x', k1, k2, k3⟩ := assign_of_pos (d := d) (vars := vars) (closed := closed) (fl := fl) (i := q.2) hj' (by omega)
        exact back_edge hP (mem_assign k1 k2 k3) hQi (by omega)
      · rw [(one_value hP hil hjl h1).1 j' hj' h]; exact hQj
  · by_cases e : i = q.2
    · subst e
      exact ⟨fun j' _ h => by rw [Bool.or_eq_true, decide_eq_true_iff, flowOn_one]; exact .inr h, hor.imp id fun h => ⟨j, hjl, h⟩⟩
    · rw [put_ne _ _ e] at h
      obtain ⟨h1, h2⟩ := hi.var i hi' h
      exact ⟨fun j' hj' h => by rw [Bool.or_eq_true]; exact .inl (h1 j' hj' h), h2⟩

omit hP in
theorem firstOf_roo {α : Type} {p : α → Chk Bool} {P : α → Prop} : ∀ xs : List α, (∀ x ∈ xs, RightOrOverflow (p x) (fun b => b = true ↔ P x)) →
    RightOrOverflow (firstOf p xs) (fun r => (r = none → ∀ x ∈ xs, ¬ P x) ∧ ∀ x, r = some x → x ∈ xs ∧ P x)
  | [], _ => .pure ⟨fun _ => by simp, fun _ h => nomatch h⟩
  | x :: xs, h => by
    refine (h x (by simp)).bind fun b hb => ?_
    cases b with
    | true => exact .pure ⟨(fun h => nomatch h), fun y hy => by cases hy; exact ⟨by simp, hb.1 rfl⟩⟩
    | false =>
      refine (firstOf_roo xs fun y hy => h y (by simp [hy])).mono fun r hr => ⟨fun e y hy => ?_, fun y hy => ⟨List.mem_cons_of_mem _ (hr.2 y hy).1, (hr.2 y hy).2⟩⟩
      rcases List.mem_cons.1 hy with rfl | hy
      · exact fun h => nomatch hb.2 h
      · exact hr.1 e y hy

omit hP in
theorem undersupplied_roo (hb : ∀ p ∈ cover, IsBd d p.2) (p : (Int × VarId) × Nat) (hp : p ∈ cover.zipIdx) : RightOrOverflow (undersupplied d vars.length (flowOn (netw d vars cover closed) fl) cover.length p)
    (fun b => b = true ↔ (vars.zipIdx.map fun q => F (valueNode p.2) (varNode cover.length q.2)).sum < (bd d p.1.2).1) := by
  rw [undersupplied, (hb _ (snd_zipIdx hp).2.2).eq, sum_index fun i => F (valueNode p.2) (varNode cover.length i)]
  exact .pure decide_eq_true_iff

/-- Without the sink, there is not the source either. -/
theorem not_source (hQ : ¬ Q 1) : ¬ Q 0 := fun h0 => by
  have e := eq_sink hP
  have h1 := fv_nonneg hP 1 0
  by_cases hz : F 1 0 = 0
  · by_cases hl : vars.length = 0
    · refine none_missing hP fun v hv => ?_
      rcases nodes_cases hv with rfl | rfl | ⟨j, hj, rfl⟩ | rfl | ⟨i, hi, rfl⟩
      · exact hP.enough 0 hv h0
      · omega
      · exact value_nonneg hP hj
      · rw [dummy_zero hP]; exact Int.le_refl _
      · omega
    · exact hQ (hP.inside 1 (by simp only [nodes]; omega) (by omega))
  · exact hQ (back_edge hP (mem_netw.2 (.inr (.inr (.inr (.inr (.inr rfl)))))) h0 (by omega))

theorem exists_short (hlo : ∀ p ∈ cover, 0 ≤ (bd d p.2).1) (hQ : ¬ Q 1) : ∃ p ∈ cover.zipIdx, (vars.zipIdx.map fun q => F (valueNode p.2) (varNode cover.length q.2)).sum < (bd d p.1.2).1 := by
  obtain ⟨v, hv, hs⟩ := hP.short
  have hq := hP.inside v hv hs
  rcases nodes_cases hv with rfl | rfl | ⟨j, hj, rfl⟩ | rfl | ⟨i, hi, rfl⟩
  · exact absurd hq (not_source hP hQ)
  · exact absurd hq hQ
  · have hg := List.getElem?_eq_getElem hj
    refine ⟨(cover[j], j), List.mem_zipIdx_iff_getElem?.2 hg, ?_⟩
    have e := eq_value hP hj
    have hl := hlo _ (List.getElem_mem hj)
    have he : (⟨0, valueNode j, if (bd d cover[j].2).1 < 0 then 0 else (bd d cover[j].2).1, (bd d cover[j].2).2⟩ : Orig) ∈ netw d vars cover closed := mem_netw.2 (.inl ⟨_, j, hg, rfl⟩)
    rw [if_neg (by omega)] at he
    have : ¬ (bd d cover[j].2).1 < F 0 (valueNode j) := fun h => not_source hP hQ (back_edge hP he hq h)
    dsimp only
    omega
  · rw [dummy_zero hP] at hs; omega
  · have := var_nonpos hP hi; omega

theorem short_miss (p : (Int × VarId) × Nat) (hp : p ∈ cover.zipIdx) (h : (vars.zipIdx.map fun q => F (valueNode p.2) (varNode cover.length q.2)).sum < (bd d p.1.2).1) : 0 < miss (valueNode p.2) := by
  obtain ⟨hj, hg, _⟩ := snd_zipIdx hp
  have e := eq_value hP hj
  have := (between_edge hP (mem_netw.2 (.inl ⟨_, p.2, hg, rfl⟩))).1
  split at this <;> omega

theorem dem_var (hQ : ¬ Q 0) {a b : Nat → Bool} {u : Nat} (hi : DemInv d vars cover closed fl Q u a b) (i : Nat) (hil : i < vars.length) (hb : b i = true) :
    F (dummyNode cover.length) (varNode cover.length i) = 0 ∧ 0 ≤ miss (varNode cover.length i) := by
  rcases (hi.var i hil hb).2 with hq | ⟨j, hj, hf⟩
  · have hm := hP.enough _ (by simp only [nodes, varNode]; omega) hq
    refine ⟨Classical.byContradiction fun hne => ?_, hm⟩
    have hex : ∃ e ∈ netw d vars cover closed, e.src = dummyNode cover.length ∧ e.dst = varNode cover.length i :=
      Classical.byContradiction fun hn => hne (fv_zero fun e he h => hn ⟨e, he, h⟩)
    obtain ⟨e, he, e1, e2⟩ := hex
    obtain ⟨hcl, x, hx, hc, _, _⟩ := edge_dummy he e1 e2
    have hge := fv_nonneg hP (dummyNode cover.length) (varNode cover.length i)
    have hQd : Q (dummyNode cover.length) := back_edge hP (mem_netw.2 (.inr (.inr (.inr (.inl ⟨hcl, x, i, hx, hc, rfl⟩))))) hq (by omega)
    refine hQ (back_edge hP (mem_netw.2 (.inr (.inr (.inl ⟨hcl, rfl⟩)))) hQd ?_)
    have e := eq_dummy hP
    rw [dummy_zero hP, sum_index fun k => F (dummyNode cover.length) (varNode cover.length k)] at e
    have := range_ge_one (n := vars.length) (f := fun k => F (dummyNode cover.length) (varNode cover.length k)) (fun k _ => fv_nonneg hP _ _) hil
    omega
  · have := one_value hP hil hj hf
    exact ⟨this.2.1, by omega⟩

theorem demandCut_roo (hd : DomsOK d) (hv : ∀ x ∈ vars, x.Valid d.length) (hI : ∀ p ∈ cover, InI64 p.1) (hb : ∀ p ∈ cover, IsBd d p.2) (hlo : ∀ p ∈ cover, 0 ≤ (bd d p.2).1) (hn : (cover.map (·.1)).Nodup) :
    RightOrOverflow (demandCut d vars cover (flowOn (netw d vars cover closed) fl)) (fun c => (c = true → ∀ a, Within d a → ¬ Tally vars cover a) ∧ (¬ Q 1 → c = true)) := by
  refine (firstOf_roo cover.zipIdx (undersupplied_roo hb)).bind fun o ho => ?_
  cases o with
  | none =>
    refine .pure ⟨fun h => (nomatch h), fun hQ => ?_⟩
    obtain ⟨p, hp, h⟩ := exists_short hP hlo hQ
    exact absurd h (ho.1 rfl p hp)
  | some u =>
    obtain ⟨hu, hshort⟩ := ho.2 u rfl
    have hul := (snd_zipIdx hu).1
    have hmiss := short_miss hP u hu hshort
    refine (grow_roo (all := vars.zipIdx) (Meets := Supplies d cover) (Inv := DemInv d vars cover closed fl Q u.2) (fun p hp a => supplies_roo hd (hv _ (snd_zipIdx hp).2.2) hI a) (demInv_step hP) _ _ _ ?_ ?_).bind
      fun r hr => ?_
    · have := cnt_le_length (P := fun _ : VarId × Nat => false = false) vars.zipIdx
      rw [List.length_zipIdx] at this
      exact Nat.lt_of_le_of_lt this (by omega)
    · refine ⟨put_same _ _ _, fun j hj h => ?_, fun i _ h => nomatch h⟩
      by_cases e : j = u.2
      · subst e
        exact hP.inside _ (by simp only [nodes, valueNode]; omega) hmiss
      · rw [put_ne _ _ e] at h; exact nomatch h
    obtain ⟨a, b⟩ := r
    obtain ⟨hi, hdone⟩ := hr
    dsimp only at hi hdone ⊢
    refine (sumBounds_roo (fun _ h _ => h) ((chosen cover a).map (·.2)) 0 (by decide) fun x hx => ?_).bind fun dem hdem => (ofSize_roo (vars.zipIdx.filter fun q => b q.2).length).bind fun k hk => ?_
    · obtain ⟨p, hp, rfl⟩ := List.mem_map.1 hx
      exact hb p ((chosen_sub a).subset hp)
    refine .pure ⟨fun hc => ?_, fun hQ => ?_⟩
    · rw [Bool.and_eq_true, decide_eq_true_iff, hk.1, filter_length, hdem] at hc
      intro a' ha' ht
      have h1 := chosen_tally (b := a) hn ht
      have h2 : (cnt (fun x => x.eval a' ∈ (chosen cover a).map (·.1)) vars : Int) ≤ (vars.zipIdx.map fun q => if b q.2 then (1 : Int) else 0).sum := by
        rw [cnt_zipIdx]
        refine sum_le fun q hq => ?_
        by_cases h : q.1.eval a' ∈ (chosen cover a).map (·.1)
        · obtain ⟨p, hp, hpe⟩ := List.mem_map.1 h
          obtain ⟨j, hj, haj⟩ := mem_chosen.1 hp
          rcases hdone q hq with hb' | hno
          · rw [hb']; split <;> simp
          · exact absurd ⟨p, j, hj, haj, hpe ▸ ha'.poss q.1⟩ hno
        · rw [if_neg h]; split <;> omega
      have h3 : (((chosen cover a).map (·.2)).map fun x => (bd d x).1).sum ≤ total (chosen cover a) a' := by
        rw [total, List.map_map]
        exact sum_le fun p hp => (hb p ((chosen_sub a).subset hp)).low a' ha'
      have := hc.1
      omega
    · have h1 := dem_count hP (a := b) (b := a) hul hi.start hmiss (not_source hP hQ) hi.val hlo fun i hil h => ⟨(hi.var i hil h).1, dem_var hP (not_source hP hQ) hi i hil h⟩
      rw [Bool.and_eq_true, decide_eq_true_iff, hk.1, filter_length, hdem, chosen_sum a fun x => (bd d x).1]
      refine ⟨by omega, ?_⟩
      have hm : u.1 ∈ chosen cover a := mem_chosen.2 ⟨u.2, (snd_zipIdx hu).2.1, hi.start⟩
      cases h : chosen cover a with
      | nil => rw [h] at hm; simp at hm
      | cons p ps => exact congrArg (fun l => ! List.isEmpty l) h

theorem exists_unused (hQ : Q 1) (h : ∀ i < vars.length, unassigned (flowOn (netw d vars cover closed) fl) cover.length i = false) : False := by
  have h1 : F 1 0 < (vars.length : Int) + 1 := by
    have := eq_sink hP
    have := hP.enough 1 (by simp only [nodes]; omega) hQ
    omega
  have hQ0 : Q 0 := forth_edge hP (mem_netw.2 (.inr (.inr (.inr (.inr (.inr rfl)))))) hQ h1
  refine none_missing hP fun v hv => ?_
  rcases nodes_cases hv with rfl | rfl | ⟨j, hj, rfl⟩ | rfl | ⟨i, hi, rfl⟩
  · exact hP.enough 0 hv hQ0
  · exact hP.enough 1 hv hQ
  · exact value_nonneg hP hj
  · rw [dummy_zero hP]; exact Int.le_refl _
  · have h2 := h i hi
    rw [unassigned_sum hP hi, decide_eq_false_iff_not] at h2
    have e := eq_var hP hi
    have hd := fv_nonneg hP (dummyNode cover.length) (varNode cover.length i)
    have hs := sum_nonneg (l := cover.zipIdx) (f := fun p => F (valueNode p.2) (varNode cover.length i)) fun k _ => fv_nonneg hP _ _
    omega

/-- Without a feasible flow there is no solution, and the search for the reason finds one, unless values outside the cover are ruled out. -/
theorem infeasible_roo (hd : DomsOK d) (hv : ∀ x ∈ vars, x.Valid d.length) (hI : ∀ p ∈ cover, InI64 p.1) (hb : ∀ p ∈ cover, IsBd d p.2) (hlo : ∀ p ∈ cover, 0 ≤ (bd d p.2).1) (hn : (cover.map (·.1)).Nodup) :
    RightOrOverflow (infeasible d vars cover closed (flowOn (netw d vars cover closed) fl)) (fun v => (v = .fail ∧ ∀ a, Within d a → ¬ Tally vars cover a) ∨ v = .leave) := by
  unfold infeasible
  cases hun : (List.range vars.length).find? (unassigned (flowOn (netw d vars cover closed) fl) cover.length) with
  | none =>
    have hQ : ¬ Q 1 := fun hQ => exists_unused hP hQ fun i hi => by
      have := List.find?_eq_none.1 hun i (List.mem_range.2 hi)
      exact Bool.eq_false_iff.2 this
    refine RightOrOverflow.bind (R := fun c => c = false) (.pure rfl) fun c hc => ?_
    subst hc
    refine (demandCut_roo hP hd hv hI hb hlo hn).bind fun e he => ?_
    rw [he.2 hQ]
    exact .pure (.inl ⟨rfl, he.1 (he.2 hQ)⟩)
  | some i =>
    have hu := unassigned_spec hP (List.mem_range.1 (List.mem_of_find?_eq_some hun)) (List.find?_some hun)
    refine (capacityCut_roo hP hd hv hI hb hn hu).bind fun c hc => ?_
    cases c with
    | true => exact .pure (.inl ⟨rfl, hc.1 rfl⟩)
    | false =>
      refine (demandCut_roo hP hd hv hI hb hlo hn).bind fun e he => ?_
      cases e with
      | true => exact .pure (.inl ⟨rfl, he.1 rfl⟩)
      | false =>
        have hcl : closed = true := by
          cases hclo : closed with
          | true => rfl
          | false =>
            have hQ : ¬ Q 1 := fun hQ => nomatch hc.2 hclo hQ
            exact nomatch he.2 hQ
        subst hcl
        exact .pure (.inr rfl)

end
end Gcs.GlobalCardinality.Gac
