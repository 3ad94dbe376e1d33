import Verif.Lemmas.Cons.TabulationServe
import Verif.Lemmas.Cons.TabulationPlans

/-!
# Installing constraints with tables
-/

namespace Gcs
open IntervalSet

namespace Tabulation

section
variable {σ μ : Type} {n m : Nat} {R : Err → Prop} {root : Doms} {vars xs : List VarId} {sel x y z : VarId} {C : Asg → Prop}

theorem skipped_roo (hd : DomsOK root) : ∀ (dets : List Determined) (s : Option VarId), (∀ x ∈ dets, x.var.Valid root.length) → (∀ w, s = some w → w.Valid root.length) → RightOrOverflow (skipped root s dets) (fun _ => True)
  | [], s, _, _ => .pure trivial
  | x :: xs, none, h, _ => skipped_roo hd xs _ (fun y hy => h y (by simp [hy])) fun w e => by cases e; exact h x (by simp)
  | x :: xs, some w, h, hs => by
    refine (domainSize_roo hd (h x (by simp))).bind fun _ _ => (domainSize_roo hd (hs w rfl)).bind fun _ _ => ?_
    split
    · exact skipped_roo hd xs _ (fun y hy => h y (by simp [hy])) fun w e => by cases e; exact h x (by simp)
    · exact skipped_roo hd xs _ (fun y hy => h y (by simp [hy])) fun w e => by cases e; exact hs _ rfl

theorem budget_roo (hd : DomsOK root) {limit : Int} {skip : Option VarId} : ∀ (vs : List VarId) (size : Int), (∀ v ∈ vs, v.Valid root.length) → RightOrOverflow (budget root skip limit size vs) (fun _ => True)
  | [], _, _ => .pure trivial
  | v :: vs, size, h => by
    rw [budget]
    split
    · refine (domainSize_roo hd (h v (by simp))).bind fun k _ => ?_
      split
      · exact budget_roo hd vs _ fun v hv => h v (by simp [hv])
      · exact .pure trivial
    · exact budget_roo hd vs _ fun v hv => h v (by simp [hv])

theorem want_roo (hd : DomsOK root) {limit : Int} {dets : List Determined} {level : Level} (hv : ∀ v ∈ vars, v.Valid root.length) (h : ∀ x ∈ dets, x.var.Valid root.length) :
    RightOrOverflow (want limit root vars dets level) (fun _ => True) := by
  cases level with
  | tabulated => exact .pure trivial
  | bc => exact .pure trivial
  | auto => exact (skipped_roo hd dets none h fun _ e => by cases e).bind fun s _ => budget_roo hd vars 1 hv

/-- A table over some of the variables of a constraint that says what the constraint does. -/
structure Tabulates (root : Doms) (xs : List VarId) (C : Asg → Prop) (p : List VarId × List (List (Option Int))) : Prop where
  nodup : p.1.Nodup
  about : ∀ v ∈ p.1, v ∈ xs
  valid : ∀ v ∈ p.1, v.Valid root.length
  shape : Table.Shaped p.1.length p.2
  exact : ∀ a, Within root a → (InTable p.2 p.1 a ↔ C a)

theorem Lists.tabulates {A : List Int → Prop} {ts : List (List (Option Int))} (h : Lists root vars A ts) (hn : vars.Nodup) (hv : ∀ v ∈ vars, v.Valid root.length) (hx : ∀ v ∈ vars, v ∈ xs) (hA : ∀ a, Within root a → (A (valsOf vars a) ↔ C a)) :
    Tabulates root xs C (vars, ts) :=
  ⟨hn, hx, hv, ⟨fun t ht => (h.1 t ht).1, fun t ht => (h.1 t ht).2⟩, fun a ha => (h.2 a ha).trans (hA a ha)⟩

theorem table_roo (hd : DomsOK root) {limit : Int} {level : Level} {p : Plan} {A H : List Int → Prop} (hn : p.vars.Nodup) (hv : ∀ v ∈ p.vars, v.Valid root.length) (hx : ∀ v ∈ p.vars, v ∈ xs)
    (hacc : Accepts p.vars p.accept A) (hs : Setting root p.vars p.dets none A H) (hA : ∀ a, Within root a → (A (valsOf p.vars a) ↔ C a)) :
    RightOrOverflow (p.table limit level root) (fun o => ∀ q, o = some q → Tabulates root xs C q) := by
  refine (want_roo hd hv fun x hx => ?_).bind fun b _ => ?_
  · obtain ⟨pos, h1, _⟩ := hs.dets x hx
    exact hv _ (List.mem_of_getElem? (idxOf?_lt h1))
  · split
    · refine (build_roo hd hv hacc hs).bind fun ts hts => .pure fun q e => ?_
      cases e
      exact hts.tabulates hn hv hx hA
    · exact .pure fun q e => by cases e

/-- The operands, and the variables that they are views of. -/
abbrev operands (x y z : VarId) : List VarId := [x, y, z] ++ ([x, y, z].filterMap VarId.underlyingIndex).map .simple

theorem laid_about {pa pb pc : Option Nat} (h : Laid vars (affineOf x) (affineOf y) (affineOf z) pa pb pc) : ∀ v ∈ vars, v ∈ operands x y z := by
  intro v hv
  obtain ⟨i, rfl, h⟩ := h.only v hv
  rw [affineOf_var, affineOf_var, affineOf_var] at h
  refine List.mem_append_right _ (List.mem_map.2 ⟨i, List.mem_filterMap.2 ?_, rfl⟩)
  rcases h with h | h | h
  · exact ⟨x, by simp, h⟩
  · exact ⟨y, by simp, h⟩
  · exact ⟨z, by simp, h⟩

theorem laid_valid {k : Nat} {pa pb pc : Option Nat} (hx : x.Valid k) (hy : y.Valid k) (hz : z.Valid k) (h : Laid vars (affineOf x) (affineOf y) (affineOf z) pa pb pc) : ∀ v ∈ vars, v.Valid k := by
  intro v hv
  obtain ⟨i, rfl, h⟩ := h.only v hv
  rw [affineOf_var, affineOf_var, affineOf_var] at h
  have key : ∀ w : VarId, w.Valid k → w.underlyingIndex = some i → i < k := by
    intro w hw e
    cases w with
    | simple j => cases e; exact hw
    | const c => cases e
    | view j ng o => cases e; exact hw.1
  rcases h with h | h | h
  · exact key x hx h
  · exact key y hy h
  · exact key z hz h

theorem sum_table_roo (sub : Bool) (hd : DomsOK root) {limit : Int} {level : Level} (hx : x.Valid root.length) (hy : y.Valid root.length) (hz : z.Valid root.length) :
    RightOrOverflow (do (← sumPlan sub x y z).table limit level root) (fun o => ∀ q, o = some q → Tabulates root (operands x y z) (fun a => op sub (x.eval a) (y.eval a) = z.eval a) q) := by
  have hl := register3_spec (affineOf x) (affineOf y) (affineOf z)
  have ax := affineOf_ok hx
  have ay := affineOf_ok hy
  have az := affineOf_ok hz
  have hp : RightOrOverflow (sumPlan sub x y z) (fun p => p.vars = (register3 (affineOf x) (affineOf y) (affineOf z)).1 ∧
      p.accept = sumAccept sub (affineOf x) (affineOf y) (affineOf z) (register3 (affineOf x) (affineOf y) (affineOf z)).2.1 (register3 (affineOf x) (affineOf y) (affineOf z)).2.2.1 (register3 (affineOf x) (affineOf y) (affineOf z)).2.2.2 ∧
      ∀ x' ∈ p.dets, ∃ pos, p.vars.idxOf? x'.var = some pos ∧ Determines p.vars (SumIs sub (affineOf x) (affineOf y) (affineOf z) (register3 (affineOf x) (affineOf y) (affineOf z)).2.1 (register3 (affineOf x) (affineOf y) (affineOf z)).2.2.1 (register3 (affineOf x) (affineOf y) (affineOf z)).2.2.2) (fun _ => True) pos x'.value) :=
    (sumDets_roo ax ay az hl (fun _ => True) _ [] rfl).bind fun ds hds => .pure ⟨rfl, rfl, hds⟩
  refine hp.bind fun p ⟨e1, e2, hdets⟩ => ?_
  refine table_roo (A := SumIs sub (affineOf x) (affineOf y) (affineOf z) (register3 (affineOf x) (affineOf y) (affineOf z)).2.1 (register3 (affineOf x) (affineOf y) (affineOf z)).2.2.1 (register3 (affineOf x) (affineOf y) (affineOf z)).2.2.2)
    (H := fun _ => True) hd (e1 ▸ hl.nodup) (by rw [e1]; exact laid_valid hx hy hz hl) (by rw [e1]; exact laid_about hl) (by rw [e1, e2]; exact sumAccept_ok ax ay az hl) ⟨fun x' hx' => ?_, fun _ _ _ => trivial, fun r h => by cases h⟩ fun a _ => ?_
  · obtain ⟨pos, h1, h2⟩ := hdets x' hx'
    exact ⟨pos, h1, fun r h => (by cases h), h2⟩
  · rw [e1, SumIs, read_valsOf hl.spotA, read_valsOf hl.spotB, read_valsOf hl.spotC]

theorem product_table_roo (hd : DomsOK root) {limit : Int} {level : Level} (hx : x.Valid root.length) (hy : y.Valid root.length) (hz : z.Valid root.length) :
    RightOrOverflow ((productPlan x y z).table limit level root) (fun o => ∀ q, o = some q → Tabulates root (operands x y z) (fun a => InI64 (z.eval a) ∧ x.eval a * y.eval a = z.eval a) q) := by
  have hl := register3_spec (affineOf x) (affineOf y) (affineOf z)
  have ax := affineOf_ok hx
  have ay := affineOf_ok hy
  have az := affineOf_ok hz
  refine table_roo (A := ProductIs (affineOf x) (affineOf y) (affineOf z) (register3 (affineOf x) (affineOf y) (affineOf z)).2.1 (register3 (affineOf x) (affineOf y) (affineOf z)).2.2.1 (register3 (affineOf x) (affineOf y) (affineOf z)).2.2.2)
    (H := fun _ => True) hd hl.nodup (laid_valid hx hy hz hl) (laid_about hl) (productAccept_ok ax ay az hl) ⟨fun x' hx' => ?_, fun _ _ _ => trivial, fun r h => by cases h⟩ fun a _ => ?_
  · unfold productPlan at hx'
    dsimp only at hx'
    split at hx'
    · rename_i k c o p3 e1 e2
      split at hx'
      · rename_i hne
        rw [List.mem_singleton] at hx'; subst hx'
        have hC := hl.spotC
        rw [e2] at hC
        obtain ⟨i, h1, h2⟩ := hC.at
        rw [e1] at h1; cases h1
        refine ⟨p3, idxOf?_nodup hl.nodup h2, fun r h => (by cases h), ?_⟩
        have := solveProduct_ok (H := fun _ => True) ax ay az hl e2 hne.1 hne.2 (affineOf_unit (by rw [e1]))
        rw [← e1]; exact this
      · cases hx'
    · cases hx'
  · show ProductIs _ _ _ _ _ _ _ ↔ _
    rw [ProductIs, productPlan]
    dsimp only
    rw [read_valsOf hl.spotA, read_valsOf hl.spotB, read_valsOf hl.spotC]

/-! ## Linear equalities -/

theorem registerAll_eq : ∀ (vs acc : List VarId), (acc ++ vs).Nodup → registerAll acc vs = acc ++ vs
  | [], acc, _ => by simp [registerAll]
  | v :: vs, acc, h => by
    have hv : v ∉ acc := fun hv => (List.nodup_append.1 h).2.2 v hv v (by simp) rfl
    rw [registerAll, positionOf_fresh hv, registerAll_eq vs (acc ++ [v]) (by simpa using h)]
    simp

theorem dot_tsum {a : Asg} : ∀ (us pre : List Linear.Term) {ts : List Linear.Term}, ts = pre ++ us → (∀ (i : Nat) t, ts[i]? = some t → vars[i]? = some (.simple t.var)) → dot none (valsOf vars a) pre.length us = Linear.tsum us a
  | [], _, _, _, _ => rfl
  | u :: us, pre, ts, e, hp => by
    have hu : ts[pre.length]? = some u := by rw [e]; simp
    have := dot_tsum (a := a) us (pre ++ [u]) (ts := ts) (by simp [e]) hp
    rw [List.length_append, List.length_singleton] at this
    rw [dot, if_neg (by simp), this, Linear.tsum_cons, getD_of (x := a u.var) (by rw [List.getElem?_map, hp _ _ hu]; rfl)]

open Linear (TermsOK varsOf) in
theorem linearTable_roo (hd : DomsOK root) {terms : List WTerm} {value : Int} {r : Reif} (ht : TermsOK root.length terms) (hv : InI64 value) (hr : r.Valid root.length) :
    RightOrOverflow (linearTable terms value r root) (Tabulates root (Linear.about terms r) (fun a => r.holds (fun a => wsum terms a = value) a)) := by
  refine (reif_test_spec hd rfl hr).bind fun _ _ => (Linear.tidy_roo ht).bind fun t htd => (add_roo hv htd.2.1).bind fun v hv' => ?_
  obtain ⟨td, -, hvars, hsum⟩ := htd
  have hnd : (t.1.map fun u => VarId.simple u.var).Nodup := by
    have := td.nodup
    rw [show (t.1.map fun u => VarId.simple u.var) = (t.1.map Linear.Term.var).map VarId.simple from by simp]
    exact List.Pairwise.map _ (fun a b h e => h (by cases e; rfl)) this
  rw [registerAll_eq _ [] (by simpa using hnd), List.nil_append]
  have hpos : ∀ tail (i : Nat) u, t.1[i]? = some u → ((t.1.map fun u => VarId.simple u.var) ++ tail)[i]? = some (.simple u.var) := by
    intro tail i u hu
    rw [List.getElem?_append_left (by simpa using (List.getElem?_eq_some_iff.1 hu).1), List.getElem?_map, hu]; rfl
  have hbase : Base (t.1.map fun u => VarId.simple u.var) (linearAccept t.1 v) (linearDets t.1 v 0 t.1) (fun vals => dot none vals 0 t.1 = v) :=
    ⟨fun tail => linearAccept_ok td.coeff hv'.2 (by simp), fun tail hn => linearDets_ok td.coeff hv'.2 (by simp) _ hn (hpos tail) t.1 [] rfl⟩
  obtain ⟨q, tail, H, h1, h2, h3, h4, h5, h6⟩ := reify_ok (r := r) hnd hbase
  dsimp only
  rw [h1]
  have hval : ∀ w ∈ (t.1.map fun u => VarId.simple u.var) ++ tail, w.Valid root.length := by
    intro w hw
    rcases List.mem_append.1 hw with hw | hw
    · obtain ⟨u, hu, rfl⟩ := List.mem_map.1 hw
      exact td.var u hu
    · have := h2 w hw
      cases r <;> simp only [Reif.vars, List.mem_singleton, List.not_mem_nil] at this <;> first | exact this.elim | (subst this; exact hr.1.1)
  refine (build_roo hd hval h5 h6).bind fun ts hts => .pure (hts.tabulates h3 hval (fun w hw => ?_) fun a _ => ?_)
  · rcases List.mem_append.1 hw with hw | hw
    · obtain ⟨u, hu, rfl⟩ := List.mem_map.1 hw
      exact List.mem_append_left _ (List.mem_map.2 ⟨_, hvars u hu, rfl⟩)
    · exact List.mem_append_right _ (h2 w hw)
  · refine reifies_holds h4 ?_
    have e := dot_tsum (a := a) t.1 [] rfl (hpos tail)
    rw [List.length_nil] at e
    rw [e]
    have := hsum a
    rw [hv'.1]; omega

end
end Tabulation
end Gcs
