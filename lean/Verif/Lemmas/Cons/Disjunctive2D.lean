import Verif.Lemmas.Cons.GlobalCardinality
import Verif.Model.Cons.Disjunctive2D
import Verif.Spec.Disjunctive2D

namespace Gcs.Disjunctive2D
open IntervalSet

/-- Where it is. -/
def Rect.eval (r : Rect) (a : Asg) : Box := ⟨r.x.eval a, r.y.eval a, r.w.eval a, r.h.eval a⟩

/-- The variables. -/
def Rect.vars (r : Rect) : List VarId := [r.x, r.y, r.w, r.h]

section
variable {n : Nat} {d : Doms} {r s : Rect} {rs : List Rect} {strict : Bool} {p w q v : VarId} {a : Asg}

structure Rect.Valid (n : Nat) (r : Rect) : Prop where
  x : r.x.Valid n
  y : r.y.Valid n
  w : r.w.Valid n
  h : r.h.Valid n

/-- All of it is known. -/
def Rect.Set (d : Doms) (r : Rect) : Prop := Known d r.x ∧ Known d r.y ∧ Known d r.w ∧ Known d r.h

/-- `e.1` is the latest start and `e.2` the earliest end. -/
structure Ends (d : Doms) (p w : VarId) (e : Int × Int) : Prop where
  late : ∀ a, Within d a → p.eval a ≤ e.1
  early : ∀ a, Within d a → e.2 ≤ p.eval a + w.eval a
  known : Known d p → Known d w → ∀ a, Within d a → e.1 = p.eval a ∧ e.2 = p.eval a + w.eval a

theorem Ends.sub {d' : Doms} {e : Int × Int} (h : Ends d p w e) (hs : ∀ a, Within d' a → Within d a) : (∀ a, Within d' a → p.eval a ≤ e.1) ∧ ∀ a, Within d' a → e.2 ≤ p.eval a + w.eval a :=
  ⟨fun a ha => h.late a (hs a ha), fun a ha => h.early a (hs a ha)⟩

theorem mand_roo (hd : DomsOK d) (hp : p.Valid d.length) (hw : w.Valid d.length) : RightOrOverflow (mand d p w) (Ends d p w) := by
  refine (lower_roo hd hw).bind fun s hs => (upper_roo hd hp).bind fun u hu => (lower_roo hd hp).bind fun l hl => (add_roo hl.1 hs.1).bind fun e he => .pure ?_
  refine ⟨fun a ha => hu.2.ge ha, fun a ha => ?_, fun k1 k2 a ha => ⟨(k1.poss ha hu.2.1).symm, ?_⟩⟩
  · have h1 := hl.2.le ha; have h2 := hs.2.le ha; have h3 := he.1
    show e ≤ _
    omega
  · have h1 := k1.poss ha hl.2.1; have h2 := k2.poss ha hs.2.1; have h3 := he.1
    show e = _
    omega

/-- The mandatory parts. -/
def Parts (d : Doms) (r : Rect) (e : (Int × Int) × (Int × Int)) : Prop := Ends d r.x r.w e.1 ∧ Ends d r.y r.h e.2

theorem parts_roo (hd : DomsOK d) (hr : r.Valid d.length) : RightOrOverflow (parts d r) (Parts d r) :=
  (mand_roo hd hr.x hr.w).bind fun _ h1 => (mand_roo hd hr.y hr.h).bind fun _ h2 => .pure ⟨h1, h2⟩

/-- Neither is before the other, and both have a positive size. -/
def Forced (p w q v : VarId) (a : Asg) : Prop := q.eval a < p.eval a + w.eval a ∧ p.eval a < q.eval a + v.eval a ∧ 0 < w.eval a ∧ 0 < v.eval a

theorem Ends.forced {e f : Int × Int} (he : Ends d p w e) (hf : Ends d q v f) (ho : Overlap e f) (ha : Within d a) : Forced p w q v a := by
  have h1 := he.late a ha; have h2 := he.early a ha; have h3 := hf.late a ha; have h4 := hf.early a ha
  have ho : max e.1 f.1 < min e.2 f.2 := ho
  refine ⟨?_, ?_, ?_, ?_⟩ <;> omega

theorem not_packed (h1 : Forced r.x r.w s.x s.w a) (h2 : Forced r.y r.h s.y s.h a) : ¬ ((strict = false ∧ ((r.eval a).Flat ∨ (s.eval a).Flat)) ∨ (r.eval a).Clear (s.eval a)) := by
  obtain ⟨a1, a2, a3, a4⟩ := h1
  obtain ⟨b1, b2, b3, b4⟩ := h2
  simp only [Box.Flat, Box.Clear, Rect.eval]
  rintro (⟨_, (h | h) | (h | h)⟩ | h | h | h | h) <;> omega

/-- They overlap if they are where they are known to be, and they have an area. -/
def Hit (d : Doms) (r s : Rect) : Prop := ∀ a, Within d a → Forced r.x r.w s.x s.w a ∧ Forced r.y r.h s.y s.h a

theorem collides_roo (hd : DomsOK d) {e : (Int × Int) × (Int × Int)} (he : Parts d r e) (hs : s.Valid d.length) :
    RightOrOverflow (collides d e s) (fun b => (b = true → Hit d r s) ∧ (b = false → r.Set d → s.Set d → ¬ Hit d r s)) := by
  refine (parts_roo hd hs).bind fun f hf => ?_
  obtain ⟨b, hb⟩ := exists_within hd
  have key : r.Set d → s.Set d → Hit d r s → Overlap e.1 f.1 ∧ Overlap e.2 f.2 ∧ ¬ Void f := by
    rintro ⟨k1, k2, k3, k4⟩ ⟨l1, l2, l3, l4⟩ h
    obtain ⟨⟨a1, a2, a3, a4⟩, ⟨b1, b2, b3, b4⟩⟩ := h b hb
    have e1 := he.1.known k1 k3 b hb; have e2 := he.2.known k2 k4 b hb; have e3 := hf.1.known l1 l3 b hb; have e4 := hf.2.known l2 l4 b hb
    refine ⟨?_, ?_, ?_⟩
    · show max _ _ < min _ _
      omega
    · show max _ _ < min _ _
      omega
    · rintro (h | h) <;> omega
  split
  · exact .pure ⟨fun h => (nomatch h), fun _ k1 k2 h => (key k1 k2 h).2.2 ‹_›⟩
  · refine .pure ⟨fun h a ha => ?_, fun h k1 k2 hh => ?_⟩
    · have h := of_decide_eq_true h
      exact ⟨he.1.forced hf.1 h.1 ha, he.2.forced hf.2 h.2 ha⟩
    · have := of_decide_eq_false h
      exact this ⟨(key k1 k2 hh).1, (key k1 k2 hh).2.1⟩

theorem void_of {e : (Int × Int) × (Int × Int)} (he : Parts d r e) (hb : Within d a) (hk : r.Set d) (h : Void e) : ¬ Hit d r s := by
  intro hh
  obtain ⟨⟨a1, a2, a3, a4⟩, ⟨b1, b2, b3, b4⟩⟩ := hh a hb
  have e1 := he.1.known hk.1 hk.2.2.1 a hb; have e2 := he.2.known hk.2.1 hk.2.2.2 a hb
  rcases h with h | h <;> omega

theorem collision_roo (hd : DomsOK d) : ∀ rs : List Rect, (∀ r ∈ rs, r.Valid d.length) →
    RightOrOverflow (collision d rs) (fun b => (b = true → ¬ rs.Pairwise fun r s => ¬ Hit d r s) ∧ (b = false → (∀ r ∈ rs, r.Set d) → rs.Pairwise fun r s => ¬ Hit d r s))
  | [], _ => .pure ⟨fun h => (nomatch h), fun _ _ => .nil⟩
  | r :: rs, hv => by
    obtain ⟨c, hc⟩ := exists_within hd
    refine (parts_roo hd (hv r List.mem_cons_self)).bind fun e he => ?_
    have ih := collision_roo hd rs fun s hs => hv s (List.mem_cons_of_mem _ hs)
    split
    · refine ih.mono fun b hb => ⟨fun h hp => hb.1 h (List.pairwise_cons.1 hp).2, fun h hk => List.pairwise_cons.2 ⟨fun s _ => void_of he hc (hk r List.mem_cons_self) ‹_›, hb.2 h fun s hs => hk s (List.mem_cons_of_mem _ hs)⟩⟩
    · have any : ∀ rs : List Rect, (∀ s ∈ rs, s.Valid d.length) → RightOrOverflow (anyOf (collides d e) rs) (fun b => (b = true → ∃ s ∈ rs, Hit d r s) ∧ (b = false → r.Set d → (∀ s ∈ rs, s.Set d) → ∀ s ∈ rs, ¬ Hit d r s)) := by
        intro rs
        induction rs with
        | nil => exact fun _ => .pure ⟨fun h => (nomatch h), fun _ _ _ s hs => (nomatch hs)⟩
        | cons s rs ih =>
          intro hv
          refine (collides_roo hd he (hv s List.mem_cons_self)).bind fun b hb => ?_
          cases b with
          | true => exact .pure ⟨fun _ => ⟨s, List.mem_cons_self, hb.1 rfl⟩, fun h => (nomatch h)⟩
          | false =>
            refine (ih fun t ht => hv t (List.mem_cons_of_mem _ ht)).mono fun c hc => ⟨fun h => ?_, fun h k1 k2 t ht => ?_⟩
            · obtain ⟨t, h1, h2⟩ := hc.1 h
              exact ⟨t, List.mem_cons_of_mem _ h1, h2⟩
            · rcases List.mem_cons.1 ht with rfl | ht
              · exact hb.2 rfl k1 (k2 _ List.mem_cons_self)
              · exact hc.2 h k1 (fun t ht => k2 t (List.mem_cons_of_mem _ ht)) t ht
      refine (any rs fun s hs => hv s (List.mem_cons_of_mem _ hs)).bind fun b hb => ?_
      cases b with
      | true =>
        obtain ⟨s, h1, h2⟩ := hb.1 rfl
        exact .pure ⟨fun _ hp => (List.pairwise_cons.1 hp).1 s h1 h2, fun h => (nomatch h)⟩
      | false =>
        exact ih.mono fun c hc => ⟨fun h hp => hc.1 h (List.pairwise_cons.1 hp).2, fun h hk =>
          List.pairwise_cons.2 ⟨hb.2 rfl (hk r List.mem_cons_self) fun s hs => hk s (List.mem_cons_of_mem _ hs), hc.2 h fun s hs => hk s (List.mem_cons_of_mem _ hs)⟩⟩

theorem InI64.min {x y : Int} (hx : InI64 x) (hy : InI64 y) : InI64 (min x y) := by
  simp only [InI64, i64Min, i64Max] at *; omega

theorem InI64.max {x y : Int} (hx : InI64 x) (hy : InI64 y) : InI64 (max x y) := by
  simp only [InI64, i64Min, i64Max] at *; omega

/-- What is inferred holds if one is before the other. -/
theorem pushed_roo (hd : DomsOK d) (hp : p.Valid d.length) (hw : w.Valid d.length) (hq : q.Valid d.length) (hv : v.Valid d.length) (hn : ∀ a, Within d a → 0 ≤ w.eval a) :
    RightOrOverflow (pushed d p w q v) (fun o => ∀ l, o = some l → l.Valid d.length ∧ ∀ a, Within d a →
      (0 < w.eval a → 0 < v.eval a → p.eval a + w.eval a ≤ q.eval a ∨ q.eval a + v.eval a ≤ p.eval a) → l.holds a) := by
  refine (lower_roo hd hw).bind fun sz hsz => ?_
  split
  · exact .pure fun _ h => (nomatch h)
  refine (bounds_roo hd hp).bind fun cur hcur => (upper_roo hd hq).bind fun lo hlo => (lower_roo hd hq).bind fun l hl => (lower_roo hd hv).bind fun y hy => (add_roo hl.1 hy.1).bind fun hi hhi => ?_
  split
  · exact .pure fun _ h => (nomatch h)
  rename_i hnz hne
  refine (sub_roo hlo.1 hsz.1).bind fun c hc => ?_
  have facts : ∀ a, Within d a → 0 < sz ∧ sz ≤ w.eval a ∧ cur.1 ≤ p.eval a ∧ p.eval a ≤ cur.2 ∧ q.eval a ≤ lo ∧ l ≤ q.eval a ∧ y ≤ v.eval a ∧ 0 < y := fun a ha => by
    have h1 := hsz.2.le ha; have h2 := hcur.1.2.le ha; have h3 := hcur.2.2.ge ha; have h4 := hlo.2.ge ha; have h5 := hl.2.le ha; have h6 := hy.2.le ha
    have h7 := hhi.1
    obtain ⟨b, hb, hb'⟩ := hl.2.1
    obtain ⟨b', hb1, hb2⟩ := hsz.2.1
    have h8 := hlo.2.ge hb
    have h9 := hn b' hb1
    refine ⟨?_, h1, h2, h3, h4, h5, h6, ?_⟩ <;> omega
  split
  · rename_i hcond
    refine (add_roo hcur.2.1 (by decide)).bind fun cap hcap => .pure fun l' h => ?_
    cases h
    refine ⟨.ge hp (InI64.min hhi.2 hcap.2), fun a ha hor => Lit.holds_ge.2 ?_⟩
    obtain ⟨f0, f1, f2, f3, f4, f5, f6, f7⟩ := facts a ha
    have e1 := hc.1; have e2 := hcap.1; have e3 := hhi.1
    have := hor (by omega) (by omega)
    omega
  · split
    · rename_i hcond
      refine (sub_roo hcur.1.1 (by decide)).bind fun cap hcap => (add_roo (InI64.max hc.2 hcap.2) (by decide)).bind fun t ht => .pure fun l' h => ?_
      cases h
      refine ⟨.lt hp ht.2, fun a ha hor => Lit.holds_lt.2 ?_⟩
      obtain ⟨f0, f1, f2, f3, f4, f5, f6, f7⟩ := facts a ha
      have e1 := hc.1; have e2 := hcap.1; have e3 := hhi.1; have e4 := ht.1
      have := hor (by omega) (by omega)
      omega
    · exact .pure fun _ h => (nomatch h)

theorem fixed_roo (hd : DomsOK d) (hr : r.Valid d.length) : RightOrOverflow (fixed d r) (fun b => b = true ↔ r.Set d) := by
  obtain ⟨c, hc⟩ := exists_within hd
  have known : ∀ {x : VarId}, (∃ y, Pinned d x y) ↔ Known d x := fun {x} => ⟨fun ⟨y, hy⟩ a b ha hb => (hy a ha).trans (hy b hb).symm, fun h => ⟨_, h.pinned hc⟩⟩
  have one : ∀ {x : VarId}, x.Valid d.length → RightOrOverflow (hasSingleValue d x) (fun b => b = true ↔ Known d x) := fun hx => (GlobalCardinality.single_roo' hd hx).mono fun b hb => hb.trans known
  refine (one hr.x).bind fun b1 h1 => ?_
  cases b1 with
  | false => exact .pure ⟨fun h => (nomatch h), fun h => by have := h1.2 h.1; cases this⟩
  | true =>
    refine (one hr.y).bind fun b2 h2 => ?_
    cases b2 with
    | false => exact .pure ⟨fun h => (nomatch h), fun h => by have := h2.2 h.2.1; cases this⟩
    | true =>
      refine (one hr.w).bind fun b3 h3 => ?_
      cases b3 with
      | false => exact .pure ⟨fun h => (nomatch h), fun h => by have := h3.2 h.2.2.1; cases this⟩
      | true => exact (one hr.h).mono fun b h4 => ⟨fun h => ⟨h1.1 rfl, h2.1 rfl, h3.1 rfl, h4.1 h⟩, fun h => h4.2 h.2.2.2⟩

theorem zeroArea_roo (hd : DomsOK d) (hr : r.Valid d.length) (hk : r.Set d) (ha : Within d a) : RightOrOverflow (zeroArea d strict r) (fun b => b = true ↔ strict = true ∧ (r.eval a).Flat) := by
  unfold zeroArea
  cases strict with
  | false => exact .pure ⟨fun h => (nomatch h), fun h => (nomatch h.1)⟩
  | true =>
    refine (lower_roo hd hr.w).bind fun x hx => ?_
    have ex := hk.2.2.1.poss ha hx.2.1
    split
    · exact .pure ⟨fun _ => ⟨rfl, .inl (by show r.w.eval a = 0; omega)⟩, fun _ => rfl⟩
    · refine (lower_roo hd hr.h).bind fun y hy => .pure ?_
      have ey := hk.2.2.2.poss ha hy.2.1
      rw [decide_eq_true_iff]
      refine ⟨fun h => ⟨rfl, .inr (by show r.h.eval a = 0; omega)⟩, ?_⟩
      rintro ⟨_, h | h⟩
      · have h : r.w.eval a = 0 := h
        omega
      · have h : r.h.eval a = 0 := h
        omega

theorem before_roo (hd : DomsOK d) (hp : p.Valid d.length) (hw : w.Valid d.length) (hq : q.Valid d.length) (kp : Known d p) (kw : Known d w) (kq : Known d q) (ha : Within d a) :
    RightOrOverflow (before d p w q) (fun b => b = true ↔ p.eval a + w.eval a ≤ q.eval a) := by
  refine (lower_roo hd hp).bind fun x hx => (lower_roo hd hw).bind fun y hy => (add_roo hx.1 hy.1).bind fun e he => (lower_roo hd hq).bind fun z hz => .pure ?_
  have e1 := kp.poss ha hx.2.1; have e2 := kw.poss ha hy.2.1; have e3 := kq.poss ha hz.2.1; have e4 := he.1
  rw [decide_eq_true_iff]
  omega

theorem clear_roo (hd : DomsOK d) (hr : r.Valid d.length) (hs : s.Valid d.length) (kr : r.Set d) (ks : s.Set d) (ha : Within d a) :
    RightOrOverflow (clear d r s) (fun b => b = true ↔ (r.eval a).Clear (s.eval a)) := by
  obtain ⟨k1, k2, k3, k4⟩ := kr
  obtain ⟨l1, l2, l3, l4⟩ := ks
  refine (before_roo hd hr.x hr.w hs.x k1 k3 l1 ha).bind fun b1 h1 => ?_
  cases b1 with
  | true => exact .pure ⟨fun _ => .inl (h1.1 rfl), fun _ => rfl⟩
  | false =>
    refine (before_roo hd hs.x hs.w hr.x l1 l3 k1 ha).bind fun b2 h2 => ?_
    cases b2 with
    | true => exact .pure ⟨fun _ => .inr (.inl (h2.1 rfl)), fun _ => rfl⟩
    | false =>
      refine (before_roo hd hr.y hr.h hs.y k2 k4 l2 ha).bind fun b3 h3 => ?_
      cases b3 with
      | true => exact .pure ⟨fun _ => .inr (.inr (.inl (h3.1 rfl))), fun _ => rfl⟩
      | false =>
        refine (before_roo hd hs.y hs.h hr.y l2 l4 k2 ha).mono fun b4 h4 => ⟨fun h => .inr (.inr (.inr (h4.1 h))), ?_⟩
        rintro (h | h | h | h)
        · exact absurd (h1.2 h) (by decide)
        · exact absurd (h2.2 h) (by decide)
        · exact absurd (h3.2 h) (by decide)
        · exact h4.2 h

/-- A rectangle without area lies in another one, and everything about both is known. -/
def Sunk (d : Doms) (strict : Bool) (r s : Rect × Nat) : Prop := r.1.Set d ∧ s.1.Set d ∧ strict = true ∧ r.2 ≠ s.2 ∧ ∀ a, Within d a → (r.1.eval a).Flat ∧ ¬ (r.1.eval a).Clear (s.1.eval a)

theorem eval_known {b : Asg} (hk : r.Set d) (ha : Within d a) (hb : Within d b) : r.eval a = r.eval b := by
  simp only [Rect.eval, hk.1 a b ha hb, hk.2.1 a b ha hb, hk.2.2.1 a b ha hb, hk.2.2.2 a b ha hb]

theorem leaf_roo (hd : DomsOK d) (hv : ∀ r ∈ rs, r.Valid d.length) : RightOrOverflow (leaf d strict rs) (fun b => b = true ↔ ∃ r ∈ rs.zipIdx, ∃ s ∈ rs.zipIdx, Sunk d strict r s) := by
  obtain ⟨c, hc⟩ := exists_within hd
  have val : ∀ r ∈ rs.zipIdx, r.1.Valid d.length := fun r hr => hv _ (List.fst_mem_of_mem_zipIdx hr)
  refine anyOf_roo _ fun r hr => ?_
  refine (fixed_roo hd (val r hr)).bind fun b1 h1 => ?_
  cases b1 with
  | false => exact .pure ⟨fun h => (nomatch h), fun ⟨s, _, h⟩ => by have := h1.2 h.1; cases this⟩
  | true =>
    refine (zeroArea_roo (strict := strict) hd (val r hr) (h1.1 rfl) hc).bind fun b2 h2 => ?_
    cases b2 with
    | false => exact .pure ⟨fun h => (nomatch h), fun ⟨s, _, h⟩ => by have := h2.2 ⟨h.2.2.1, (h.2.2.2.2 c hc).1⟩; cases this⟩
    | true =>
      refine anyOf_roo _ fun s hs => ?_
      unfold inside
      split
      · exact .pure ⟨fun h => (nomatch h), fun h => absurd ‹s.2 = r.2›.symm h.2.2.2.1⟩
      · rename_i hne
        refine (fixed_roo hd (val s hs)).bind fun b3 h3 => ?_
        cases b3 with
        | false => exact .pure ⟨fun h => (nomatch h), fun h => by have := h3.2 h.2.1; cases this⟩
        | true =>
          refine (clear_roo hd (val r hr) (val s hs) (h1.1 rfl) (h3.1 rfl) hc).bind fun b4 h4 => .pure ?_
          cases b4 with
          | true => exact ⟨fun h => (nomatch h), fun h => absurd (h4.1 rfl) (h.2.2.2.2 c hc).2⟩
          | false =>
            refine ⟨fun _ => ⟨h1.1 rfl, h3.1 rfl, (h2.1 rfl).1, fun h => hne h.symm, fun a ha => ?_⟩, fun _ => rfl⟩
            rw [eval_known (h1.1 rfl) ha hc, eval_known (h3.1 rfl) ha hc]
            exact ⟨(h2.1 rfl).2, fun h => by have := h4.2 h; cases this⟩

end
end Gcs.Disjunctive2D
