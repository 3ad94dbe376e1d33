import Verif.Lemmas.Cons.CumulativeTable

/-! The overload check. -/

namespace Gcs.Cumulative
open IntervalSet

section
variable {d root : Doms} {t j : Task} {ts es : List Task} {a : Asg} {u A B cap : Int} {n : Nat} {w : Int × Int} {v : List Int} {o : Overload} {profile : Bool}

/-- A task the check can use. -/
structure Good (d : Doms) (t : Task) : Prop where
  sure : t.Sure d
  length : 0 < least d t.length
  height : 0 < least d t.height

noncomputable def cd (d : Doms) (t : Task) : Cand :=
  ⟨least d t.start, greatest d t.start + least d t.length, least d t.length * least d t.height, least d t.height * max 0 (least d t.start + least d t.length - greatest d t.start)⟩

/-- All of it is in range. -/
def Tame (c : Cand) : Prop := InI64 c.est ∧ InI64 c.lct ∧ InI64 c.energy ∧ InI64 c.mandatory

open Classical in
theorem candidates_roo (hd : DomsOK d) : ∀ es : List Task, (∀ t ∈ es, t.Valid d.length ∧ ∀ a, Within d a → t.Sane a) →
    RightOrOverflow (candidates d es) (fun cs => cs = (es.filter fun t => decide (Good d t)).map (cd d) ∧ ∀ c ∈ cs, Tame c)
  | [], _ => .pure ⟨rfl, fun _ h => nomatch h⟩
  | t :: es, hv => by
    have ih := candidates_roo hd es fun s hs => hv s (List.mem_cons_of_mem _ hs)
    obtain ⟨ht, sane⟩ := hv t List.mem_cons_self
    have skip : ¬ Good d t → RightOrOverflow (candidates d es) (fun cs => cs = ((t :: es).filter fun t => decide (Good d t)).map (cd d) ∧ ∀ c ∈ cs, Tame c) := fun hn => by
      rw [List.filter_cons_of_neg (by simpa using hn)]; exact ih
    refine (isPresent_roo hd ht sane).bind fun b hb => ?_
    cases b with
    | false => exact skip fun h => nomatch hb.2 h.sure
    | true =>
      refine (low_roo hd ht.length).bind fun p hp => (low_roo hd ht.height).bind fun h hh => ?_
      have e1 := hp.1; have e2 := hh.1
      split
      · rename_i hle
        exact skip fun g => by have := g.length; have := g.height; omega
      · have good : Good d t := ⟨hb.1 rfl, by omega, by omega⟩
        refine (ends_roo hd ht.start).bind fun b hb' => (add_roo hb'.2.2.2 hp.2).bind fun lct hlct => (mul_roo hp.2 hh.2).bind fun en hen => (add_roo hb'.2.2.1 hp.2).bind fun e he => (sub_roo he.2 hb'.2.2.2).bind fun len hlen =>
          (mul_roo hh.2 (Disjunctive2D.InI64.max (by decide) hlen.2)).bind fun ma hma => ih.bind fun cs hcs => .pure ?_
        have eq : (⟨b.1, lct, en, ma⟩ : Cand) = cd d t := by
          have f1 := hb'.1; have f2 := hb'.2.1; have f3 := hlct.1; have f4 := hen.1; have f5 := he.1; have f6 := hlen.1; have f7 := hma.1
          unfold cd
          rw [f7, f6, f5, f4, f3, f2, f1, e1, e2]
        rw [List.filter_cons_of_pos (by simpa using good), List.map_cons, ← eq, hcs.1]
        refine ⟨rfl, fun c hc => ?_⟩
        rcases List.mem_cons.1 hc with rfl | hc
        · exact ⟨hb'.2.2.1, hlct.2, hen.2, hma.2⟩
        · exact hcs.2 c (hcs.1 ▸ hc)

/-- A task that has to run within the window uses that much. -/
theorem energy_le (hd : DomsOK d) (ht : t.Valid d.length) (g : Good d t) (hA : A ≤ (cd d t).est) (hB : (cd d t).lct ≤ B) (ha : Within d a) : (cd d t).energy ≤ tot (fun u => use a u t) (times A B) := by
  have h1 := (least_spec hd ht.start).le ha; have h2 := (greatest_spec hd ht.start).ge ha; have h3 := (least_spec hd ht.length).le ha; have h4 := (least_spec hd ht.height).le ha
  have g1 := g.length; have g2 := g.height
  simp only [cd] at hA hB ⊢
  have e : (fun u => use a u t) = fun u => if t.start.eval a ≤ u ∧ u < t.start.eval a + t.length.eval a then t.height.eval a else 0 := by
    funext u
    rw [use]
    by_cases h : t.start.eval a ≤ u ∧ u < t.start.eval a + t.length.eval a
    · rw [if_pos h, if_pos ⟨g.sure a ha, h⟩]
    · rw [if_neg h, if_neg fun k => h k.2]
  rw [e, tot_overlap (by omega), Int.mul_comm]
  exact Int.mul_le_mul h4 (by omega) (by omega) (by omega)

theorem mandatory_eq (hd : DomsOK d) (ht : t.Valid d.length) (g : Good d t) (hA : A ≤ (cd d t).est) (hB : (cd d t).lct ≤ B) : (cd d t).mandatory = tot (fun u => must d u t) (times A B) := by
  have h1 := least_le hd ht.start
  have g1 := g.length
  simp only [cd] at hA hB ⊢
  have e : (fun u => must d u t) = fun u => if greatest d t.start ≤ u ∧ u < least d t.start + least d t.length then least d t.height else 0 := by
    funext u
    rw [must]
    by_cases h : greatest d t.start ≤ u ∧ u < least d t.start + least d t.length
    · rw [if_pos h, if_pos ⟨g.sure, h⟩]
    · rw [if_neg h, if_neg fun k => h k.2]
  rw [e, tot_overlap (by omega)]
  congr 1
  omega

theorem mandatory_le (hd : DomsOK d) (ht : t.Valid d.length) (g : Good d t) : (cd d t).mandatory ≤ (cd d t).energy := by
  have h1 := least_le hd ht.start
  have g1 := g.length; have g2 := g.height
  simp only [cd]
  rw [Int.mul_comm (least d t.length)]
  exact Int.mul_le_mul_of_nonneg_left (by omega) (by omega)

theorem energy_nonneg (g : Good d t) : 0 ≤ (cd d t).energy := by
  have g1 := g.length; have g2 := g.height
  exact Int.mul_nonneg (by omega) (by omega)

/-- What comes before, with what ends later left out. -/
theorem prefix_le {q : Cand → Int} {l r S : List Cand} (e : S = l ++ r) (h1 : ∀ c ∈ l, c.lct ≤ B) (h2 : ∀ c ∈ S, 0 ≤ q c) :
    tot q (l.filter fun c => decide (A ≤ c.est)) ≤ tot (fun c => if A ≤ c.est ∧ c.lct ≤ B then q c else 0) S := by
  have nn : ∀ c ∈ S, 0 ≤ if A ≤ c.est ∧ c.lct ≤ B then q c else 0 := fun c hc => by
    split
    · exact h2 c hc
    · exact Int.le_refl 0
  have k1 : tot q (l.filter fun c => decide (A ≤ c.est)) = tot (fun c => if A ≤ c.est ∧ c.lct ≤ B then q c else 0) l := by
    rw [tot_filter]
    refine tot_congr fun c hc => ?_
    by_cases h : A ≤ c.est
    · rw [if_pos (by simpa using h), if_pos ⟨h, h1 c hc⟩]
    · rw [if_neg (by simpa using h), if_neg fun k => h k.1]
  have k2 := tot_nonneg (l := r) fun c hc => nn c (by rw [e]; exact List.mem_append_right _ hc)
  rw [k1, e, tot_append]
  omega

theorem tot_map {α β : Type} {f : β → Int} {g : α → β} {l : List α} : tot f (l.map g) = tot (fun x => f (g x)) l := by
  simp only [tot, List.map_map]; rfl

open Classical in
/-- Those that have to run within the window, against all of them. -/
theorem contained_le {q : Cand → Int} {F : Task → Int} {p : Task → Bool} (e : es = ts.filter p) (h0 : ∀ t ∈ ts, 0 ≤ F t) (h1 : ∀ t ∈ ts, Good d t → A ≤ (cd d t).est → (cd d t).lct ≤ B → q (cd d t) ≤ F t) :
    tot (fun c => if A ≤ c.est ∧ c.lct ≤ B then q c else 0) (sortBy (·.lct) ((es.filter fun t => decide (Good d t)).map (cd d))) ≤ tot F ts := by
  rw [tot_sortBy, tot_map, tot_filter, e, tot_filter]
  refine tot_le fun t ht => ?_
  split
  · split
    · rename_i hg
      split
      · rename_i hw
        exact h1 t ht (of_decide_eq_true hg) hw.1 hw.2
      · exact h0 t ht
    · exact h0 t ht
  · exact h0 t ht

/-- What is set up for the check: when something may run at all. -/
structure Slots (root : Doms) (ts : List Task) (o : Overload) : Prop where
  tasks : ∃ p : Task → Bool, o.tasks = ts.filter p
  lo : InI64 o.lo
  slots : ∃ (k : Nat) (cov : Int → Int), Vec o.slots o.lo (k + 1) (fun u => tot cov (times o.lo u)) ∧ Fine o.lo (k + 1) (fun u => tot cov (times o.lo u)) ∧
    (∀ t ∈ ts, o.lo ≤ least root t.start ∧ greatest root t.start + greatest root t.length ≤ o.lo + k) ∧
    ∀ u, o.lo ≤ u → u < o.lo + k → cov u = 1 ∨ (cov u = 0 ∧ ∀ a, Within root a → ∀ t ∈ ts, use a u t = 0)

open Classical in
theorem window_roo {k m : Nat} {cov : Int → Int} {sum : List Int} {S : List Cand} {lo : Int} {p : Task → Bool}
    (hd : DomsOK d) (hv : ∀ t ∈ ts, t.Valid d.length) (hsane : ∀ a, Within d a → ∀ t ∈ ts, t.Sane a) (hr : ∀ a, Within d a → Within root a) (hcap : InI64 cap)
    (hp : es = ts.filter p) (hS : S = sortBy (·.lct) ((es.filter fun t => decide (Good d t)).map (cd d))) (tame : ∀ c ∈ S, Tame c) (hA : InI64 A)
    (o1 : InI64 o.lo) (o2 : Vec o.slots o.lo (k + 1) (fun u => tot cov (times o.lo u))) (o3 : Fine o.lo (k + 1) (fun u => tot cov (times o.lo u)))
    (o4 : o.lo ≤ A) (o5 : ∀ c ∈ S, c.est ≤ c.lct ∧ c.lct ≤ o.lo + k) (o6 : ∀ u, o.lo ≤ u → u < o.lo + k → cov u = 1 ∨ (cov u = 0 ∧ ∀ a, Within root a → ∀ t ∈ ts, use a u t = 0))
    (s1 : InI64 lo) (s2 : Vec sum lo (m + 1) (fun u => tot (fun u => tot (must d u) ts) (times lo u))) (s3 : Fine lo (m + 1) (fun u => tot (fun u => tot (must d u) ts) (times lo u)))
    (s4 : lo ≤ A) (s5 : ∀ c ∈ S, c.lct ≤ lo + m) :
    ∀ (cs pre : List Cand) (energy inside : Int), S = pre ++ cs → InI64 energy → InI64 inside → energy = tot (·.energy) (pre.filter fun c => decide (A ≤ c.est)) → inside = tot (·.mandatory) (pre.filter fun c => decide (A ≤ c.est)) →
      RightOrOverflow (window profile o cap lo sum A cs energy inside) (fun b => b = true → ∀ a, Within d a → Over ts cap a)
  | [], _, _, _, _, _, _, _, _ => .pure fun h => nomatch h
  | c :: cs, pre, energy, inside, e, he, hi, e1, e2 => by
    have ih := window_roo hd hv hsane hr hcap hp hS tame hA o1 o2 o3 o4 o5 o6 s1 s2 s3 s4 s5 cs (pre ++ [c])
    rw [List.append_assoc, List.singleton_append] at ih
    have mc : c ∈ S := by rw [e]; simp
    unfold window
    split
    · rename_i hlt
      refine ih energy inside e he hi ?_ ?_
      all_goals rw [List.filter_append, List.filter_cons_of_neg (by simpa using hlt)]; simpa using ‹_›
    · rename_i hge
      have t0 := tame c mc
      have ins : ∀ f : Cand → Int, tot f ((pre ++ [c]).filter fun c => decide (A ≤ c.est)) = tot f (pre.filter fun c => decide (A ≤ c.est)) + f c := fun f => by
        rw [List.filter_append, List.filter_cons_of_pos (by simp only [decide_eq_true_eq]; omega)]; simp
      have w1 := o5 c mc; have w2 := s5 c mc
      refine (add_roo he t0.2.2.1).bind fun en hen => (add_roo hi t0.2.2.2).bind fun inn hinn => (between_roo o2 o3 o1 hA t0.2.1 o4 (by omega) w1.2).bind fun width hwidth => (mul_roo hcap hwidth.2).bind fun supply hsupply =>
        (between_roo s2 s3 s1 hA t0.2.1 s4 (by omega) w2).bind fun prof hprof => (sub_roo hprof.2 hinn.2).bind fun rest hrest => ?_
      have hrest' : InI64 (if profile = true then rest else 0) := by
        split
        · exact hrest.2
        · decide
      refine (add_roo hen.2 hrest').bind fun total htotal => ?_
      have een : en = tot (·.energy) ((pre ++ [c]).filter fun c => decide (A ≤ c.est)) := by rw [ins, hen.1, e1]
      have einn : inn = tot (·.mandatory) ((pre ++ [c]).filter fun c => decide (A ≤ c.est)) := by rw [ins, hinn.1, e2]
      split
      · exact ih en inn e hen.2 hinn.2 een einn
      · rename_i hover
        refine .pure fun _ a ha => Classical.byContradiction fun hno => hover ?_
        have used : ∀ u, tot (use a u) ts ≤ cap := fun u => Classical.byContradiction fun h => hno ⟨u, by omega⟩
        have good : ∀ x ∈ S, ∃ t ∈ ts, Good d t ∧ x = cd d t := fun x hx => by
          rw [hS, mem_sortBy] at hx
          obtain ⟨t, ht, rfl⟩ := List.mem_map.1 hx
          have := List.mem_filter.1 ht
          rw [hp] at this
          exact ⟨t, (List.mem_filter.1 this.1).1, of_decide_eq_true this.2, rfl⟩
        have sorted : S.Pairwise (fun x y => x.lct ≤ y.lct) := hS ▸ sortBy_sorted
        have ends : ∀ x ∈ pre ++ [c], x.lct ≤ c.lct := fun x hx => by
          rw [e, List.pairwise_append] at sorted
          rcases List.mem_append.1 hx with hx | hx
          · exact sorted.2.2 x hx c List.mem_cons_self
          · rw [List.mem_singleton.1 hx]; exact Int.le_refl _
        have esplit : S = (pre ++ [c]) ++ cs := by rw [e]; simp
        have supply_ge : tot (fun t => tot (fun u => use a u t) (times A c.lct)) ts ≤ supply := by
          rw [tot_swap, hsupply.1, hwidth.1, ← tot_mul]
          refine tot_le fun u hu => ?_
          rw [mem_times] at hu
          rcases o6 u (by omega) (by omega) with h | ⟨h, h0⟩
          · rw [h, Int.mul_one]; exact used u
          · rw [h, Int.mul_zero, tot_congr fun t ht => h0 a (hr a ha) t ht, tot_zero]; exact Int.le_refl 0
        have usn : ∀ t ∈ ts, 0 ≤ tot (fun u => use a u t) (times A c.lct) := fun t ht => tot_nonneg fun u _ => use_nonneg (hsane a ha t ht)
        have f1 := htotal.1; have f2 := hrest.1; have f3 := hprof.1
        cases profile with
        | false =>
          have key := Int.le_trans (prefix_le (q := (·.energy)) (A := A) esplit ends fun x hx => by obtain ⟨t, _, g, rfl⟩ := good x hx; exact energy_nonneg g)
            (hS ▸ contained_le (q := (·.energy)) (F := fun t => tot (fun u => use a u t) (times A c.lct)) (A := A) (B := c.lct) hp usn fun t ht g h1 h2 => energy_le hd (hv t ht) g h1 h2 ha)
          simp only [Bool.false_eq_true, if_false] at f1
          omega
        | true =>
          have key := Int.le_trans (prefix_le (q := fun x => x.energy - x.mandatory) (A := A) esplit ends fun x hx => by
              obtain ⟨t, ht, g, rfl⟩ := good x hx
              have := mandatory_le hd (hv t ht) g
              show 0 ≤ (cd d t).energy - (cd d t).mandatory
              omega)
            (hS ▸ contained_le (q := fun x => x.energy - x.mandatory) (F := fun t => tot (fun u => use a u t) (times A c.lct) - tot (fun u => must d u t) (times A c.lct)) (A := A) (B := c.lct) hp
              (fun t ht => by
                have := tot_le (l := times A c.lct) fun u _ => must_le (u := u) hd (hv t ht) ha (hsane a ha t ht)
                omega)
              fun t ht g h1 h2 => by
                have k1 := energy_le hd (hv t ht) g h1 h2 ha
                have k2 := mandatory_eq hd (hv t ht) g h1 h2
                show (cd d t).energy - (cd d t).mandatory ≤ _
                omega)
          rw [tot_sub, tot_sub, tot_swap (f := fun t u => must d u t)] at key
          simp only [if_true] at f1
          have f4 : tot (fun y => tot (fun x => must d y x) ts) (times A c.lct) = prof := f3.symm
          have een : en = tot Cand.energy _ := een
          have einn : inn = tot Cand.mandatory _ := einn
          rw [f4, ← een, ← einn] at key
          omega

theorem overloaded_roo (sc : Scene d ts w v n) (hs : Slots root ts o) (hr : ∀ a, Within d a → Within root a) (hroot : DomsOK root) (hl : root.length = d.length) (hcap : InI64 cap) :
    RightOrOverflow (overloaded profile o cap w.1 v d) (fun b => b = true → ∀ a, Within d a → Over ts cap a) := by
  classical
  obtain ⟨⟨p, hp⟩, o1, k, cov, o2, o3, o4, o5⟩ := hs
  have sub : ∀ t ∈ o.tasks, t ∈ ts := fun t ht => (List.mem_filter.1 (hp ▸ ht)).1
  have size := sc.vec.size
  have hn := sc.size
  unfold overloaded
  refine (sums_roo (v := v) (lo := w.1) (x := 0) (g := fun u => tot (must d u) ts) (by rw [size]; exact sc.vec) (by rw [size]; exact sc.fine) (by decide)).bind fun sum hsum => ?_
  rw [size] at hsum
  simp only [Int.zero_add] at hsum
  refine (candidates_roo sc.ok o.tasks fun t ht => ⟨sc.valid t (sub t ht), fun a ha => sc.sane a ha t (sub t ht)⟩).bind fun cs hcs => ?_
  have good : ∀ x ∈ cs, ∃ t ∈ ts, Good d t ∧ x = cd d t := fun x hx => by
    rw [hcs.1] at hx
    obtain ⟨t, ht, rfl⟩ := List.mem_map.1 hx
    have := List.mem_filter.1 ht
    exact ⟨t, sub t this.1, of_decide_eq_true this.2, rfl⟩
  have lims : ∀ x ∈ cs, o.lo ≤ x.est ∧ w.1 ≤ x.est ∧ x.est ≤ x.lct ∧ x.lct ≤ o.lo + k ∧ x.lct ≤ w.1 + n := fun x hx => by
    obtain ⟨t, ht, g, rfl⟩ := good x hx
    have vt := sc.valid t ht
    have sp := sc.horizon.2.2 t ht (g.sure.maybe sc.ok)
    have q := o4 t ht
    have vr : t.Valid root.length := hl ▸ vt
    have m1 := least_mono hroot sc.ok vr.start vt.start hr
    have m2 := greatest_mono hroot sc.ok vr.start vt.start hr
    have m3 := greatest_mono hroot sc.ok vr.length vt.length hr
    have m4 := least_le sc.ok vt.length
    have m5 := least_le sc.ok vt.start
    have g1 := g.length; have s1 := sp.lo; have s2 := sp.hi
    simp only [cd]
    refine ⟨?_, ?_, ?_, ?_, ?_⟩ <;> omega
  refine (Knapsack.anyOf_hit (P := fun _ => ∀ a, Within d a → Over ts cap a) _ fun A hA => ?_).mono fun b hb h => by obtain ⟨_, _, h⟩ := hb h; exact h
  have hA : A ∈ cs.map (·.est) := mem_sortBy.1 (mem_distinct hA)
  obtain ⟨x, hx, rfl⟩ := List.mem_map.1 hA
  have lx := lims x hx
  exact window_roo (root := root) (S := sortBy (·.lct) cs) (es := o.tasks) (p := p) (k := k) (m := n) (cov := cov) sc.ok sc.valid sc.sane hr hcap hp (by rw [hcs.1]) (fun c hc => hcs.2 c (mem_sortBy.1 hc)) (hcs.2 x hx).1
    o1 o2 o3 lx.1 (fun c hc => by have := lims c (mem_sortBy.1 hc); exact ⟨this.2.2.1, this.2.2.2.1⟩) o5 sc.horizon.1 hsum.1 hsum.2 lx.2.1 (fun c hc => (lims c (mem_sortBy.1 hc)).2.2.2.2)
    (sortBy (·.lct) cs) [] 0 0 rfl (by decide) (by decide) rfl rfl

end
end Gcs.Cumulative
