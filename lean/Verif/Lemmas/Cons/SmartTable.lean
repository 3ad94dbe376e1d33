import Verif.Model.Cons.SmartTable
import Verif.Lemmas.Cons.MinDistanceInstall

/-!
# Filtering with the entries of a row

`filter` keeps everything that is part of a way to satisfy the entry, and leaves nothing else.
-/

namespace Gcs.SmartTable

theorem insert_perm {x : Int} : ∀ {l : List Int}, (insert x l).Perm (x :: l)
  | [] => by simp [insert]
  | z :: zs => by
    rw [insert]
    split
    · exact .refl _
    · exact (insert_perm.cons z).trans (.swap ..)

theorem sort_perm : ∀ {l : List Int}, (sort l).Perm l
  | [] => by simp [sort]
  | x :: xs => insert_perm.trans (sort_perm.cons x)

theorem mem_sort {x : Int} {l : List Int} : x ∈ sort l ↔ x ∈ l := sort_perm.mem_iff

theorem insert_sorted {x : Int} : ∀ {l : List Int}, l.Pairwise (· ≤ ·) → (insert x l).Pairwise (· ≤ ·)
  | [], _ => by simp [insert]
  | y :: ys, h => by
    rw [List.pairwise_cons] at h
    rw [insert]
    split
    · refine List.pairwise_cons.2 ⟨fun z hz => ?_, List.pairwise_cons.2 h⟩
      rcases List.mem_cons.1 hz with rfl | hz
      · assumption
      · have := h.1 z hz; omega
    · refine List.pairwise_cons.2 ⟨fun z hz => ?_, insert_sorted h.2⟩
      rcases List.mem_cons.1 (insert_perm.mem_iff.1 hz) with rfl | hz
      · omega
      · exact h.1 z hz

theorem sort_sorted : ∀ {l : List Int}, (sort l).Pairwise (· ≤ ·)
  | [] => .nil
  | _ :: _ => insert_sorted sort_sorted

theorem mem_inter {x : Int} : ∀ {l l' : List Int}, l.Nodup → (x ∈ inter l l' ↔ x ∈ l ∧ x ∈ l')
  | [], _, _ => by simp [inter]
  | y :: ys, l', h => by
    rw [List.nodup_cons] at h
    rw [inter]
    split
    · rename_i hy
      rw [List.mem_cons, mem_inter h.2, List.mem_cons]
      by_cases e : x = y
      · subst e; simp [hy]
      · rw [List.mem_erase_of_ne e]; simp [e]
    · rename_i hy
      rw [mem_inter h.2, List.mem_cons]
      constructor
      · exact fun k => ⟨.inr k.1, k.2⟩
      · rintro ⟨rfl | k, k2⟩
        · exact absurd k2 hy
        · exact ⟨k, k2⟩

theorem mem_diff {x : Int} : ∀ {l l' : List Int}, l.Nodup → (x ∈ diff l l' ↔ x ∈ l ∧ x ∉ l')
  | [], _, _ => by simp [diff]
  | y :: ys, l', h => by
    rw [List.nodup_cons] at h
    rw [diff]
    split
    · rename_i hy
      rw [mem_diff h.2, List.mem_cons]
      by_cases e : x = y
      · subst e
        exact ⟨fun k => absurd k.1 h.1, fun k => absurd hy k.2⟩
      · rw [List.mem_erase_of_ne e]; simp [e]
    · rename_i hy
      rw [List.mem_cons, mem_diff h.2, List.mem_cons]
      constructor
      · rintro (rfl | k)
        · exact ⟨.inl rfl, hy⟩
        · exact ⟨.inr k.1, k.2⟩
      · rintro ⟨rfl | k, k2⟩
        · exact .inl rfl
        · exact .inr ⟨k, k2⟩

theorem inter_nodup : ∀ {l l' : List Int}, l.Nodup → (inter l l').Nodup
  | [], _, _ => by simp [inter]
  | y :: ys, l', h => by
    rw [List.nodup_cons] at h
    rw [inter]
    split
    · exact List.nodup_cons.2 ⟨fun k => h.1 ((mem_inter h.2).1 k).1, inter_nodup h.2⟩
    · exact inter_nodup h.2

theorem diff_nodup : ∀ {l l' : List Int}, l.Nodup → (diff l l').Nodup
  | [], _, _ => by simp [diff]
  | y :: ys, l', h => by
    rw [List.nodup_cons] at h
    rw [diff]
    split
    · exact diff_nodup h.2
    · exact List.nodup_cons.2 ⟨fun k => h.1 ((mem_diff h.2).1 k).1, diff_nodup h.2⟩

theorem keep_ok {α : Type} {p : α → Chk Bool} {q : α → Bool} : ∀ {l : List α}, (∀ x ∈ l, p x = .ok (q x)) → Disjunctive2D.keep p l = .ok (l.filter q)
  | [], _ => rfl
  | x :: xs, h => by
    rw [Disjunctive2D.keep, h x (by simp), keep_ok fun y hy => h y (by simp [hy])]
    cases e : q x <;> simp [List.filter, e, bind, Except.bind, pure, Except.pure]

/-- The first of a sorted list is there, and is smallest. -/
theorem first_ok {l : List Int} (hs : l.Pairwise (· ≤ ·)) (hne : l ≠ []) : ∃ a ∈ l, vecAt l 0 = .ok a ∧ ∀ b ∈ l, a ≤ b := by
  cases l with
  | nil => exact absurd rfl hne
  | cons x xs =>
    refine ⟨x, by simp, rfl, fun b hb => ?_⟩
    rcases List.mem_cons.1 hb with rfl | hb
    · omega
    · exact (List.pairwise_cons.1 hs).1 b hb

theorem last_ok {l : List Int} (hs : l.Pairwise (· ≤ ·)) (hne : l ≠ []) : ∃ a ∈ l, vecAt l (l.length - 1) = .ok a ∧ ∀ b ∈ l, b ≤ a := by
  have hlen := List.length_pos_iff.2 hne
  have hlt : l.length - 1 < l.length := by omega
  refine ⟨l[l.length - 1], List.getElem_mem _, by simp [vecAt, List.getElem?_eq_getElem hlt], fun b hb => ?_⟩
  obtain ⟨i, hi, rfl⟩ := List.mem_iff_getElem.1 hb
  by_cases e : i = l.length - 1
  · subst e; omega
  · exact List.pairwise_iff_getElem.1 hs i (l.length - 1) hi hlt (by omega)

/-- What is left of two lists. -/
structure Narrowed (r : Rel) (l1 l2 : List Int) (n : List Int × List Int) : Prop where
  sub1 : ∀ v ∈ n.1, v ∈ l1
  sub2 : ∀ v ∈ n.2, v ∈ l2
  nodup1 : n.1.Nodup
  nodup2 : n.2.Nodup
  keep : ∀ v ∈ l1, ∀ w ∈ l2, r.holds v w → v ∈ n.1 ∧ w ∈ n.2
  supp1 : n.2 ≠ [] → ∀ v ∈ n.1, ∃ w ∈ n.2, r.holds v w
  supp2 : n.1 ≠ [] → ∀ w ∈ n.2, ∃ v ∈ n.1, r.holds v w

theorem vsFirst_ok {r : Rel} {l l' : List Int} {a : Int} (h : vecAt l 0 = .ok a) : vsFirst r l l' = .ok (l'.filter fun v => decide (r.holds v a)) :=
  keep_ok fun v _ => by rw [h]; rfl

theorem vsLast_ok {r : Rel} {l l' : List Int} {a : Int} (h : vecAt l (l.length - 1) = .ok a) : vsLast r l l' = .ok (l'.filter fun v => decide (r.holds v a)) :=
  keep_ok fun v _ => by rw [h]; rfl

theorem other {l : List Int} (hn : l.Nodup) (hne : l ≠ []) (h1 : l.length ≠ 1) (v : Int) : ∃ w ∈ l, w ≠ v := by
  match l, hn, hne, h1 with
  | [x], _, _, h1 => exact absurd rfl h1
  | x :: y :: zs, hn, _, _ =>
    by_cases e : x = v
    · refine ⟨y, by simp, fun h => ?_⟩
      rw [List.nodup_cons] at hn
      exact hn.1 (by rw [e, ← h]; simp)
    · exact ⟨x, by simp, e⟩

theorem narrow_spec {l1 l2 : List Int} (h1 : l1.Pairwise (· ≤ ·)) (h2 : l2.Pairwise (· ≤ ·)) (n1 : l1.Nodup) (n2 : l2.Nodup) (e1 : l1 ≠ []) (e2 : l2 ≠ []) (r : Rel) :
    ∃ n, narrow l1 l2 r = .ok n ∧ Narrowed r l1 l2 n := by
  obtain ⟨a1, ma1, va1, la1⟩ := first_ok h1 e1
  obtain ⟨a2, ma2, va2, la2⟩ := first_ok h2 e2
  obtain ⟨b1, mb1, vb1, lb1⟩ := last_ok h1 e1
  obtain ⟨b2, mb2, vb2, lb2⟩ := last_ok h2 e2
  cases r with
  | lt =>
    refine ⟨(l1.filter fun v => decide (Rel.lt.holds v b2), l2.filter fun v => decide (Rel.gt.holds v a1)), by rw [narrow, vsLast_ok vb2, vsFirst_ok va1]; rfl, ?_, ?_, n1.filter _, n2.filter _, ?_, ?_, ?_⟩ <;>
      simp only [List.mem_filter, decide_eq_true_eq] <;> simp only [Rel.holds]
    · exact fun v h => h.1
    · exact fun v h => h.1
    · intro v hv w hw h; have := la1 v hv; have := lb2 w hw; exact ⟨⟨hv, by omega⟩, hw, by omega⟩
    · intro _ v hv; have := la1 v hv.1; exact ⟨b2, ⟨mb2, by omega⟩, hv.2⟩
    · intro _ w hw; have := lb2 w hw.1; exact ⟨a1, ⟨ma1, by omega⟩, hw.2⟩
  | le =>
    refine ⟨(l1.filter fun v => decide (Rel.le.holds v b2), l2.filter fun v => decide (Rel.ge.holds v a1)), by rw [narrow, vsLast_ok vb2, vsFirst_ok va1]; rfl, ?_, ?_, n1.filter _, n2.filter _, ?_, ?_, ?_⟩ <;>
      simp only [List.mem_filter, decide_eq_true_eq] <;> simp only [Rel.holds]
    · exact fun v h => h.1
    · exact fun v h => h.1
    · intro v hv w hw h; have := la1 v hv; have := lb2 w hw; exact ⟨⟨hv, by omega⟩, hw, by omega⟩
    · intro _ v hv; have := la1 v hv.1; exact ⟨b2, ⟨mb2, by omega⟩, hv.2⟩
    · intro _ w hw; have := lb2 w hw.1; exact ⟨a1, ⟨ma1, by omega⟩, hw.2⟩
  | gt =>
    refine ⟨(l1.filter fun v => decide (Rel.gt.holds v a2), l2.filter fun v => decide (Rel.lt.holds v b1)), by rw [narrow, vsFirst_ok va2, vsLast_ok vb1]; rfl, ?_, ?_, n1.filter _, n2.filter _, ?_, ?_, ?_⟩ <;>
      simp only [List.mem_filter, decide_eq_true_eq] <;> simp only [Rel.holds]
    · exact fun v h => h.1
    · exact fun v h => h.1
    · intro v hv w hw h; have := lb1 v hv; have := la2 w hw; exact ⟨⟨hv, by omega⟩, hw, by omega⟩
    · intro _ v hv; have := lb1 v hv.1; exact ⟨a2, ⟨ma2, by omega⟩, hv.2⟩
    · intro _ w hw; have := la2 w hw.1; exact ⟨b1, ⟨mb1, by omega⟩, hw.2⟩
  | ge =>
    refine ⟨(l1.filter fun v => decide (Rel.ge.holds v a2), l2.filter fun v => decide (Rel.le.holds v b1)), by rw [narrow, vsFirst_ok va2, vsLast_ok vb1]; rfl, ?_, ?_, n1.filter _, n2.filter _, ?_, ?_, ?_⟩ <;>
      simp only [List.mem_filter, decide_eq_true_eq] <;> simp only [Rel.holds]
    · exact fun v h => h.1
    · exact fun v h => h.1
    · intro v hv w hw h; have := lb1 v hv; have := la2 w hw; exact ⟨⟨hv, by omega⟩, hw, by omega⟩
    · intro _ v hv; have := lb1 v hv.1; exact ⟨a2, ⟨ma2, by omega⟩, hv.2⟩
    · intro _ w hw; have := la2 w hw.1; exact ⟨b1, ⟨mb1, by omega⟩, hw.2⟩
  | eq =>
    refine ⟨(inter l1 l2, inter l1 l2), rfl, ?_, ?_, inter_nodup n1, inter_nodup n1, ?_, ?_, ?_⟩ <;> simp only [mem_inter n1, Rel.holds]
    · exact fun v h => h.1
    · exact fun v h => h.2
    · rintro v hv w hw rfl; exact ⟨⟨hv, hw⟩, hv, hw⟩
    · exact fun _ v hv => ⟨v, hv, rfl⟩
    · exact fun _ v hv => ⟨v, hv, rfl⟩
  | ne =>
    rw [narrow]
    split
    · rename_i h
      match l1, n1, h with
      | [a], n1, _ =>
        refine ⟨_, rfl, ?_, ?_, n1, diff_nodup n2, ?_, ?_, ?_⟩ <;> simp only [mem_diff n2, Rel.holds]
        · exact fun v h => h
        · exact fun v h => h.1
        · exact fun v hv w hw h => ⟨hv, hw, fun k => h ((List.mem_singleton.1 hv).trans (List.mem_singleton.1 k).symm)⟩
        · intro hne v hv
          obtain ⟨w, hw⟩ := List.exists_mem_of_ne_nil _ hne
          have hw' := (mem_diff n2).1 hw
          exact ⟨w, hw', fun e => hw'.2 (e ▸ hv)⟩
        · exact fun _ w hw => ⟨a, by simp, fun e => hw.2 (by simp [e])⟩
    · split
      · rename_i h
        match l2, n2, h with
        | [a], n2, _ =>
          refine ⟨_, rfl, ?_, ?_, diff_nodup n1, n2, ?_, ?_, ?_⟩ <;> simp only [mem_diff n1, Rel.holds]
          · exact fun v h => h.1
          · exact fun v h => h
          · exact fun v hv w hw h => ⟨⟨hv, fun k => h ((List.mem_singleton.1 k).trans (List.mem_singleton.1 hw).symm)⟩, hw⟩
          · exact fun _ w hw => ⟨a, by simp, fun e => hw.2 (by simp [e])⟩
          · intro hne v hv
            obtain ⟨w, hw⟩ := List.exists_mem_of_ne_nil _ hne
            have hw' := (mem_diff n1).1 hw
            exact ⟨w, hw', fun e => hw'.2 (e ▸ hv)⟩
      · rename_i k1 k2
        refine ⟨_, rfl, fun _ h => h, fun _ h => h, n1, n2, fun v hv w hw _ => ⟨hv, hw⟩, fun _ v _ => ?_, fun _ w _ => ?_⟩
        · obtain ⟨w, hw, e⟩ := other n2 e2 k2 v; exact ⟨w, hw, fun h => e h.symm⟩
        · obtain ⟨v, hv, e⟩ := other n1 e1 k1 w; exact ⟨v, hv, e⟩

/-- The variables of an entry are variables, and different. -/
def Proper (e : SmartEntry) : Prop := (∀ x ∈ e.vars, ∃ i, x = .simple i) ∧ e.vars.Nodup

/-- The variables have lists, without repetition. -/
def Lists (m : VMap) (xs : List VarId) : Prop := ∀ x ∈ xs, ∃ l, m x = some l ∧ l.Nodup

theorem Lists.mono {m : VMap} {xs ys : List VarId} (h : Lists m ys) (hs : ∀ x ∈ xs, x ∈ ys) : Lists m xs := fun x hx => h x (hs x hx)

/-- The values of these variables are among those that are there. -/
def Fits (s : VarId → Int) (m : VMap) (xs : List VarId) : Prop := ∀ x ∈ xs, s x ∈ m.at x

/-- What filtering does. -/
structure Step (e : SmartEntry) (m m' : VMap) : Prop where
  off : ∀ x, x ∉ e.vars → m' x = m x
  lists : Lists m' e.vars
  sub : ∀ x v, v ∈ m'.at x → v ∈ m.at x
  keep : ∀ s, Fits s m e.vars → e.sat s → Fits s m' e.vars
  supp : (∀ x ∈ e.vars, m'.at x ≠ []) → ∀ x ∈ e.vars, ∀ v ∈ m'.at x, ∃ s, e.sat s ∧ s x = v ∧ Fits s m' e.vars

theorem Step.all {e : SmartEntry} {m m' : VMap} (h : Step e m m') {xs : List VarId} (hm : Lists m xs) : Lists m' xs := by
  intro x hx
  by_cases k : x ∈ e.vars
  · exact h.lists x k
  · rw [h.off x k]; exact hm x hx

theorem Step.fits {e : SmartEntry} {m m' : VMap} (h : Step e m m') {s : VarId → Int} {xs : List VarId} (hs : Fits s m xs) (hv : ∀ x ∈ e.vars, x ∈ xs) (ht : e.sat s) : Fits s m' xs := by
  intro x hx
  by_cases k : x ∈ e.vars
  · exact h.keep s (fun y hy => hs y (hv y hy)) ht x k
  · rw [VMap.at, h.off x k]; exact hs x hx

theorem at_some {m : VMap} {x : VarId} {l : List Int} (h : m x = some l) : m.at x = l := by rw [VMap.at, h]; rfl

theorem get_simple {m : VMap} {i : Nat} {l : List Int} (h : m (.simple i) = some l) : getFor m (.simple i) = .ok l := by rw [getFor, h]

theorem set_simple {m : VMap} {i : Nat} {l l' : List Int} (h : m (.simple i) = some l) : setFor m l' (.simple i) = .ok (put m (.simple i) l') := by rw [setFor, h]

theorem put_self {m : VMap} {x : VarId} {l : List Int} : put m x l x = some l := by simp [put]

theorem put_other {m : VMap} {x y : VarId} {l : List Int} (h : y ≠ x) : put m x l y = m y := by simp [put, h]

theorem sort_ne {l : List Int} (h : l ≠ []) : sort l ≠ [] := fun e => h (List.Perm.nil_eq (e ▸ sort_perm)).symm

/-- One variable. -/
theorem step_one {e : SmartEntry} {m : VMap} {x : VarId} {l l' : List Int} {p : Int → Prop} (he : e.vars = [x]) (hp : ∀ s, e.sat s ↔ p (s x)) (hm : m x = some l) (hn : l'.Nodup) (hl : ∀ v, v ∈ l' ↔ v ∈ l ∧ p v) : Step e m (put m x l') where
  off y hy := put_other fun k => hy (by rw [he, k]; simp)
  lists y hy := by rw [he, List.mem_singleton] at hy; subst hy; exact ⟨l', put_self, hn⟩
  sub y v hv := by
    by_cases k : y = x
    · subst k; rw [at_some put_self] at hv; rw [at_some hm]; exact ((hl v).1 hv).1
    · rwa [VMap.at, put_other k] at hv
  keep s hs hsat y hy := by
    have hx := hs x (by rw [he]; simp)
    rw [he, List.mem_singleton] at hy; subst hy
    rw [at_some hm] at hx
    rw [at_some put_self]; exact (hl _).2 ⟨hx, (hp s).1 hsat⟩
  supp _ y hy v hv := by
    rw [he, List.mem_singleton] at hy; subst hy
    refine ⟨fun _ => v, (hp _).2 ((hl v).1 (by rwa [at_some put_self] at hv)).2, rfl, fun z hz => ?_⟩
    rw [he, List.mem_singleton] at hz; subst hz; exact hv

theorem filter_spec {e : SmartEntry} {m : VMap} (hp : Proper e) (hl : Lists m e.vars) (hne : ∀ x ∈ e.vars, m.at x ≠ []) : ∃ m', filter m e = .ok m' ∧ Step e m m' := by
  cases e with
  | value x v r =>
    obtain ⟨i, rfl⟩ := hp.1 x (by simp [SmartEntry.vars])
    obtain ⟨l, h1, h2⟩ := hl (.simple i) (by simp [SmartEntry.vars])
    refine ⟨_, by rw [filter, get_simple h1]; exact set_simple h1, step_one (p := fun w => r.holds w v) rfl (fun s => Iff.rfl) h1 ((sort_perm.nodup_iff.2 h2).filter _) fun w => ?_⟩
    simp [mem_sort]
  | set x vs mem =>
    obtain ⟨i, rfl⟩ := hp.1 x (by simp [SmartEntry.vars])
    obtain ⟨l, h1, h2⟩ := hl (.simple i) (by simp [SmartEntry.vars])
    have hn := sort_perm.nodup_iff.2 h2
    cases mem with
    | true => exact ⟨_, by rw [filter, get_simple h1]; exact set_simple h1, step_one (p := fun w => w ∈ vs) rfl (fun s => Iff.rfl) h1 (inter_nodup hn) fun w => by rw [mem_inter hn, mem_sort, mem_sort]⟩
    | false => exact ⟨_, by rw [filter, get_simple h1]; exact set_simple h1, step_one (p := fun w => w ∉ vs) rfl (fun s => Iff.rfl) h1 (diff_nodup hn) fun w => by rw [mem_diff hn, mem_sort, mem_sort]⟩
  | binary x y r =>
    obtain ⟨i, rfl⟩ := hp.1 x (by simp [SmartEntry.vars])
    obtain ⟨j, rfl⟩ := hp.1 y (by simp [SmartEntry.vars])
    have hij : VarId.simple j ≠ .simple i := fun e => by have := hp.2; rw [SmartEntry.vars, e] at this; simp at this
    obtain ⟨l1, h1, g1⟩ := hl (.simple i) (by simp [SmartEntry.vars])
    obtain ⟨l2, h2, g2⟩ := hl (.simple j) (by simp [SmartEntry.vars])
    have k1 := hne (.simple i) (by simp [SmartEntry.vars]); rw [at_some h1] at k1
    have k2 := hne (.simple j) (by simp [SmartEntry.vars]); rw [at_some h2] at k2
    obtain ⟨n, hn, hN⟩ := narrow_spec sort_sorted sort_sorted (sort_perm.nodup_iff.2 g1) (sort_perm.nodup_iff.2 g2) (sort_ne k1) (sort_ne k2) r
    have a1 : put (put m (.simple i) n.1) (.simple j) n.2 (.simple i) = some n.1 := by rw [put_other hij.symm, put_self]
    have a2 : put (put m (.simple i) n.1) (.simple j) n.2 (.simple j) = some n.2 := put_self
    have a3 : ∀ y, y ≠ .simple i → y ≠ .simple j → put (put m (.simple i) n.1) (.simple j) n.2 y = m y := fun y e1 e2 => by rw [put_other e2, put_other e1]
    refine ⟨put (put m (.simple i) n.1) (.simple j) n.2, ?_, ?_, ?_, ?_, ?_, ?_⟩
    · rw [filter, get_simple h1]
      show (do let l2 ← getFor m (.simple j); _) = _
      rw [get_simple h2]
      show (do let n ← narrow (sort l1) (sort l2) r; _) = _
      rw [hn]
      show (do let m' ← setFor m n.1 (.simple i); setFor m' n.2 (.simple j)) = _
      rw [set_simple h1]
      exact set_simple (l := l2) (by rw [put_other hij]; exact h2)
    · intro z hz
      exact a3 z (fun e => hz (by simp [e, SmartEntry.vars])) (fun e => hz (by simp [e, SmartEntry.vars]))
    · intro z hz
      simp only [SmartEntry.vars, List.mem_cons, List.not_mem_nil, or_false] at hz
      rcases hz with rfl | rfl
      · exact ⟨_, a1, hN.nodup1⟩
      · exact ⟨_, a2, hN.nodup2⟩
    · intro z v hv
      by_cases e1 : z = .simple i
      · subst e1; rw [at_some a1] at hv; rw [at_some h1]; exact mem_sort.1 (hN.sub1 v hv)
      · by_cases e2 : z = .simple j
        · subst e2; rw [at_some a2] at hv; rw [at_some h2]; exact mem_sort.1 (hN.sub2 v hv)
        · rwa [VMap.at, a3 z e1 e2] at hv
    · intro s hs hsat z hz
      have f1 := hs (.simple i) (by simp [SmartEntry.vars]); rw [at_some h1] at f1
      have f2 := hs (.simple j) (by simp [SmartEntry.vars]); rw [at_some h2] at f2
      have := hN.keep _ (mem_sort.2 f1) _ (mem_sort.2 f2) hsat
      simp only [SmartEntry.vars, List.mem_cons, List.not_mem_nil, or_false] at hz
      rcases hz with rfl | rfl
      · rw [at_some a1]; exact this.1
      · rw [at_some a2]; exact this.2
    · intro hx
      have f1 := hx (.simple i) (by simp [SmartEntry.vars]); rw [at_some a1] at f1
      have f2 := hx (.simple j) (by simp [SmartEntry.vars]); rw [at_some a2] at f2
      have both : ∀ v ∈ n.1, ∀ w ∈ n.2, r.holds v w → ∃ s, (SmartEntry.binary (.simple i) (.simple j) r).sat s ∧ s (.simple i) = v ∧ s (.simple j) = w ∧ Fits s (put (put m (.simple i) n.1) (.simple j) n.2) [.simple i, .simple j] := by
        intro v hv w hw hr
        have e1 : (fun z => if z = VarId.simple i then v else w) (.simple i) = v := if_pos rfl
        have e2 : (fun z => if z = VarId.simple i then v else w) (.simple j) = w := if_neg hij
        refine ⟨fun z => if z = .simple i then v else w, ?_, e1, e2, fun z hz => ?_⟩
        · show r.holds ((fun z => if z = VarId.simple i then v else w) (.simple i)) ((fun z => if z = VarId.simple i then v else w) (.simple j))
          rw [e1, e2]; exact hr
        · simp only [List.mem_cons, List.not_mem_nil, or_false] at hz
          rcases hz with rfl | rfl
          · rw [e1, at_some a1]; exact hv
          · rw [e2, at_some a2]; exact hw
      intro z hz v hv
      simp only [SmartEntry.vars, List.mem_cons, List.not_mem_nil, or_false] at hz
      rcases hz with rfl | rfl
      · rw [at_some a1] at hv
        obtain ⟨w, hw, hr⟩ := hN.supp1 f2 v hv
        obtain ⟨s, k1, k2, _, k3⟩ := both v hv w hw hr
        exact ⟨s, k1, k2, k3⟩
      · rw [at_some a2] at hv
        obtain ⟨w, hw, hr⟩ := hN.supp2 f1 v hv
        obtain ⟨s, k1, _, k2, k3⟩ := both w hw v hv hr
        exact ⟨s, k1, k2, k3⟩

theorem anyOf_ok {α : Type} {p : α → Chk Bool} {q : α → Bool} : ∀ {l : List α}, (∀ x ∈ l, p x = .ok (q x)) → anyOf p l = .ok (l.any q)
  | [], _ => rfl
  | x :: xs, h => by
    rw [anyOf, h x (by simp)]
    cases e : q x
    · show anyOf p xs = _
      rw [anyOf_ok fun y hy => h y (by simp [hy])]; simp [e]
    · simp [e, bind, Except.bind, pure, Except.pure]

theorem get_at {e : SmartEntry} {m : VMap} (hp : Proper e) (hl : Lists m e.vars) : ∀ x ∈ e.vars, getFor m x = .ok (m.at x) := by
  intro x hx
  obtain ⟨i, rfl⟩ := hp.1 x hx
  obtain ⟨l, h, _⟩ := hl _ hx
  rw [get_simple h, at_some h]

theorem emptied_spec {e : SmartEntry} {m : VMap} (hp : Proper e) (hl : Lists m e.vars) : ∃ b, emptied m e = .ok b ∧ (b = true ↔ ∃ x ∈ e.vars, m.at x = []) := by
  refine ⟨_, anyOf_ok (q := fun x => decide (m.at x = [])) fun x hx => by rw [get_at hp hl x hx]; rfl, by simp⟩

theorem Fits.ne {s : VarId → Int} {m : VMap} {xs : List VarId} (h : Fits s m xs) : ∀ x ∈ xs, m.at x ≠ [] := by
  intro x hx e
  have := h x hx
  rw [e] at this; cases this

/-- The lists of these variables have something in them. -/
def Full (m : VMap) (xs : List VarId) : Prop := ∀ x ∈ xs, m.at x ≠ []

/-- Every comparison of two variables has one that is in no later entry. -/
def Ordered : List SmartEntry → Prop
  | [] => True
  | e :: es => (∀ x y r, e = .binary x y r → ∃ k ∈ e.vars, ∀ f ∈ es, k ∉ f.vars) ∧ Ordered es

theorem sat_congr {e : SmartEntry} {s t : VarId → Int} (h : ∀ x ∈ e.vars, s x = t x) (hs : e.sat s) : e.sat t := by
  cases e with
  | binary x y r =>
    rw [SmartEntry.sat, h x (by simp [SmartEntry.vars]), h y (by simp [SmartEntry.vars])] at hs; exact hs
  | value x v r => rw [SmartEntry.sat, h x (by simp [SmartEntry.vars])] at hs; exact hs
  | set x vs b => cases b <;> rw [SmartEntry.sat, h x (by simp [SmartEntry.vars])] at hs <;> exact hs

/-- Filtering with the entries of a tree, if no list is empty at the start: it is never undefined; ways to satisfy the entries remain; and if nothing becomes empty, then there is one. -/
theorem check_spec {xs : List VarId} : ∀ {es : List SmartEntry} {m : VMap}, (∀ e ∈ es, Proper e ∧ ∀ x ∈ e.vars, x ∈ xs) → Ordered es → Lists m xs → Full m xs →
    ∃ r, check es m = .ok r ∧
      (∀ s, Fits s m xs → (∀ e ∈ es, e.sat s) → ∃ m', r = some m' ∧ Fits s m' xs) ∧
      (∀ m', r = some m' → Lists m' xs ∧ (∀ x, (∀ e ∈ es, x ∉ e.vars) → m' x = m x) ∧ (∀ x v, v ∈ m'.at x → v ∈ m.at x) ∧ ∃ s, Fits s m' xs ∧ ∀ e ∈ es, e.sat s)
  | [], m, _, _, hl, hf => by
    refine ⟨_, rfl, fun s hs _ => ⟨m, rfl, hs⟩, fun m' h => ?_⟩
    cases h
    refine ⟨hl, fun _ _ => rfl, fun _ _ h => h, fun x => (m.at x).headD 0, fun x hx => ?_, fun _ h => nomatch h⟩
    have := hf x hx
    cases e : m.at x with
    | nil => exact absurd e this
    | cons a as => simp [e]
  | e :: es, m, hp, ho, hl, hf => by
    obtain ⟨pe, ve⟩ := hp e (by simp)
    obtain ⟨m1, h1, st⟩ := filter_spec pe (hl.mono ve) (fun x hx => hf x (ve x hx))
    obtain ⟨b, h2, hb⟩ := emptied_spec pe st.lists
    have hc : check (e :: es) m = if b = true then .ok none else check es m1 := by
      rw [check, h1]
      show (do if ← emptied m1 e then return none else check es m1) = _
      rw [h2]; cases b <;> rfl
    rw [hc]
    by_cases e1 : b = true
    · rw [if_pos e1]
      refine ⟨_, rfl, fun s hs hsat => ?_, fun m' h => nomatch h⟩
      obtain ⟨x, hx, hx'⟩ := hb.1 e1
      exact absurd hx' ((st.fits hs ve (hsat e (by simp))).ne x (ve x hx))
    · rw [if_neg e1]
      have hne : ∀ x ∈ e.vars, m1.at x ≠ [] := fun x hx k => e1 (hb.2 ⟨x, hx, k⟩)
      have hf1 : Full m1 xs := fun x hx => by
        by_cases k : x ∈ e.vars
        · exact hne x k
        · rw [VMap.at, st.off x k]; exact hf x hx
      obtain ⟨r, hr, r1, r2⟩ := check_spec (fun f hf => hp f (List.mem_cons_of_mem _ hf)) ho.2 (st.all hl) hf1
      refine ⟨r, hr, fun s hs hsat => r1 s (st.fits hs ve (hsat e (by simp))) fun f hf => hsat f (List.mem_cons_of_mem _ hf), fun m' h => ?_⟩
      obtain ⟨q1, q2, q3, s, q4, q5⟩ := r2 m' h
      refine ⟨q1, fun x hx => by rw [q2 x fun f hf => hx f (List.mem_cons_of_mem _ hf), st.off x (hx e (by simp))], fun x v hv => st.sub x v (q3 x v hv), ?_⟩
      have unary : ∀ x, e.vars = [x] → ∃ s, Fits s m' xs ∧ ∀ f ∈ e :: es, f.sat s := by
        intro x hx
        refine ⟨s, q4, fun f hf => ?_⟩
        rcases List.mem_cons.1 hf with rfl | hf
        · have mx : x ∈ f.vars := by rw [hx]; simp
          obtain ⟨t, t1, t2, _⟩ := st.supp hne x mx (s x) (q3 x _ (q4 x (ve x mx)))
          refine sat_congr (fun y hy => ?_) t1
          rw [hx, List.mem_singleton] at hy; subst hy; exact t2
        · exact q5 f hf
      cases e with
      | value x v r => exact unary x rfl
      | set x vs b => exact unary x rfl
      | binary x y r =>
        obtain ⟨k, hk, hk'⟩ := ho.1 x y r rfl
        -- the other one keeps its value, and `k` is given one that goes with it
        have key : ∀ o, o ∈ (SmartEntry.binary x y r).vars → (∀ z ∈ (SmartEntry.binary x y r).vars, z = k ∨ z = o) → o ≠ k → ∃ s, Fits s m' xs ∧ ∀ f ∈ .binary x y r :: es, f.sat s := by
          intro o mo hz hok
          obtain ⟨t, t1, t2, t3⟩ := st.supp hne o mo (s o) (q3 o _ (q4 o (ve o mo)))
          refine ⟨fun z => if z = k then t k else s z, fun z hz => ?_, fun f hf => ?_⟩
          · show (if z = k then t k else s z) ∈ _
            split
            · rename_i e; subst e
              rw [VMap.at, q2 z hk']; exact t3 z hk
            · exact q4 z hz
          · rcases List.mem_cons.1 hf with rfl | hf
            · refine sat_congr (fun z hz' => ?_) t1
              show _ = if z = k then t k else s z
              rcases hz z hz' with rfl | rfl
              · rw [if_pos rfl]
              · rw [if_neg hok, t2]
            · refine sat_congr (fun z hz' => ?_) (q5 f hf)
              show _ = if z = k then t k else s z
              rw [if_neg fun (e : z = k) => hk' f hf (e ▸ hz')]
        have hxy : x ≠ y := fun e => by have := pe.2; rw [SmartEntry.vars, e] at this; simp at this
        simp only [SmartEntry.vars, List.mem_cons, List.not_mem_nil, or_false] at hk
        rcases hk with rfl | rfl
        · exact key y (by simp [SmartEntry.vars]) (fun z hz => by simpa [SmartEntry.vars] using hz) hxy.symm
        · exact key x (by simp [SmartEntry.vars]) (fun z hz => by simpa [SmartEntry.vars, or_comm] using hz) hxy

theorem mem_foldl_insert {x : Int} : ∀ {l s : List Int}, x ∈ l.foldl (fun s v => MinDistance.insertSorted v s) s → x ∈ l ∨ x ∈ s
  | [], s, h => .inr h
  | y :: ys, s, h => by
    rcases mem_foldl_insert (l := ys) h with h | h
    · exact .inl (by simp [h])
    · have key : ∀ {s : List Int}, x ∈ MinDistance.insertSorted y s → x = y ∨ x ∈ s := by
        intro s
        induction s with
        | nil => intro h; simpa [MinDistance.insertSorted] using h
        | cons z zs ih =>
          intro h
          rw [MinDistance.insertSorted] at h
          split at h
          · simpa using h
          · split at h
            · exact .inr h
            · rcases List.mem_cons.1 h with h | h
              · exact .inr (by simp [h])
              · exact (ih h).imp id fun h => by simp [h]
      rcases key h with h | h
      · exact .inl (by simp [h])
      · exact .inr h

/-- What has no support is fewer, and does not have these. -/
theorem support_mem {u : VMap} {x y : VarId} {l : List Int} {v : Int} (h : v ∈ (support u x l).at y) : v ∈ u.at y ∧ (y = x → v ∉ l) := by
  by_cases e : y = x
  · subst e
    rw [support, at_some put_self, List.mem_filter, decide_eq_true_eq] at h
    exact ⟨(mem_foldl_insert h.1).resolve_right (by simp), fun _ => h.2⟩
  · rw [support, VMap.at, put_other e] at h
    exact ⟨h, fun k => absurd k e⟩

theorem supportAll_spec {m : VMap} : ∀ {xs : List VarId} {u : VMap}, (∀ x ∈ xs, getFor m x = .ok (m.at x)) → ∃ u', supportAll m xs u = .ok u' ∧ ∀ y v, v ∈ u'.at y → v ∈ u.at y ∧ (y ∈ xs → v ∉ m.at y)
  | [], u, _ => ⟨u, rfl, fun y v h => ⟨h, fun k => nomatch k⟩⟩
  | x :: xs, u, h => by
    obtain ⟨u', h1, h2⟩ := supportAll_spec (xs := xs) (u := support u x (m.at x)) fun y hy => h y (by simp [hy])
    refine ⟨u', by rw [supportAll, h x (by simp)]; exact h1, fun y v hv => ?_⟩
    obtain ⟨k1, k2⟩ := h2 y v hv
    obtain ⟨k3, k4⟩ := support_mem k1
    refine ⟨k3, fun hy => ?_⟩
    rcases List.mem_cons.1 hy with rfl | hy
    · exact k4 rfl
    · exact k2 hy

/-- The second pass, over lists that can be used for all entries. -/
theorem again_spec {xs : List VarId} : ∀ {es : List SmartEntry} {m u : VMap}, (∀ e ∈ es, Proper e ∧ ∀ x ∈ e.vars, x ∈ xs) → Lists m xs → (∃ s, Fits s m xs ∧ ∀ e ∈ es, e.sat s) →
    ∃ u', again es m u = .ok u' ∧ ∀ y v, v ∈ u'.at y → v ∈ u.at y ∧ ∀ s, Fits s m xs → (∀ e ∈ es, e.sat s) → ∀ e ∈ es, y ∈ e.vars → v ≠ s y
  | [], m, u, _, _, _ => ⟨u, rfl, fun y v h => ⟨h, fun _ _ _ _ h => nomatch h⟩⟩
  | e :: es, m, u, hp, hl, ⟨s0, f0, t0⟩ => by
    obtain ⟨pe, ve⟩ := hp e (by simp)
    obtain ⟨m1, h1, st⟩ := filter_spec pe (hl.mono ve) (fun x hx => f0.ne x (ve x hx))
    obtain ⟨u1, h2, g2⟩ := supportAll_spec (u := u) (get_at pe st.lists)
    obtain ⟨u2, h3, g3⟩ := again_spec (es := es) (u := u1) (fun f hf => hp f (List.mem_cons_of_mem _ hf)) (st.all hl) ⟨s0, st.fits f0 ve (t0 e (by simp)), fun f hf => t0 f (List.mem_cons_of_mem _ hf)⟩
    refine ⟨u2, ?_, fun y v hv => ?_⟩
    · rw [again, h1]
      show (do again es m1 (← supportAll m1 e.vars u)) = _
      rw [h2]; exact h3
    · obtain ⟨a1, a2⟩ := g3 y v hv
      obtain ⟨b1, b2⟩ := g2 y v a1
      refine ⟨b1, fun s fs ts f hf hy => ?_⟩
      have fs1 := st.fits fs ve (ts e (by simp))
      rcases List.mem_cons.1 hf with rfl | hf
      · intro k
        exact b2 hy (k ▸ fs1 y (ve y hy))
      · exact a2 s fs1 (fun g hg => ts g (List.mem_cons_of_mem _ hg)) f hf hy

end Gcs.SmartTable
