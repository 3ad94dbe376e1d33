import Verif.Lemmas.Cons.Circulation
import Verif.Lemmas.Cons.GlobalCardinality

/-!
# The network of the generalised arc consistent GlobalCardinality, and the flow of a solution
-/

namespace Gcs.GlobalCardinality.Gac
open IntervalSet Flow
open Classical

/-- The bounds of a variable, if they can be had. -/
def bd (d : Doms) (c : VarId) : Int × Int := (bounds d c).toOption.getD (0, 0)

noncomputable def vEdges (d : Doms) (vars : List VarId) (m : Nat) (p : (Int × VarId) × Nat) : List Orig :=
  ⟨0, valueNode p.2, if (bd d p.1.2).1 < 0 then 0 else (bd d p.1.2).1, (bd d p.1.2).2⟩ :: (vars.zipIdx.filter fun q => decide (Poss d q.1 p.1.1)).map fun q => ⟨valueNode p.2, varNode m q.2, 0, 1⟩

noncomputable def oEdges (d : Doms) (vars : List VarId) (vals : List Int) : List Orig :=
  ⟨0, dummyNode vals.length, 0, (vars.length : Int) + 1⟩ :: (vars.zipIdx.filter fun q => decide (¬ Confined d vals q.1)).map fun q => ⟨dummyNode vals.length, varNode vals.length q.2, 0, 1⟩

def sEdges (m n : Nat) : List Orig := (List.range n).map fun i => ⟨varNode m i, 1, 1, 1⟩

noncomputable def netw (d : Doms) (vars : List VarId) (cover : List (Int × VarId)) (closed : Bool) : List Orig :=
  cover.zipIdx.flatMap (vEdges d vars cover.length) ++ (if closed then [] else oEdges d vars (cover.map (·.1))) ++ sEdges cover.length vars.length ++ [⟨1, 0, 0, (vars.length : Int) + 1⟩]

theorem keepIf_filter {α : Type} {p : α → Chk Bool} {P : α → Prop} : ∀ xs : List α, (∀ x ∈ xs, RightOrOverflow (p x) (fun b => b = true ↔ P x)) →
    RightOrOverflow (keepIf p xs) (fun ys => ys = xs.filter fun x => decide (P x))
  | [], _ => .pure rfl
  | x :: xs, h => by
    refine (h x (by simp)).bind fun b hb => (keepIf_filter xs fun y hy => h y (by simp [hy])).bind fun ys hys => .pure ?_
    rw [List.filter_cons, hys]
    by_cases hp : P x
    · rw [hb.2 hp]; simp [hp]
    · rw [Bool.eq_false_iff.2 fun h => hp (hb.1 h)]; simp [hp]

theorem gather_roo {α β : Type} {f : α → Chk (List β)} {F : α → List β} {I : α → Prop} : ∀ xs : List α, (∀ x ∈ xs, RightOrOverflow (f x) (fun ys => ys = F x ∧ I x)) →
    RightOrOverflow (gather f xs) (fun ys => ys = xs.flatMap F ∧ ∀ x ∈ xs, I x)
  | [], _ => .pure ⟨rfl, by simp⟩
  | x :: xs, h => by
    refine (h x (by simp)).bind fun b hb => (gather_roo xs fun y hy => h y (by simp [hy])).bind fun ys hys => .pure ⟨?_, ?_⟩
    · rw [hb.1, hys.1, List.flatMap_cons]
    · intro y hy
      rcases List.mem_cons.1 hy with rfl | hy
      · exact hb.2
      · exact hys.2 y hy

/-- What is known of the bounds of a count. -/
structure IsBd (d : Doms) (c : VarId) : Prop where
  eq : bounds d c = .ok (bd d c)
  fits : InI64 (bd d c).1 ∧ InI64 (bd d c).2
  low : ∀ a, Within d a → (bd d c).1 ≤ c.eval a
  high : ∀ a, Within d a → c.eval a ≤ (bd d c).2
  has : ∃ a, Within d a ∧ c.eval a = (bd d c).1
  has' : ∃ a, Within d a ∧ c.eval a = (bd d c).2

section
variable {d : Doms} {vars : List VarId} {cover : List (Int × VarId)} {closed : Bool}

theorem bd_roo {c : VarId} (hd : DomsOK d) (hc : c.Valid d.length) : RightOrOverflow (bounds d c) (fun b => b = bd d c ∧ IsBd d c) := by
  rcases bounds_roo hd hc with h | ⟨b, hb, ⟨i1, hmin⟩, i2, hmax⟩
  · exact .inl h
  · have e : bd d c = b := by rw [bd, hb]; rfl
    refine .inr ⟨b, hb, e.symm, ?_⟩
    subst e
    exact ⟨hb, ⟨i1, i2⟩, fun a ha => hmin.2 _ (ha.poss c), fun a ha => hmax.2 _ (ha.poss c), hmin.1, hmax.1⟩

theorem snd_zipIdx {α : Type} {xs : List α} {q : α × Nat} (h : q ∈ xs.zipIdx) : q.2 < xs.length ∧ xs[q.2]? = some q.1 ∧ q.1 ∈ xs := by
  have := List.mem_zipIdx_iff_getElem?.1 h
  refine ⟨?_, this, List.mem_of_getElem? this⟩
  rcases Nat.lt_or_ge q.2 xs.length with h | h
  · exact h
  · rw [List.getElem?_eq_none h] at this; exact nomatch this

theorem network_roo (hd : DomsOK d) (hv : ∀ x ∈ vars, x.Valid d.length) (hc : ∀ p ∈ cover, p.2.Valid d.length) (hI : ∀ p ∈ cover, InI64 p.1) (hs : closed = false → (cover.map (·.1)).Pairwise (· ≤ ·)) :
    RightOrOverflow (network d vars cover closed) (fun es => es = netw d vars cover closed ∧ ∀ p ∈ cover, IsBd d p.2) := by
  have h1 : RightOrOverflow (gather (valueEdges d vars cover.length) cover.zipIdx) (fun xs => xs = cover.zipIdx.flatMap (vEdges d vars cover.length) ∧ ∀ p ∈ cover.zipIdx, IsBd d p.1.2) := by
    refine gather_roo _ fun p hp => ?_
    have hp' := (snd_zipIdx hp).2.2
    refine (bd_roo hd (hc _ hp')).bind fun b hb => (keepIf_filter (P := fun q : VarId × Nat => Poss d q.1 p.1.1) _ fun q hq => inDomain_spec hd (hv _ (snd_zipIdx hq).2.2) _ (hI _ hp')).bind fun ys hys => .pure ⟨?_, hb.2⟩
    rw [hys, hb.1]; rfl
  have h2 : RightOrOverflow (otherEdges d vars (cover.map (·.1)) closed) (fun ys => ys = if closed then [] else oEdges d vars (cover.map (·.1))) := by
    cases closed with
    | true => exact .pure rfl
    | false =>
      refine (keepIf_filter (P := fun q : VarId × Nat => ¬ Confined d (cover.map (·.1)) q.1) _ fun q hq => (subset_roo hd (hv _ (snd_zipIdx hq).2.2) (hs rfl)).bind fun b hb => .pure ?_).bind fun ys hys => .pure ?_
      · rw [← hb]; simp
      · rw [hys, if_neg (by simp), oEdges]
        congr 3
        funext q
        exact decide_eq_decide.2 Iff.rfl
  refine h1.bind fun xs hxs => h2.bind fun ys hys => .pure ⟨?_, fun p hp => ?_⟩
  · rw [hxs.1, hys]; rfl
  · obtain ⟨j, hj, rfl⟩ := List.mem_iff_getElem.1 hp
    exact hxs.2 (cover[j], j) (List.mem_zipIdx_iff_getElem?.2 (List.getElem?_eq_getElem hj))

/-- The edges. -/
theorem mem_netw {e : Orig} : e ∈ netw d vars cover closed ↔
    (∃ p j, cover[j]? = some p ∧ e = ⟨0, valueNode j, if (bd d p.2).1 < 0 then 0 else (bd d p.2).1, (bd d p.2).2⟩) ∨
    (∃ (p : Int × VarId) (j : Nat) (x : VarId) (i : Nat), cover[j]? = some p ∧ vars[i]? = some x ∧ Poss d x p.1 ∧ e = ⟨valueNode j, varNode cover.length i, 0, 1⟩) ∨
    (closed = false ∧ e = ⟨0, dummyNode cover.length, 0, (vars.length : Int) + 1⟩) ∨
    (closed = false ∧ ∃ (x : VarId) (i : Nat), vars[i]? = some x ∧ ¬ Confined d (cover.map (·.1)) x ∧ e = ⟨dummyNode cover.length, varNode cover.length i, 0, 1⟩) ∨
    (∃ i < vars.length, e = ⟨varNode cover.length i, 1, 1, 1⟩) ∨ e = ⟨1, 0, 0, (vars.length : Int) + 1⟩ := by
  unfold netw
  simp only [List.mem_append, List.mem_flatMap, vEdges, List.mem_cons, List.mem_map, List.mem_filter, decide_eq_true_eq, sEdges, List.mem_range, List.not_mem_nil, or_false, Prod.exists, List.mem_zipIdx_iff_getElem?]
  rw [or_assoc, or_assoc]
  constructor
  · rintro (⟨p1, p2, j, hj, h | ⟨x, i, ⟨hx, hp⟩, h⟩⟩ | h | ⟨i, hi, h⟩ | h)
    · exact .inl ⟨p1, p2, j, hj, h⟩
    · exact .inr (.inl ⟨p1, p2, j, x, i, hj, hx, hp, h.symm⟩)
    · cases closed with
      | true => simp at h
      | false =>
        simp only [oEdges, List.mem_cons, List.mem_map, List.mem_filter, decide_eq_true_eq, Prod.exists, List.mem_zipIdx_iff_getElem?, List.length_map, Bool.false_eq_true, ↓reduceIte] at h
        rcases h with h | ⟨x, i, ⟨hx, hp⟩, h⟩
        · exact .inr (.inr (.inl ⟨rfl, h⟩))
        · exact .inr (.inr (.inr (.inl ⟨rfl, x, i, hx, hp, h.symm⟩)))
    · exact .inr (.inr (.inr (.inr (.inl ⟨i, hi, h.symm⟩))))
    · exact .inr (.inr (.inr (.inr (.inr h))))
  · rintro (⟨p1, p2, j, hj, h⟩ | ⟨p1, p2, j, x, i, hj, hx, hp, h⟩ | ⟨rfl, h⟩ | ⟨rfl, x, i, hx, hp, h⟩ | ⟨i, hi, h⟩ | h)
    · exact .inl ⟨p1, p2, j, hj, .inl h⟩
    · exact .inl ⟨p1, p2, j, hj, .inr ⟨x, i, ⟨hx, hp⟩, h.symm⟩⟩
    · refine .inr (.inl ?_); simp [oEdges, h]
    · refine .inr (.inl ?_)
      simp only [oEdges, List.mem_cons, List.mem_map, List.mem_filter, decide_eq_true_eq, Prod.exists, List.mem_zipIdx_iff_getElem?, List.length_map, Bool.false_eq_true, ↓reduceIte]
      exact .inr ⟨x, i, ⟨hx, hp⟩, h.symm⟩
    · exact .inr (.inr (.inl ⟨i, hi, h.symm⟩))
    · exact .inr (.inr (.inr h))

/-! ## The flow of a solution -/

/-- How much flows along an edge. -/
noncomputable def use (vars : List VarId) (cover : List (Int × VarId)) (a : Asg) (e : Orig) : Int :=
  if e.src = 0 then
    if e.dst = dummyNode cover.length then cnt (fun x : VarId => x.eval a ∉ cover.map (·.1)) vars
    else cnt (fun x : VarId => (cover[e.dst - 2]?).map (·.1) = some (x.eval a)) vars
  else if e.src = 1 then vars.length
  else if e.dst = 1 then 1
  else if e.src = dummyNode cover.length then if ∃ x, vars[e.dst - (2 + cover.length + 1)]? = some x ∧ x.eval a ∉ cover.map (·.1) then 1 else 0
  else if ∃ x, vars[e.dst - (2 + cover.length + 1)]? = some x ∧ (cover[e.src - 2]?).map (·.1) = some (x.eval a) then 1 else 0

variable {a : Asg} {j i : Nat} {lo hi : Int} {x : VarId} {p : Int × VarId}

theorem lt_of_get {α : Type} {xs : List α} {k : Nat} {y : α} (h : xs[k]? = some y) : k < xs.length := by
  rcases Nat.lt_or_ge k xs.length with h' | h'
  · exact h'
  · rw [List.getElem?_eq_none h'] at h; exact nomatch h

theorem use_value (hj : cover[j]? = some p) : use vars cover a ⟨0, valueNode j, lo, hi⟩ = cnt (fun x : VarId => x.eval a = p.1) vars := by
  have := lt_of_get hj
  unfold use
  dsimp only
  rw [if_pos rfl, if_neg (by simp only [valueNode, dummyNode]; omega), show valueNode j - 2 = j by simp only [valueNode]; omega, hj]
  congr 2
  funext x
  simp [eq_comm]

theorem use_other : use vars cover a ⟨0, dummyNode cover.length, lo, hi⟩ = cnt (fun x : VarId => x.eval a ∉ cover.map (·.1)) vars := by
  unfold use
  dsimp only
  rw [if_pos rfl, if_pos rfl]

theorem use_assign (hj : cover[j]? = some p) (hi' : vars[i]? = some x) : use vars cover a ⟨valueNode j, varNode cover.length i, lo, hi⟩ = if x.eval a = p.1 then 1 else 0 := by
  have := lt_of_get hj
  unfold use
  dsimp only
  rw [if_neg (by simp only [valueNode]; omega), if_neg (by simp only [valueNode]; omega), if_neg (by simp only [varNode]; omega), if_neg (by simp only [valueNode, dummyNode]; omega),
    show valueNode j - 2 = j by simp only [valueNode]; omega, show varNode cover.length i - (2 + cover.length + 1) = i by simp only [varNode]; omega, hj, hi']
  simp [eq_comm]

theorem use_dummy (hi' : vars[i]? = some x) : use vars cover a ⟨dummyNode cover.length, varNode cover.length i, lo, hi⟩ = if x.eval a ∉ cover.map (·.1) then 1 else 0 := by
  unfold use
  dsimp only
  rw [if_neg (by simp only [dummyNode]; omega), if_neg (by simp only [dummyNode]; omega), if_neg (by simp only [varNode]; omega), if_pos rfl,
    show varNode cover.length i - (2 + cover.length + 1) = i by simp only [varNode]; omega, hi']
  simp

theorem use_sink : use vars cover a ⟨varNode cover.length i, 1, lo, hi⟩ = 1 := by
  unfold use
  dsimp only
  rw [if_neg (by simp only [varNode]; omega), if_neg (by simp only [varNode]; omega), if_pos rfl]

theorem use_return : use vars cover a ⟨1, 0, lo, hi⟩ = vars.length := by
  unfold use
  dsimp only
  rw [if_neg (by omega), if_pos rfl]

theorem use_between (hb : ∀ p ∈ cover, IsBd d p.2) (ha : Within d a) (ht : Tally vars cover a) {e : Orig} (he : e ∈ netw d vars cover closed) : e.lo ≤ use vars cover a e ∧ use vars cover a e ≤ e.hi := by
  rcases mem_netw.1 he with ⟨p, j, hj, rfl⟩ | ⟨p, j, x, i, hj, hx, hp, rfl⟩ | ⟨_, rfl⟩ | ⟨_, x, i, hx, hp, rfl⟩ | ⟨i, hi, rfl⟩ | rfl
  · rw [use_value hj]
    have hm := List.mem_of_getElem? hj
    have h1 := (hb p hm).low a ha
    have h2 := (hb p hm).high a ha
    rw [ht p hm] at h1 h2
    refine ⟨?_, h2⟩
    dsimp only; split <;> omega
  · rw [use_assign hj hx]; dsimp only; split <;> omega
  · rw [use_other]
    have : cnt (fun x : VarId => x.eval a ∉ cover.map (·.1)) vars ≤ vars.length := cnt_le_length _
    dsimp only; omega
  · rw [use_dummy hx]; dsimp only; split <;> omega
  · rw [use_sink]; exact ⟨Int.le_refl _, Int.le_refl _⟩
  · rw [use_return]; dsimp only; omega

theorem sum_zipIdx {α : Type} (f : α → Int) (xs : List α) : ∀ k, ((xs.zipIdx k).map fun q => f q.1).sum = (xs.map f).sum := by
  induction xs with
  | nil => intro k; rfl
  | cons x xs ih => intro k; simp only [List.zipIdx_cons, List.map_cons, List.sum_cons, ih]

theorem sum_index {α : Type} (f : Nat → Int) (xs : List α) : (xs.zipIdx.map fun q => f q.2).sum = ((List.range xs.length).map f).sum := by
  have : xs.zipIdx.map (fun q => f q.2) = (xs.zipIdx.map (·.2)).map f := by rw [List.map_map]; rfl
  rw [this, List.zipIdx_map_snd, List.range_eq_range']

theorem cnt_sum {α : Type} (P : α → Prop) : ∀ xs : List α, (cnt P xs : Int) = (xs.map fun x => if P x then 1 else 0).sum
  | [] => by simp [cnt_nil]
  | x :: xs => by
    simp only [List.map_cons, List.sum_cons, ← cnt_sum P xs]
    by_cases h : P x
    · rw [cnt_pos h, if_pos h]; omega
    · rw [cnt_neg h, if_neg h]; omega

theorem cnt_zipIdx (P : VarId → Prop) : (cnt P vars : Int) = (vars.zipIdx.map fun q => if P q.1 then 1 else 0).sum := by
  rw [cnt_sum, ← sum_zipIdx (fun x => if P x then (1 : Int) else 0) vars 0]

theorem len_sum {α : Type} : ∀ xs : List α, (xs.length : Int) = (xs.map fun _ => (1 : Int)).sum
  | [] => rfl
  | x :: xs => by rw [List.map_cons, List.sum_cons, ← len_sum xs, List.length_cons]; omega

theorem sum_flatMap {α β : Type} (f : α → List β) (F : β → Int) : ∀ xs : List α, ((xs.flatMap f).map F).sum = (xs.map fun x => ((f x).map F).sum).sum
  | [] => rfl
  | x :: xs => by rw [List.flatMap_cons, List.map_append, List.sum_append, sum_flatMap f F xs, List.map_cons, List.sum_cons]

theorem cover_sum (y : VarId × Nat → Int) (qs : List (VarId × Nat)) : ∀ cover : List (Int × VarId), (cover.map (·.1)).Nodup →
    (cover.map fun p => (qs.map fun q => (if q.1.eval a = p.1 then 1 else 0) * y q).sum).sum = (qs.map fun q => (if q.1.eval a ∈ cover.map (·.1) then 1 else 0) * y q).sum
  | [], _ => by simp only [List.map_nil, List.sum_nil]; exact (sum_zero fun q _ => by simp).symm
  | p :: cover, hn => by
    rw [List.map_cons, List.nodup_cons] at hn
    rw [List.map_cons, List.sum_cons, cover_sum y qs cover hn.2, ← sum_add]
    refine sum_congr fun q _ => ?_
    rw [← Int.add_mul]
    congr 1
    rw [List.map_cons]
    by_cases h1 : q.1.eval a = p.1
    · rw [if_pos h1, if_neg (by rw [h1]; exact hn.1), if_pos (by rw [h1]; simp)]; rfl
    · rw [if_neg h1]
      by_cases h2 : q.1.eval a ∈ cover.map (·.1)
      · rw [if_pos h2, if_pos (List.mem_cons_of_mem _ h2)]; rfl
      · rw [if_neg h2, if_neg fun h => (List.mem_cons.1 h).elim h1 h2]; rfl

/-- What leaves a set of nodes enters it. -/
theorem use_even (hn : (cover.map (·.1)).Nodup) (ha : Within d a) (hc : closed = true → ∀ x ∈ vars, x.eval a ∈ cover.map (·.1)) (w : Nat → Int) :
    ((netw d vars cover closed).map fun e => use vars cover a e * (w e.dst - w e.src)).sum = 0 := by
  have hblock : ∀ p ∈ cover.zipIdx, ((vEdges d vars cover.length p).map fun e => use vars cover a e * (w e.dst - w e.src)).sum =
      (vars.zipIdx.map fun q => (if q.1.eval a = p.1.1 then 1 else 0) * (w (varNode cover.length q.2) - w 0)).sum := by
    intro p hp
    have hj := (snd_zipIdx hp).2.1
    rw [vEdges, List.map_cons, List.sum_cons, use_value hj, List.map_map, sum_filter, cnt_zipIdx, ← sum_mul, ← sum_add]
    refine sum_congr fun q hq => ?_
    have hi := (snd_zipIdx hq).2.1
    simp only [Function.comp, use_assign hj hi, decide_eq_true_eq]
    by_cases h : q.1.eval a = p.1.1
    · have hp : Poss d q.1 p.1.1 := h ▸ ha.poss q.1
      simp only [h, hp, ↓reduceIte]; omega
    · simp only [h, ↓reduceIte]; split <;> omega
  have hother : ((if closed then [] else oEdges d vars (cover.map (·.1))).map fun e => use vars cover a e * (w e.dst - w e.src)).sum =
      (vars.zipIdx.map fun q => (if q.1.eval a ∉ cover.map (·.1) then 1 else 0) * (w (varNode cover.length q.2) - w 0)).sum := by
    cases closed with
    | true => exact (sum_zero fun q hq => by rw [if_neg fun h => h (hc rfl _ (snd_zipIdx hq).2.2), Int.zero_mul]).symm
    | false =>
      simp only [Bool.false_eq_true, ↓reduceIte]
      rw [oEdges, List.length_map, List.map_cons, List.sum_cons, use_other, List.map_map, sum_filter, cnt_zipIdx, ← sum_mul, ← sum_add]
      refine sum_congr fun q hq => ?_
      have hi := (snd_zipIdx hq).2.1
      simp only [Function.comp, use_dummy hi, decide_eq_true_eq]
      by_cases h : q.1.eval a ∉ cover.map (·.1)
      · have hp : ¬ Confined d (cover.map (·.1)) q.1 := fun hcf => h (hcf a ha)
        simp only [h, hp, not_false_eq_true, ↓reduceIte]; omega
      · simp only [h, ↓reduceIte]; split <;> omega
  have hsink : ((sEdges cover.length vars.length).map fun e => use vars cover a e * (w e.dst - w e.src)).sum = (vars.zipIdx.map fun q => w 1 - w (varNode cover.length q.2)).sum := by
    rw [sum_index fun i => w 1 - w (varNode cover.length i), sEdges, List.map_map]
    refine sum_congr fun i _ => ?_
    simp only [Function.comp, use_sink]; omega
  have hret : (vars.length : Int) * (w 0 - w 1) = (vars.zipIdx.map fun _ => w 0 - w 1).sum := by
    rw [sum_congr (g := fun _ => 1 * (w 0 - w 1)) fun _ _ => (Int.one_mul _).symm, sum_mul]
    congr 1
    rw [sum_zipIdx (fun _ => 1) vars 0]
    exact len_sum vars
  rw [netw, List.map_append, List.map_append, List.map_append, List.sum_append, List.sum_append, List.sum_append, sum_flatMap, sum_congr hblock,
    sum_zipIdx (fun p : Int × VarId => (vars.zipIdx.map fun q => (if q.1.eval a = p.1 then 1 else 0) * (w (varNode cover.length q.2) - w 0)).sum) cover 0, cover_sum _ _ _ hn, hother, hsink]
  simp only [List.map_cons, List.map_nil, List.sum_cons, List.sum_nil, use_return, Int.add_zero]
  rw [hret, ← sum_add, ← sum_add, ← sum_add]
  refine sum_zero fun q _ => ?_
  by_cases h : q.1.eval a ∈ cover.map (·.1)
  · rw [if_pos h, if_neg (by simp only [h, not_true, not_false_eq_true])]; omega
  · rw [if_neg h, if_pos h]; omega

theorem netw_ok (hb : ∀ p ∈ cover, IsBd d p.2) (h0 : ∀ p ∈ cover, ∀ a, Within d a → 0 ≤ p.2.eval a) : OrigOK (2 + cover.length + 1 + vars.length) (netw d vars cover closed) := by
  intro e he
  rcases mem_netw.1 he with ⟨p, j, hj, rfl⟩ | ⟨p, j, x, i, hj, hx, hp, rfl⟩ | ⟨_, rfl⟩ | ⟨_, x, i, hx, hp, rfl⟩ | ⟨i, hi, rfl⟩ | rfl
  · have := lt_of_get hj
    have hm := List.mem_of_getElem? hj
    obtain ⟨b, hb1, hb2⟩ := (hb p hm).has
    have h1 := h0 p hm b hb1
    have h2 := (hb p hm).high b hb1
    dsimp only [valueNode]
    refine ⟨by omega, by omega, ?_⟩
    split <;> omega
  · have := lt_of_get hj; have := lt_of_get hx
    dsimp only [valueNode, varNode]; omega
  · dsimp only [dummyNode]; omega
  · have := lt_of_get hx
    dsimp only [dummyNode, varNode]; omega
  · dsimp only [varNode]; omega
  · dsimp only; omega

end
end Gcs.GlobalCardinality.Gac
