import Verif.Lemmas.Cons.GlobalCardinality
import Verif.Model.Cons.Cumulative

/-! Sums, and vectors of values at times, for Cumulative. -/

namespace Gcs.Cumulative

section
variable {α β : Type}

def tot (f : α → Int) (l : List α) : Int := (l.map f).sum

@[simp] theorem tot_nil {f : α → Int} : tot f [] = 0 := rfl
@[simp] theorem tot_cons {f : α → Int} {x : α} {l : List α} : tot f (x :: l) = f x + tot f l := by simp [tot]
@[simp] theorem tot_append {f : α → Int} {l m : List α} : tot f (l ++ m) = tot f l + tot f m := by simp [tot]

theorem tot_le {f g : α → Int} : ∀ {l : List α}, (∀ x ∈ l, f x ≤ g x) → tot f l ≤ tot g l
  | [], _ => by simp
  | x :: l, h => by
    have h1 := h x List.mem_cons_self
    have h2 := tot_le (l := l) fun y hy => h y (List.mem_cons_of_mem _ hy)
    simp only [tot_cons]
    omega

theorem tot_congr {f g : α → Int} {l : List α} (h : ∀ x ∈ l, f x = g x) : tot f l = tot g l := by
  rw [tot, tot, List.map_congr_left h]

theorem tot_add {f g : α → Int} : ∀ {l : List α}, tot (fun x => f x + g x) l = tot f l + tot g l
  | [] => by simp
  | x :: l => by simp only [tot_cons, tot_add (l := l)]; omega

theorem tot_sub {f g : α → Int} : ∀ {l : List α}, tot (fun x => f x - g x) l = tot f l - tot g l
  | [] => by simp
  | x :: l => by simp only [tot_cons, tot_sub (l := l)]; omega

theorem tot_zero : ∀ {l : List α}, tot (fun _ => 0) l = 0
  | [] => rfl
  | _ :: l => by simp only [tot_cons, tot_zero (l := l)]; rfl

theorem tot_nonneg {f : α → Int} {l : List α} (h : ∀ x ∈ l, 0 ≤ f x) : 0 ≤ tot f l := by
  have := tot_le (f := fun _ => 0) (g := f) h
  rw [tot_zero] at this
  exact this

theorem tot_mul {f : α → Int} {c : Int} : ∀ {l : List α}, tot (fun x => c * f x) l = c * tot f l
  | [] => by simp
  | x :: l => by simp only [tot_cons, tot_mul (l := l), Int.mul_add]

theorem tot_swap {f : α → β → Int} {ys : List β} : ∀ {xs : List α}, tot (fun x => tot (f x) ys) xs = tot (fun y => tot (fun x => f x y) xs) ys
  | [] => by simp [tot_zero]
  | x :: xs => by simp only [tot_cons, tot_swap (xs := xs), tot_add]

theorem tot_filter_le {f : α → Int} {p : α → Bool} : ∀ {l : List α}, (∀ x ∈ l, 0 ≤ f x) → tot f (l.filter p) ≤ tot f l
  | [], _ => by simp
  | x :: l, h => by
    have h1 := h x List.mem_cons_self
    have h2 := tot_filter_le (p := p) (l := l) fun y hy => h y (List.mem_cons_of_mem _ hy)
    rw [List.filter_cons]
    split
    · simp only [tot_cons]; omega
    · simp only [tot_cons]; omega

theorem tot_filter {f : α → Int} {p : α → Bool} : ∀ {l : List α}, tot f (l.filter p) = tot (fun x => if p x then f x else 0) l
  | [] => by simp
  | x :: l => by
    rw [List.filter_cons]
    split
    · simp only [tot_cons, tot_filter (l := l)]; simp [*]
    · simp only [tot_cons, tot_filter (l := l)]; simp [*]

/-- One of them may be more than that. -/
theorem tot_one {f g : α → Int} {y : Int} {j : α} : ∀ {l : List α}, (∀ x ∈ l, f x ≤ g x) → j ∈ l → y ≤ g j → tot f l - f j + y ≤ tot g l
  | [], _, h, _ => (nomatch h)
  | x :: l, h, hj, hy => by
    have h1 := h x List.mem_cons_self
    have hl := fun y hy => h y (List.mem_cons_of_mem x hy)
    simp only [tot_cons]
    rcases List.mem_cons.1 hj with rfl | hj
    · have := tot_le hl
      omega
    · have := tot_one hl hj hy
      omega

theorem mem_times {lo hi t : Int} : t ∈ times lo hi ↔ lo ≤ t ∧ t < hi := by
  simp only [times, List.mem_map, List.mem_range]
  refine ⟨fun ⟨k, h1, h2⟩ => by omega, fun ⟨h1, h2⟩ => ⟨(t - lo).toNat, by omega, by omega⟩⟩

theorem times_nil {lo hi : Int} (h : hi ≤ lo) : times lo hi = [] := by
  have : (hi - lo).toNat = 0 := by omega
  simp [times, this]

theorem times_succ {lo hi : Int} (h : lo ≤ hi) : times lo (hi + 1) = times lo hi ++ [hi] := by
  have e : (hi + 1 - lo).toNat = (hi - lo).toNat + 1 := by omega
  have e2 : lo + ((hi - lo).toNat : Int) = hi := by omega
  simp only [times, e, List.range_succ, List.map_append, List.map_cons, List.map_nil, e2]

theorem times_ind {lo : Int} {P : Int → Prop} (h0 : P lo) (h1 : ∀ hi, lo ≤ hi → P hi → P (hi + 1)) {hi : Int} (h : lo ≤ hi) : P hi := by
  have : ∀ n : Nat, P (lo + n) := by
    intro n
    induction n with
    | zero => simpa using h0
    | succ n ih =>
      have := h1 (lo + n) (by omega) ih
      have e : lo + ((n + 1 : Nat) : Int) = lo + n + 1 := by omega
      rw [e]; exact this
  have e := this (hi - lo).toNat
  have e2 : lo + ((hi - lo).toNat : Int) = hi := by omega
  rwa [e2] at e

theorem tot_times_succ {f : Int → Int} {lo hi : Int} (h : lo ≤ hi) : tot f (times lo (hi + 1)) = tot f (times lo hi) + f hi := by
  rw [times_succ h]; simp

theorem tot_times_split {f : Int → Int} {lo mid hi : Int} (h1 : lo ≤ mid) (h2 : mid ≤ hi) : tot f (times lo hi) = tot f (times lo mid) + tot f (times mid hi) := by
  refine times_ind (lo := mid) (P := fun hi => tot f (times lo hi) = tot f (times lo mid) + tot f (times mid hi)) ?_ (fun hi h ih => ?_) h2
  · simp [times_nil (Int.le_refl mid)]
  · rw [tot_times_succ (by omega), tot_times_succ h, ih]; omega

/-- How long two intervals overlap. -/
theorem tot_overlap {a b s e h : Int} (hab : a ≤ b) : tot (fun t => if s ≤ t ∧ t < e then h else 0) (times a b) = h * max 0 (min b e - max a s) := by
  refine times_ind (lo := a) (P := fun b => tot (fun t => if s ≤ t ∧ t < e then h else 0) (times a b) = h * max 0 (min b e - max a s)) ?_ (fun b hb ih => ?_) hab
  · rw [times_nil (Int.le_refl a)]
    have : max 0 (min a e - max a s) = 0 := by omega
    simp [this]
  · rw [tot_times_succ hb, ih]
    split
    · have : max 0 (min (b + 1) e - max a s) = max 0 (min b e - max a s) + 1 := by omega
      rw [this, Int.mul_add]; omega
    · have : max 0 (min (b + 1) e - max a s) = max 0 (min b e - max a s) := by omega
      rw [this]; omega

theorem tot_hit {x u s e : Int} : tot (fun t => if u = t then x else 0) (times s e) = if s ≤ u ∧ u < e then x else 0 := by
  by_cases h : s ≤ e
  · refine times_ind (lo := s) (P := fun e => tot (fun t => if u = t then x else 0) (times s e) = if s ≤ u ∧ u < e then x else 0) ?_ (fun b hb ih => ?_) h
    · rw [times_nil (Int.le_refl s), if_neg (by omega)]; rfl
    · rw [tot_times_succ hb, ih]
      by_cases h1 : u = b
      · rw [if_pos h1, if_neg (by omega), if_pos (by omega)]; omega
      · rw [if_neg h1]
        by_cases h2 : s ≤ u ∧ u < b
        · rw [if_pos h2, if_pos (by omega)]; omega
        · rw [if_neg h2, if_neg (by omega)]; omega
  · rw [times_nil (by omega), if_neg (by omega)]; rfl

theorem foldlM_roo {f : β → α → Chk β} (I : List α → β → Prop) (step : ∀ x xs b, I (x :: xs) b → RightOrOverflow (f b x) (I xs)) : ∀ (xs : List α) (b : β), I xs b → RightOrOverflow (xs.foldlM f b) (I [])
  | [], _, h => .pure h
  | x :: xs, b, h => by
    rw [List.foldlM_cons]
    exact (step x xs b h).bind fun b' hb' => foldlM_roo I step xs b' hb'

/-- The values of `g` at `lo`, `lo + 1`, ... -/
structure Vec (v : List Int) (lo : Int) (n : Nat) (g : Int → Int) : Prop where
  size : v.length = n
  at_ : ∀ k : Nat, k < n → v[k]? = some (g (lo + k))

/-- They are 64-bit integers. -/
def Fine (lo : Int) (n : Nat) (g : Int → Int) : Prop := ∀ u, lo ≤ u → u < lo + n → InI64 (g u)

variable {v : List Int} {lo t x : Int} {n : Nat} {g : Int → Int}

theorem Vec.congr {g' : Int → Int} (h : Vec v lo n g) (e : ∀ u, lo ≤ u → u < lo + n → g u = g' u) : Vec v lo n g' :=
  ⟨h.size, fun k hk => by rw [h.at_ k hk, e _ (by omega) (by omega)]⟩

theorem Vec.get (h : Vec v lo n g) (h1 : lo ≤ t) (h2 : t < lo + n) : vecAt v (t - lo).toNat = .ok (g t) := by
  have e : lo + ((t - lo).toNat : Int) = t := by omega
  have := h.at_ (t - lo).toNat (by omega)
  rw [e] at this
  simp [vecAt, this]

theorem get_roo (h : Vec v lo n g) (hf : Fine lo n g) (hl : InI64 lo) (ht : InI64 t) (h1 : lo ≤ t) (h2 : t < lo + n) : RightOrOverflow (get v lo t) (fun r => r = g t ∧ InI64 r) := by
  refine (sub_roo ht hl).bind fun k hk => ?_
  obtain ⟨rfl, _⟩ := hk
  rw [if_neg (by omega), h.get h1 h2]
  exact .pure ⟨rfl, hf t h1 h2⟩

theorem Vec.set (h : Vec v lo n g) {y : Int} (h1 : lo ≤ t) (_h2 : t < lo + n) : Vec (v.set (t - lo).toNat y) lo n (fun u => if u = t then y else g u) := by
  refine ⟨by rw [List.length_set, h.size], fun k hk => ?_⟩
  rw [List.getElem?_set, h.at_ k hk]
  by_cases e : (t - lo).toNat = k
  · rw [if_pos e, if_pos (by rw [h.size]; omega), if_pos (by omega)]
  · rw [if_neg e, if_neg (by omega)]

theorem add_at_roo (h : Vec v lo n g) (hf : Fine lo n g) (hl : InI64 lo) (ht : InI64 t) (hx : InI64 x) (h1 : lo ≤ t) (h2 : t < lo + n) :
    RightOrOverflow (add v lo x t) (fun v' => Vec v' lo n (fun u => g u + if u = t then x else 0) ∧ Fine lo n (fun u => g u + if u = t then x else 0)) := by
  refine (sub_roo ht hl).bind fun k hk => ?_
  obtain ⟨rfl, _⟩ := hk
  rw [if_neg (by omega), h.get h1 h2]
  refine (add_roo (hf t h1 h2) hx).bind fun z hz => .pure ?_
  obtain ⟨rfl, hz⟩ := hz
  refine ⟨(h.set h1 h2).congr fun u _ _ => ?_, fun u h3 h4 => ?_⟩
  · by_cases e : u = t
    · subst e; simp
    · simp [e]
  · by_cases e : u = t
    · subst e; simpa using hz
    · simpa [e] using hf u h3 h4

theorem fill_roo {s e : Int} (h : Vec v lo n g) (hf : Fine lo n g) (hl : InI64 lo) (hs : InI64 s) (he : InI64 e) (hx : InI64 x) (h1 : lo ≤ s) (h2 : e ≤ lo + n) :
    RightOrOverflow ((times s e).foldlM (fun v t => add v lo x t) v) (fun v' => Vec v' lo n (fun u => g u + if s ≤ u ∧ u < e then x else 0) ∧ Fine lo n (fun u => g u + if s ≤ u ∧ u < e then x else 0)) := by
  refine (foldlM_roo (I := fun rest v' => (∀ t ∈ rest, s ≤ t ∧ t < e) ∧ ∃ g', Vec v' lo n g' ∧ Fine lo n g' ∧ ∀ u, g' u + tot (fun t => if u = t then x else 0) rest = g u + if s ≤ u ∧ u < e then x else 0)
    (fun t rest v' ⟨k1, g', k2, k3, k4⟩ => ?_) (times s e) v ⟨fun t ht => mem_times.1 ht, g, h, hf, fun u => by rw [tot_hit]⟩).mono fun v' ⟨_, g', k2, k3, k4⟩ => ?_
  · have ht := k1 t List.mem_cons_self
    have ht' : InI64 t := by simp only [InI64] at *; omega
    refine (add_at_roo k2 k3 hl ht' hx (by omega) (by omega)).mono fun v'' hv => ⟨fun y hy => k1 y (List.mem_cons_of_mem _ hy), _, hv.1, hv.2, fun u => ?_⟩
    have := k4 u
    simp only [tot_cons] at this
    omega
  · have e' : g' = fun u => g u + if s ≤ u ∧ u < e then x else 0 := by
      funext u
      have := k4 u
      simp only [tot_nil] at this
      omega
    exact e' ▸ ⟨k2, k3⟩

theorem sums_roo : ∀ {v : List Int} {lo x : Int} {g : Int → Int}, Vec v lo v.length g → Fine lo v.length g → InI64 x →
    RightOrOverflow (sums x v) (fun zs => Vec zs lo (v.length + 1) (fun u => x + tot g (times lo u)) ∧ Fine lo (v.length + 1) (fun u => x + tot g (times lo u)))
  | [], lo, x, g, _, _, hx => .pure ⟨⟨rfl, fun k hk => by
      have : k = 0 := by simp at hk; exact hk
      subst this
      simp [times_nil]⟩, fun u h1 h2 => by
      have : u = lo := by simp at h2; omega
      subst this
      simpa [times_nil] using hx⟩
  | y :: ys, lo, x, g, hv, hf, hx => by
    have h0 := hv.at_ 0 (by simp)
    simp only [List.getElem?_cons_zero, Option.some.injEq, Int.natCast_zero, Int.add_zero] at h0
    subst h0
    have hv' : Vec ys (lo + 1) ys.length g := ⟨rfl, fun k hk => by
      have := hv.at_ (k + 1) (by simpa using hk)
      simp only [List.getElem?_cons_succ] at this
      rw [this]
      congr 2
      omega⟩
    refine (add_roo hx (hf lo (Int.le_refl lo) (by simp; omega))).bind fun z hz => ?_
    obtain ⟨rfl, hz⟩ := hz
    refine (sums_roo hv' (fun u h1 h2 => hf u (by omega) (by simp; omega)) hz).bind fun zs hzs => .pure ?_
    have key : ∀ u, lo + 1 ≤ u → x + g lo + tot g (times (lo + 1) u) = x + tot g (times lo u) := fun u hu => by
      have e := tot_times_split (f := g) (lo := lo) (mid := lo + 1) (hi := u) (by omega) hu
      have e2 := tot_times_succ (f := g) (lo := lo) (hi := lo) (Int.le_refl lo)
      rw [times_nil (Int.le_refl lo)] at e2
      simp only [tot_nil] at e2
      omega
    refine ⟨⟨by simp [hzs.1.size], fun k hk => ?_⟩, fun u h1 h2 => ?_⟩
    · cases k with
      | zero => simp [times_nil]
      | succ k =>
        have := hzs.1.at_ k (by simpa using hk)
        simp only [List.getElem?_cons_succ]
        rw [this, key _ (by omega)]
        congr 4
        omega
    · by_cases e : u = lo
      · subst e; simpa [times_nil] using hx
      · show InI64 (x + tot g (times lo u))
        rw [← key u (by omega)]
        exact hzs.2 u (by omega) (by simp at h2 ⊢; omega)

theorem between_roo {x y : Int} (h : Vec v lo (n + 1) (fun u => tot g (times lo u))) (hf : Fine lo (n + 1) (fun u => tot g (times lo u))) (hl : InI64 lo) (hx : InI64 x) (hy : InI64 y)
    (h1 : lo ≤ x) (h2 : x ≤ y) (h3 : y ≤ lo + n) : RightOrOverflow (between v lo x y) (fun r => r = tot g (times x y) ∧ InI64 r) := by
  refine (get_roo h hf hl hy (by omega) (by omega)).bind fun p hp => (get_roo h hf hl hx h1 (by omega)).bind fun q hq => ?_
  obtain ⟨rfl, hp⟩ := hp
  obtain ⟨rfl, hq⟩ := hq
  refine (sub_roo hp hq).mono fun r hr => ⟨?_, hr.2⟩
  rw [hr.1, tot_times_split h1 h2]
  omega

/-! ## Sorting -/

theorem tot_insertBy {f : α → Int} {k : α → Int} {x : α} : ∀ {l : List α}, tot f (insertBy k x l) = f x + tot f l
  | [] => by simp [insertBy]
  | y :: l => by
    rw [insertBy]
    split
    · simp
    · simp only [tot_cons, tot_insertBy (l := l)]; omega

theorem tot_sortBy {f : α → Int} {k : α → Int} : ∀ {l : List α}, tot f (sortBy k l) = tot f l
  | [] => rfl
  | x :: l => by rw [sortBy, tot_insertBy, tot_sortBy (l := l), tot_cons]

theorem mem_insertBy {k : α → Int} {x y : α} : ∀ {l : List α}, y ∈ insertBy k x l ↔ y = x ∨ y ∈ l
  | [] => by simp [insertBy]
  | z :: l => by
    rw [insertBy]
    split
    · simp
    · simp only [List.mem_cons, mem_insertBy (l := l)]
      constructor
      · rintro (h | h | h)
        · exact .inr (.inl h)
        · exact .inl h
        · exact .inr (.inr h)
      · rintro (h | h | h)
        · exact .inr (.inl h)
        · exact .inl h
        · exact .inr (.inr h)

theorem mem_sortBy {k : α → Int} {y : α} : ∀ {l : List α}, y ∈ sortBy k l ↔ y ∈ l
  | [] => by simp [sortBy]
  | x :: l => by rw [sortBy, mem_insertBy, mem_sortBy (l := l), List.mem_cons]

theorem insertBy_sorted {k : α → Int} {x : α} : ∀ {l : List α}, l.Pairwise (fun x y => k x ≤ k y) → (insertBy k x l).Pairwise (fun x y => k x ≤ k y)
  | [], _ => by simp [insertBy]
  | y :: l, h => by
    have h' := List.pairwise_cons.1 h
    rw [insertBy]
    split
    · rename_i hle
      exact List.pairwise_cons.2 ⟨fun z hz => by
        rcases List.mem_cons.1 hz with rfl | hz
        · exact hle
        · exact Int.le_trans hle (h'.1 z hz), h⟩
    · refine List.pairwise_cons.2 ⟨fun z hz => ?_, insertBy_sorted h'.2⟩
      rcases mem_insertBy.1 hz with rfl | hz
      · omega
      · exact h'.1 z hz

theorem sortBy_sorted {k : α → Int} : ∀ {l : List α}, (sortBy k l).Pairwise (fun x y => k x ≤ k y)
  | [] => .nil
  | _ :: l => insertBy_sorted (sortBy_sorted (l := l))

theorem mem_distinct {y : Int} : ∀ {l : List Int}, y ∈ distinct l → y ∈ l
  | [], h => h
  | [_], h => h
  | x :: z :: l, h => by
    rw [distinct] at h
    split at h
    · exact List.mem_cons_of_mem _ (mem_distinct h)
    · rcases List.mem_cons.1 h with rfl | h
      · exact List.mem_cons_self
      · exact List.mem_cons_of_mem _ (mem_distinct h)

end
end Gcs.Cumulative
