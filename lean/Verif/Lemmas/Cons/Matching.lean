import Verif.Lemmas.Card
import Verif.Spec.Matching

/-!
# Augmenting paths
-/

namespace Gcs.Gac

variable {G : Graph} {M : Match}

theorem put_same {α : Type} (f : Nat → α) (i : Nat) (x : α) : put f i x i = x := by simp [put]
theorem put_ne {α : Type} (f : Nat → α) {i j : Nat} (x : α) (h : j ≠ i) : put f i x j = f j := by simp [put, h]

/-- No one-to-one map goes from a set and one more into the set. -/
theorem pigeon {n : Nat} {P : Nat → Prop} {f : Nat → Nat} {i : Nat} (hi : i < n) (hP : ¬ P i) (h : ∀ l < n, P l ∨ l = i → f l < n ∧ P (f l))
    (inj : ∀ l < n, ∀ k < n, (P l ∨ l = i) → (P k ∨ k = i) → f l = f k → l = k) : False := by
  classical
  let A := (List.range n).filter fun l => decide (P l ∨ l = i)
  let B := (List.range n).filter fun l => decide (P l)
  have hA : A.Nodup := List.nodup_range.sublist List.filter_sublist
  have hB : B.Nodup := List.nodup_range.sublist List.filter_sublist
  have memA : ∀ l, l ∈ A ↔ l < n ∧ (P l ∨ l = i) := fun l => by simp [A]
  have memB : ∀ l, l ∈ B ↔ l < n ∧ P l := fun l => by simp [B]
  have h1 : (i :: B).length ≤ A.length := by
    refine length_le_of_subset _ _ (List.nodup_cons.2 ⟨fun h => hP ((memB i).1 h).2, hB⟩) fun x hx => ?_
    rcases List.mem_cons.1 hx with rfl | hx
    · exact (memA _).2 ⟨hi, .inr rfl⟩
    · exact (memA _).2 ⟨((memB x).1 hx).1, .inl ((memB x).1 hx).2⟩
  have h2 : (A.map f).length ≤ B.length := by
    refine length_le_of_subset _ _ ?_ fun x hx => ?_
    · refine List.pairwise_map.2 (hA.imp_of_mem fun {a b} ha hb hne e => hne ?_)
      exact inj a ((memA a).1 ha).1 b ((memA b).1 hb).1 ((memA a).1 ha).2 ((memA b).1 hb).2 e
    · obtain ⟨y, hy, rfl⟩ := List.mem_map.1 hx
      exact (memB _).2 (h y ((memA y).1 hy).1 ((memA y).1 hy).2)
  simp only [List.length_map, List.length_cons] at h1 h2
  omega

/-- A set of variables all of whose values are matched, to variables in the set. -/
def Closed (G : Graph) (M : Match) (L : Nat → Prop) : Prop := ∀ l, L l → l < G.nL ∧ ∀ r ∈ G.adj l, ∃ k, M.inv r = some k ∧ L k

theorem Closed.no_choice {L : Nat → Prop} {s : Nat} (hM : M.OK G) (hL : Closed G M L) (hs : L s) (hn : M.m s = none) {c : Nat → Nat} : ¬ Choice G c := by
  intro hc
  refine pigeon (n := G.nL) (P := fun l => L l ∧ l ≠ s) (f := fun l => (M.inv (c l)).getD 0) (i := s) (hL s hs).1 (by simp) (fun l hl hp => ?_) fun l hl k hk hp hq e => ?_
  · have hl' : L l := hp.elim (·.1) (· ▸ hs)
    obtain ⟨k, hk, hk'⟩ := (hL l hl').2 _ (hc.edge l hl)
    simp only [hk, Option.getD_some]
    refine ⟨(hL k hk').1, hk', fun e => ?_⟩
    rw [e] at hk
    rw [(hM.back s _).2 hk] at hn
    cases hn
  · obtain ⟨a, ha, _⟩ := (hL l (hp.elim (·.1) (· ▸ hs))).2 _ (hc.edge l hl)
    obtain ⟨b, hb, _⟩ := (hL k (hq.elim (·.1) (· ▸ hs))).2 _ (hc.edge k hk)
    simp only [ha, hb, Option.getD_some] at e
    subst e
    have h1 := (hM.back _ _).2 ha
    rw [(hM.back _ _).2 hb] at h1
    exact hc.inj l hl k hk (Option.some.inj h1).symm

/-! ## The search -/

theorem mem_unmatched {i r : Nat} : r ∈ unmatched G M i ↔ r ∈ G.adj i ∧ M.m i ≠ some r := by simp [unmatched]

/-- What holds of the search, with the first `head` of the queue processed. -/
structure Searching (G : Graph) (M : Match) (start head : Nat) (b : Bfs) : Prop where
  nodup : b.queue.Nodup
  range : ∀ l ∈ b.queue, l < G.nL
  seen : ∀ l, b.seenL l = true ↔ l ∈ b.queue
  first : b.queue[0]? = some start
  right : ∀ r, b.seenR r = true → b.stop = some r ∨ ∃ k, M.inv r = some k ∧ k ∈ b.queue
  stop : ∀ r, b.stop = some r → M.inv r = none ∧ b.seenR r = true
  done : b.stop = none → ∀ j < head, ∀ l : Nat, b.queue[j]? = some l → ∀ r ∈ unmatched G M l, b.seenR r = true
  fromR : ∀ r, b.seenR r = true → b.fromR r ∈ b.queue ∧ r ∈ G.adj (b.fromR r)
  fromL : ∀ j l : Nat, b.queue[j]? = some l → l ≠ start → M.m l = some (b.fromL l) ∧ b.seenR (b.fromL l) = true ∧ ∃ k < j, b.queue[k]? = some (b.fromR (b.fromL l))

theorem getElem?_append_some {α : Type} {l : List α} {j : Nat} {x y : α} (h : l[j]? = some x) : (l ++ [y])[j]? = some x := by
  rw [List.getElem?_append_left (List.getElem?_eq_some_iff.1 h).1]
  exact h

theorem getElem?_snoc {α : Type} {l : List α} {j : Nat} {x y : α} (h : (l ++ [y])[j]? = some x) : l[j]? = some x ∨ j = l.length ∧ x = y := by
  by_cases hj : j < l.length
  · rw [List.getElem?_append_left hj] at h
    exact .inl h
  · rw [List.getElem?_append_right (by omega)] at h
    have : j - l.length = 0 := by
      have := (List.getElem?_eq_some_iff.1 h).1
      simp only [List.length_singleton] at this
      omega
    rw [this] at h
    simp only [List.getElem?_cons_zero, Option.some.injEq] at h
    exact .inr ⟨by omega, h.symm⟩

theorem scan_spec (hM : M.OK G) {start head l : Nat} (hl : M.m start = none) : ∀ (ts : List Nat) {b : Bfs}, Searching G M start head b → b.queue[head]? = some l →
    (∀ t ∈ ts, t ∈ unmatched G M l) → (b.stop = none → ∀ r ∈ unmatched G M l, r ∈ ts ∨ b.seenR r = true) → Searching G M start (head + 1) (scanEdges M.inv l ts b)
  | [], b, hb, hq, _, hd => by
    refine { hb with done := fun hs j hj k hk r hr => ?_ }
    rcases Nat.lt_or_ge j head with h | h
    · exact hb.done hs j h k hk r hr
    · have : j = head := by omega
      subst this
      have hk' : b.queue[j]? = some k := hk
      rw [hq] at hk'
      cases hk'
      exact (hd hs r hr).elim (by simp) id
  | t :: ts, b, hb, hq, hts, hd => by
    have hts' : ∀ x ∈ ts, x ∈ unmatched G M l := fun x hx => hts x (.tail _ hx)
    have ht := mem_unmatched.1 (hts t (.head _))
    have hlq : l ∈ b.queue := List.mem_of_getElem? hq
    simp only [scanEdges]
    split
    next h =>
      refine scan_spec hM hl ts hb hq hts' fun hs r hr => ?_
      rcases hd hs r hr with h' | h'
      · rcases List.mem_cons.1 h' with rfl | h'
        · simp only [hs, Option.isSome_none, Bool.false_or] at h
          exact .inr h
        · exact .inl h'
      · exact .inr h'
    next h =>
    simp only [Bool.or_eq_true, not_or, Bool.not_eq_true, Option.isSome_eq_false_iff, Option.isNone_iff_eq_none] at h
    have hseen : ∀ r, put b.seenR t true r = true ↔ r = t ∨ b.seenR r = true := fun r => by
      by_cases e : r = t
      · simp [e, put_same]
      · simp [put_ne _ _ e, e]
    have hfrom : ∀ r, b.seenR r = true → put b.fromR t l r = b.fromR r := fun r hr => put_ne _ _ (by rintro rfl; rw [h.2] at hr; cases hr)
    have hfr : ∀ r, put b.seenR t true r = true → put b.fromR t l r ∈ b.queue ∧ r ∈ G.adj (put b.fromR t l r) := fun r hr => by
      rcases (hseen r).1 hr with rfl | hr
      · rw [put_same]; exact ⟨hlq, ht.1⟩
      · rw [hfrom r hr]; exact hb.fromR r hr
    have hfl : ∀ j k, b.queue[j]? = some k → k ≠ start → M.m k = some (b.fromL k) ∧ put b.seenR t true (b.fromL k) = true ∧ ∃ i < j, b.queue[i]? = some (put b.fromR t l (b.fromL k)) := fun j k hk hne => by
      obtain ⟨h1, h2, h3⟩ := hb.fromL j k hk hne
      rw [hfrom _ h2]
      exact ⟨h1, (hseen _).2 (.inr h2), h3⟩
    have hd1 : ∀ r ∈ unmatched G M l, r ∈ ts ∨ put b.seenR t true r = true := fun r hr => by
      rcases hd h.1 r hr with h' | h'
      · exact (List.mem_cons.1 h').elim (fun e => .inr ((hseen r).2 (.inl e))) .inl
      · exact .inr ((hseen r).2 (.inr h'))
    split
    next hi =>
      refine scan_spec hM hl ts { nodup := hb.nodup, range := hb.range, seen := hb.seen, first := hb.first, right := fun r hr => ?_, stop := fun r hr => ?_, done := nofun, fromR := hfr, fromL := hfl } hq hts' nofun
      · rcases (hseen r).1 hr with rfl | hr
        · exact .inl rfl
        · exact .inr ((hb.right r hr).elim (fun e => by rw [h.1] at e; cases e) id)
      · cases hr
        exact ⟨hi, (hseen _).2 (.inl rfl)⟩
    next nl hi =>
      have hdone : ∀ j < head, ∀ k, b.queue[j]? = some k → ∀ r ∈ unmatched G M k, put b.seenR t true r = true := fun j hj k hk r hr => (hseen r).2 (.inr (hb.done h.1 j hj k hk r hr))
      have hst : ∀ r, b.stop = some r → M.inv r = none ∧ put b.seenR t true r = true := fun r hr => by rw [h.1] at hr; cases hr
      split
      next hs =>
        refine scan_spec hM hl ts { nodup := hb.nodup, range := hb.range, seen := hb.seen, first := hb.first, right := fun r hr => ?_, stop := hst, done := fun _ => hdone, fromR := hfr, fromL := hfl } hq hts' fun _ => hd1
        rcases (hseen r).1 hr with rfl | hr
        · exact .inr ⟨nl, hi, (hb.seen nl).1 hs⟩
        · exact hb.right r hr
      next hs =>
        have hm := (hM.back nl t).2 hi
        have hnq : nl ∉ b.queue := fun hm => hs ((hb.seen nl).2 hm)
        have hne : nl ≠ start := by rintro rfl; rw [hl] at hm; cases hm
        have hput : ∀ k ∈ b.queue, put b.fromL nl t k = b.fromL k := fun k hk => put_ne _ _ (by rintro rfl; exact hnq hk)
        refine scan_spec hM hl ts { nodup := ?_, range := ?_, seen := ?_, first := getElem?_append_some hb.first, right := fun r hr => ?_, stop := hst, done := fun _ j hj k hk => ?_, fromR := fun r hr => ?_, fromL := fun j k hk hks => ?_ }
          (getElem?_append_some hq) hts' fun _ => hd1
        · rw [List.nodup_append]
          exact ⟨hb.nodup, by simp, fun a ha c hc e => hnq (by rw [List.mem_singleton] at hc; rw [← hc, ← e]; exact ha)⟩
        · intro k hk
          rcases List.mem_append.1 hk with hk | hk
          · exact hb.range k hk
          · rw [List.mem_singleton.1 hk]; exact (hM.edge nl t hm).1
        · intro k
          rw [List.mem_append, List.mem_singleton, ← hb.seen]
          by_cases e : k = nl
          · simp [e, put_same]
          · simp [put_ne _ _ e, e]
        · rcases (hseen r).1 hr with rfl | hr
          · exact .inr ⟨nl, hi, by simp⟩
          · exact (hb.right r hr).imp id fun ⟨k, h1, h2⟩ => ⟨k, h1, by simp [h2]⟩
        · refine hdone j hj k ?_
          rcases getElem?_snoc hk with h' | ⟨h', _⟩
          · exact h'
          · have := (List.getElem?_eq_some_iff.1 hq).1
            omega
        · exact ⟨List.mem_append.2 (.inl (hfr r hr).1), (hfr r hr).2⟩
        · rcases getElem?_snoc hk with h' | ⟨h', rfl⟩
          · have := hput k (List.mem_of_getElem? h')
            simp only [this]
            obtain ⟨h1, h2, i, h3, h4⟩ := hfl j k h' hks
            exact ⟨h1, h2, i, h3, getElem?_append_some h4⟩
          · simp only [put_same]
            exact ⟨hm, trivial, head, by have := (List.getElem?_eq_some_iff.1 hq).1; omega, getElem?_append_some hq⟩

theorem bfs_spec (hM : M.OK G) {start : Nat} (hl : M.m start = none) : ∀ (fuel head : Nat) {b : Bfs}, Searching G M start head b → head ≤ b.queue.length → G.nL < head + fuel →
    ∃ b' head', bfsLoop G M fuel head b = .ok b' ∧ Searching G M start head' b' ∧ (b'.stop = none → b'.queue.length ≤ head')
  | 0, head, b, hb, hh, hf => by
    have : b.queue.length ≤ (List.range G.nL).length := length_le_of_subset _ _ hb.nodup fun x hx => List.mem_range.2 (hb.range x hx)
    rw [List.length_range] at this
    omega
  | fuel + 1, head, b, hb, hh, hf => by
    simp only [bfsLoop]
    split
    next h => exact ⟨b, head, rfl, hb, fun e => by rw [e] at h; cases h⟩
    next h =>
      split
      next hq => exact ⟨b, head, rfl, hb, fun _ => List.getElem?_eq_none_iff.1 hq⟩
      next l hq =>
        have hs := scan_spec hM hl _ hb hq (fun _ => id) fun _ r hr => .inl hr
        refine bfs_spec hM hl fuel (head + 1) hs ?_ (by omega)
        have h1 := (List.getElem?_eq_some_iff.1 hq).1
        exact Nat.lt_of_lt_of_le h1 (scan_length _ _ _ _)
where
  scan_length (inv : Nat → Option Nat) (l : Nat) : ∀ (ts : List Nat) (b : Bfs), b.queue.length ≤ (scanEdges inv l ts b).queue.length
  | [], _ => Nat.le_refl _
  | t :: ts, b => by
    simp only [scanEdges]
    split
    · exact scan_length inv l ts b
    · split
      · have := scan_length inv l ts; refine Nat.le_trans ?_ (this _); exact Nat.le_refl _
      · split
        · have := scan_length inv l ts; refine Nat.le_trans ?_ (this _); exact Nat.le_refl _
        · refine Nat.le_trans ?_ (scan_length inv l ts _)
          simp

theorem searching_init {start : Nat} (hs : start < G.nL) : Searching G M start 0 (.init start) where
  nodup := by simp [Bfs.init]
  range := by simp [Bfs.init, hs]
  seen l := by
    by_cases e : l = start
    · simp [Bfs.init, e, put_same]
    · simp [Bfs.init, put_ne _ _ e, e]
  first := rfl
  right := nofun
  stop := nofun
  done := fun _ j hj => by omega
  fromR := nofun
  fromL j l h hne := by
    have : l ∈ [start] := List.mem_of_getElem? (l := [start]) h
    exact absurd (List.mem_singleton.1 this) hne

/-- A search that ends without a path has found a closed set. -/
theorem searched_closed (hM : M.OK G) {start head : Nat} {b : Bfs} (hb : Searching G M start head b) (hn : b.stop = none) (hh : b.queue.length ≤ head) : Closed G M (· ∈ b.queue) := by
  intro l hl
  refine ⟨hb.range l hl, fun r hr => ?_⟩
  by_cases hm : M.m l = some r
  · exact ⟨l, (hM.back l r).1 hm, hl⟩
  · obtain ⟨j, hj, hjl⟩ := List.mem_iff_getElem.1 hl
    have h := hb.done hn j (by omega) l (by rw [List.getElem?_eq_getElem hj, hjl]) r (mem_unmatched.2 ⟨hr, hm⟩)
    exact (hb.right r h).elim (fun e => by rw [hn] at e; cases e) id

/-! ## The path -/

/-- What holds while the path is flipped, from its end to the edge at `t`. -/
structure Flipping (G : Graph) (M : Match) (b : Bfs) (t j : Nat) (N : Match) : Prop where
  edge : ∀ i r, N.m i = some r → i < G.nL ∧ r ∈ G.adj i
  fwd : ∀ i r, N.m i = some r → r ≠ t ∧ N.inv r = some i
  bwd : ∀ i r, N.inv r = some i → r ≠ t → N.m i = some r
  seen : b.seenR t = true
  pos : b.queue[j]? = some (b.fromR t)
  keep : ∀ k ≤ j, ∀ l : Nat, b.queue[k]? = some l → N.m l = M.m l
  more : ∀ i, (M.m i).isSome → (N.m i).isSome
  closed : ∀ L, Closed G M L → (∀ l, L l → t ∉ G.adj l) ∧ ∀ l, L l → ∀ r ∈ G.adj l, N.inv r = M.inv r

/-- What a step towards a larger matching gives. -/
structure Extends (G : Graph) (M N : Match) : Prop where
  ok : N.OK G
  more : ∀ i, (M.m i).isSome → (N.m i).isSome
  closed : ∀ L, Closed G M L → Closed G N L

theorem Extends.refl (h : M.OK G) : Extends G M M := ⟨h, fun _ => id, fun _ => id⟩
theorem Extends.trans {N K : Match} (h : Extends G M N) (k : Extends G N K) : Extends G M K := ⟨k.ok, fun i hi => k.more i (h.more i hi), fun L hL => k.closed L (h.closed L hL)⟩

theorem closed_of_inv {N : Match} {L : Nat → Prop} (h : Closed G M L) (e : ∀ l, L l → ∀ r ∈ G.adj l, N.inv r = M.inv r) : Closed G N L := fun l hl =>
  ⟨(h l hl).1, fun r hr => by rw [e l hl r hr]; exact (h l hl).2 r hr⟩

theorem getElem?_inj {l : List Nat} (h : l.Nodup) {i j x : Nat} (hi : l[i]? = some x) (hj : l[j]? = some x) : i = j := by
  obtain ⟨a, ha⟩ := List.getElem?_eq_some_iff.1 hi
  obtain ⟨b, hb⟩ := List.getElem?_eq_some_iff.1 hj
  exact (List.getElem_inj h).1 (ha.trans hb.symm)

theorem flip_spec (hM : M.OK G) {start head : Nat} {b : Bfs} (hn : M.m start = none) (hb : Searching G M start head b) : ∀ (fuel t j : Nat) {N : Match}, Flipping G M b t j N → j < fuel →
    ∃ K, flip b start fuel t N = .ok K ∧ Extends G M K ∧ (K.m start).isSome
  | 0, t, j, N, hN, hf => by omega
  | fuel + 1, t, j, N, hN, hf => by
    obtain ⟨hlq, hadj⟩ := hb.fromR t hN.seen
    have hlr := hb.range _ hlq
    have hml := hN.keep j (Nat.le_refl _) _ hN.pos
    have hclosed : ∀ L, Closed G M L → ∀ l, L l → ∀ r ∈ G.adj l, (N.join (b.fromR t) t).inv r = M.inv r := fun L hL l hl r hr => by
      have h1 := (hN.closed L hL).1 l hl
      simp only [Match.join]
      rw [put_ne _ _ (by rintro rfl; exact h1 hr)]
      exact (hN.closed L hL).2 l hl r hr
    have hmore : ∀ i, (M.m i).isSome → ((N.join (b.fromR t) t).m i).isSome := fun i hi => by
      simp only [Match.join]
      by_cases e : i = b.fromR t
      · simp [e, put_same]
      · rw [put_ne _ _ e]; exact hN.more i hi
    have hedge : ∀ i r, (N.join (b.fromR t) t).m i = some r → i < G.nL ∧ r ∈ G.adj i := fun i r h => by
      simp only [Match.join] at h
      by_cases e : i = b.fromR t
      · rw [e, put_same] at h
        cases h
        rw [e]
        exact ⟨hlr, hadj⟩
      · rw [put_ne _ _ e] at h
        exact hN.edge i r h
    simp only [flip]
    split
    next e =>
      refine ⟨_, rfl, ⟨⟨hedge, fun i r => ⟨fun h => ?_, fun h => ?_⟩⟩, hmore, fun L hL => closed_of_inv hL (hclosed L hL)⟩, ?_⟩
      · simp only [Match.join] at h ⊢
        by_cases e' : i = b.fromR t
        · rw [e', put_same] at h
          cases h
          rw [put_same, e']
        · rw [put_ne _ _ e'] at h
          obtain ⟨h1, h2⟩ := hN.fwd i r h
          rw [put_ne _ _ h1]
          exact h2
      · simp only [Match.join] at h ⊢
        by_cases e' : r = t
        · rw [e', put_same] at h
          cases h
          rw [put_same, e']
        · rw [put_ne _ _ e'] at h
          have h1 := hN.bwd i r h e'
          have : i ≠ b.fromR t := by
            rintro rfl
            rw [hml, e, hn] at h1
            cases h1
          rw [put_ne _ _ this]
          exact h1
      · simp [Match.join, e, put_same]
    next e =>
      obtain ⟨h1, h2, k, hk, hkq⟩ := hb.fromL j _ hN.pos e
      rw [← hml] at h1
      refine flip_spec hM hn hb fuel (b.fromL (b.fromR t)) k { edge := hedge, fwd := fun i r h => ?_, bwd := fun i r h hr => ?_, seen := h2, pos := hkq, keep := fun i hi l hl => ?_, more := hmore, closed := fun L hL => ⟨?_, hclosed L hL⟩ } (by omega)
      · simp only [Match.join] at h ⊢
        by_cases e' : i = b.fromR t
        · rw [e', put_same] at h
          cases h
          rw [put_same, e']
          exact ⟨(hN.fwd _ _ h1).1.symm, rfl⟩
        · rw [put_ne _ _ e'] at h
          obtain ⟨h3, h4⟩ := hN.fwd i r h
          rw [put_ne _ _ h3]
          refine ⟨?_, h4⟩
          rintro rfl
          rw [(hN.fwd _ _ h1).2] at h4
          exact e' (Option.some.inj h4).symm
      · simp only [Match.join] at h ⊢
        by_cases e' : r = t
        · rw [e', put_same] at h
          cases h
          rw [put_same, e']
        · rw [put_ne _ _ e'] at h
          have h3 := hN.bwd i r h e'
          have : i ≠ b.fromR t := by
            rintro rfl
            rw [h1] at h3
            exact hr (Option.some.inj h3).symm
          rw [put_ne _ _ this]
          exact h3
      · have : l ≠ b.fromR t := by
          rintro rfl
          have := getElem?_inj hb.nodup hl hN.pos
          omega
        simp only [Match.join]
        rw [put_ne _ _ this]
        exact hN.keep i (by omega) l hl
      · intro l hl hm
        rw [hml] at h1
        obtain ⟨i, hi, hL'⟩ := (hL l hl).2 _ hm
        rw [(hM.back _ _).1 h1] at hi
        cases hi
        exact (hN.closed L hL).1 _ hL' hadj

theorem augment_spec (hM : M.OK G) {start : Nat} (hs : start < G.nL) (hn : M.m start = none) :
    ∃ N, augment G start M = .ok N ∧ Extends G M N ∧ ((N.m start).isSome ∨ N = M ∧ ∃ L, L start ∧ Closed G N L) := by
  obtain ⟨b, head, hb, hi, hh⟩ := bfs_spec hM hn (G.nL + 1) 0 (searching_init hs) (Nat.zero_le _) (by omega)
  simp only [augment, hb, bind, Except.bind, pure, Except.pure]
  split
  next h => exact ⟨M, rfl, .refl hM, .inr ⟨rfl, _, List.mem_of_getElem? hi.first, searched_closed hM hi h (hh h)⟩⟩
  next t h =>
    obtain ⟨h1, h2⟩ := hi.stop t h
    obtain ⟨j, hj, hjl⟩ := List.mem_iff_getElem.1 (hi.fromR t h2).1
    have hlen : b.queue.length ≤ (List.range G.nL).length := length_le_of_subset _ _ hi.nodup fun x hx => List.mem_range.2 (hi.range x hx)
    rw [List.length_range] at hlen
    have hF : Flipping G M b t j M := by
      refine { edge := hM.edge, fwd := fun i r h' => ⟨?_, (hM.back i r).1 h'⟩, bwd := fun i r h' _ => (hM.back i r).2 h', seen := h2, pos := ?_, keep := fun _ _ _ _ => rfl, more := fun _ => id, closed := fun L hL => ⟨fun l hl hm => ?_, fun _ _ _ _ => rfl⟩ }
      · rintro rfl
        rw [(hM.back i r).1 h'] at h1
        cases h1
      · rw [List.getElem?_eq_getElem hj, hjl]
      · obtain ⟨k, hk, _⟩ := (hL l hl).2 t hm
        rw [h1] at hk
        cases hk
    obtain ⟨K, hK, hE, hS⟩ := flip_spec (head := head) hM hn hi (G.nL + 1) t j hF (by omega)
    exact ⟨K, hK, hE, .inl hS⟩

/-! ## The whole matching -/

theorem join_spec (hM : M.OK G) {i t : Nat} (hi : i < G.nL) (ht : t ∈ G.adj i) (hm : M.m i = none) (hv : M.inv t = none) : Extends G M (M.join i t) := by
  refine ⟨⟨fun j r h => ?_, fun j r => ⟨fun h => ?_, fun h => ?_⟩⟩, fun j hj => ?_, fun L hL => closed_of_inv hL fun l hl r hr => ?_⟩
  · simp only [Match.join] at h
    by_cases e : j = i
    · rw [e, put_same] at h; cases h; rw [e]; exact ⟨hi, ht⟩
    · rw [put_ne _ _ e] at h; exact hM.edge j r h
  · simp only [Match.join] at h ⊢
    by_cases e : j = i
    · rw [e, put_same] at h; cases h; rw [e, put_same]
    · rw [put_ne _ _ e] at h
      have h' := (hM.back j r).1 h
      rw [put_ne _ _ (by rintro rfl; rw [hv] at h'; cases h')]
      exact h'
  · simp only [Match.join] at h ⊢
    by_cases e : r = t
    · rw [e, put_same] at h; cases h; rw [e, put_same]
    · rw [put_ne _ _ e] at h
      have h' := (hM.back j r).2 h
      rw [put_ne _ _ (by rintro rfl; rw [hm] at h'; cases h')]
      exact h'
  · simp only [Match.join]
    by_cases e : j = i
    · rw [e, put_same]; rfl
    · rw [put_ne _ _ e]; exact hj
  · simp only [Match.join]
    refine put_ne _ _ ?_
    rintro rfl
    obtain ⟨k, hk, _⟩ := (hL l hl).2 r hr
    rw [hv] at hk
    cases hk

theorem cover_spec (hM : M.OK G) {i : Nat} (hi : i < G.nL) :
    ∃ N, cover G i M = .ok N ∧ Extends G M N ∧ ((N.m i).isSome ∨ ∃ L, L i ∧ Closed G N L) := by
  simp only [cover]
  split
  next r h => exact ⟨M, rfl, .refl hM, .inl (by rw [h]; rfl)⟩
  next h =>
    split
    next t ht =>
      have h1 := List.mem_of_find?_eq_some ht
      have h2 := List.find?_some ht
      exact ⟨_, rfl, join_spec hM hi h1 h (Option.isNone_iff_eq_none.1 h2), .inl (by simp [Match.join, put_same])⟩
    next =>
      obtain ⟨N, h1, h2, h3⟩ := augment_spec hM hi h
      exact ⟨N, h1, h2, h3.imp id (·.2)⟩

theorem coverAll_spec : ∀ (is : List Nat) {M : Match}, M.OK G → (∀ i ∈ is, i < G.nL) →
    ∃ N, coverAll G is M = .ok N ∧ Extends G M N ∧ ∀ i ∈ is, (N.m i).isSome ∨ ∃ L, L i ∧ Closed G N L
  | [], M, hM, _ => ⟨M, rfl, .refl hM, nofun⟩
  | i :: is, M, hM, h => by
    obtain ⟨N, h1, h2, h3⟩ := cover_spec hM (h i (.head _))
    obtain ⟨K, k1, k2, k3⟩ := coverAll_spec is h2.ok fun j hj => h j (.tail _ hj)
    refine ⟨K, by simp only [coverAll, h1, bind, Except.bind, k1], h2.trans k2, fun j hj => ?_⟩
    rcases List.mem_cons.1 hj with rfl | hj
    · exact h3.imp (k2.more j) fun ⟨L, hL, hc⟩ => ⟨L, hL, k2.closed L hc⟩
    · exact k3 j hj

theorem inverse_spec {m : Nat → Option Nat} (inj : ∀ i j r, m i = some r → m j = some r → i = j) : ∀ (l : List Nat) (r i : Nat), inverse m l r = some i ↔ i ∈ l ∧ m i = some r := by
  intro l
  suffices h : ∀ (l p : List Nat) (inv : Nat → Option Nat), (∀ r i, inv r = some i ↔ i ∈ p ∧ m i = some r) → ∀ r i, l.foldl (inverseOf m) inv r = some i ↔ i ∈ p ++ l ∧ m i = some r by
    have := h l [] (fun _ => none) (by simp)
    simpa [inverse] using this
  intro l
  induction l with
  | nil => intro p inv h; simpa using h
  | cons x l ih =>
    intro p inv h r i
    rw [List.foldl_cons, show p ++ x :: l = (p ++ [x]) ++ l by simp]
    refine ih (p ++ [x]) _ (fun r i => ?_) r i
    cases h' : m x with
    | some r' =>
      simp only [inverseOf, h']
      by_cases e : r = r'
      · subst e
        rw [put_same, Option.some.injEq, List.mem_append, List.mem_singleton]
        exact ⟨fun e => e ▸ ⟨.inr rfl, h'⟩, fun ⟨_, h2⟩ => inj _ _ _ h' h2⟩
      · rw [put_ne _ _ e, h, List.mem_append, List.mem_singleton]
        refine ⟨fun ⟨h1, h2⟩ => ⟨.inl h1, h2⟩, fun ⟨h1, h2⟩ => ⟨h1.resolve_right ?_, h2⟩⟩
        rintro rfl
        rw [h'] at h2
        exact e (Option.some.inj h2).symm
    | none =>
      simp only [inverseOf, h']
      rw [h, List.mem_append, List.mem_singleton]
      refine ⟨fun ⟨h1, h2⟩ => ⟨.inl h1, h2⟩, fun ⟨h1, h2⟩ => ⟨h1.resolve_right ?_, h2⟩⟩
      rintro rfl
      rw [h'] at h2
      cases h2

theorem reuse_spec {old : List (Option Nat)} (ho : Injective old) : (reuse G old).OK G := by
  have key : ∀ i r, (reuse G old).m i = some r → old.length = G.nL ∧ old[i]? = some (some r) ∧ r ∈ G.adj i := by
    intro i r h
    simp only [reuse] at h
    split at h
    next hl =>
      split at h
      next r' h' =>
        split at h
        next hm => cases h; exact ⟨hl, h', hm⟩
        next => cases h
      next => cases h
    next => cases h
  have rng : ∀ i r, (reuse G old).m i = some r → i < G.nL := fun i r h => by
    have := (List.getElem?_eq_some_iff.1 (key i r h).2.1).1
    rw [(key i r h).1] at this
    exact this
  refine ⟨fun i r h => ⟨rng i r h, (key i r h).2.2⟩, fun i r => ?_⟩
  have := inverse_spec (m := (reuse G old).m) (fun i j r h1 h2 => ho i j r (key i r h1).2.1 (key j r h2).2.1) (List.range G.nL) r i
  show _ ↔ inverse (reuse G old).m (List.range G.nL) r = some i
  rw [this, List.mem_range]
  exact ⟨fun h => ⟨rng i r h, h⟩, (·.2)⟩

theorem build_spec {old : List (Option Nat)} (ho : Injective old) :
    ∃ N, build G old = .ok N ∧ N.OK G ∧ ∀ i < G.nL, (N.m i).isSome ∨ ∃ L, L i ∧ Closed G N L := by
  obtain ⟨N, h1, h2, h3⟩ := coverAll_spec (G := G) (List.range G.nL) (reuse_spec ho) fun i hi => List.mem_range.1 hi
  exact ⟨N, h1, h2.ok, fun i hi => h3 i (List.mem_range.2 hi)⟩

/-- What a call leaves behind for the next one: no value occurs twice in it. -/
theorem build_injective {old : List (Option Nat)} (ho : Injective old) {N : Match} (h : build G old = .ok N) : Injective ((List.range G.nL).map N.m) := by
  obtain ⟨K, h1, h2, _⟩ := build_spec (G := G) ho
  rw [h] at h1; cases h1
  intro i j r hi hj
  rw [List.getElem?_map, Option.map_eq_some_iff] at hi hj
  obtain ⟨a, ha, ea⟩ := hi
  obtain ⟨b, hb, eb⟩ := hj
  have e1 := (List.getElem?_eq_some_iff.1 ha).2
  have e2 := (List.getElem?_eq_some_iff.1 hb).2
  simp only [List.getElem_range] at e1 e2
  subst e1 e2
  have := ((h2.back _ _).1 ea).symm.trans ((h2.back _ _).1 eb)
  exact Option.some.inj this

theorem complete_iff : complete G M = true ↔ ∀ i < G.nL, (M.m i).isSome := by simp [complete]

/-! ## The explanation of a failure -/

theorem hall_spec (hw : G.WF) {L : Nat → Prop} (hL : Closed G M L) : ∀ (fuel : Nat) (hl hr : Nat → Bool), (∀ l, hl l = true → L l) → ((List.range G.nR).filter fun r => !hr r).length < fuel →
    hallLoop G M fuel hl hr = .ok ()
  | 0, _, _, _, h => by omega
  | fuel + 1, hl, hr, hh, hf => by
    simp only [hallLoop]
    split
    next => rfl
    next r h =>
      have h1 := List.mem_range.1 (List.mem_of_find?_eq_some h)
      have h2 := List.find?_some h
      simp only [Bool.and_eq_true, List.any_eq_true, decide_eq_true_eq, Bool.not_eq_true'] at h2
      obtain ⟨⟨l, _, h3, h4⟩, h5⟩ := h2
      obtain ⟨k, hk, hk'⟩ := (hL l (hh l h3)).2 r h4
      rw [hk]
      refine hall_spec hw hL fuel _ _ (fun x hx => ?_) ?_
      · by_cases e : x = k
        · rw [e]; exact hk'
        · rw [put_ne _ _ e] at hx; exact hh x hx
      · have hn : (List.range G.nR).Nodup := List.nodup_range
        have : (r :: (List.range G.nR).filter fun x => !put hr r true x).length ≤ ((List.range G.nR).filter fun x => !hr x).length := by
          refine length_le_of_subset _ _ (List.nodup_cons.2 ⟨by simp [put_same], hn.sublist List.filter_sublist⟩) fun x hx => ?_
          rcases List.mem_cons.1 hx with rfl | hx
          · exact List.mem_filter.2 ⟨List.mem_range.2 h1, by rw [h5]; rfl⟩
          · obtain ⟨g1, g2⟩ := List.mem_filter.1 hx
            refine List.mem_filter.2 ⟨g1, ?_⟩
            by_cases e : x = r
            · rw [e, h5]; rfl
            · rw [put_ne _ _ e] at g2; exact g2
        simp only [List.length_cons] at this
        omega

theorem explain_spec (hw : G.WF) (h : ∀ i < G.nL, (M.m i).isSome ∨ ∃ L, L i ∧ Closed G M L) (hc : complete G M = false) : explainTooSmall G M = .ok () := by
  have hlen : ∀ hr : Nat → Bool, ((List.range G.nR).filter fun r => !hr r).length < G.nR + 1 := fun hr => by
    have := List.length_filter_le (fun r => !hr r) (List.range G.nR)
    rw [List.length_range] at this
    omega
  simp only [explainTooSmall]
  split
  next hf => 
    exfalso
    rw [List.find?_eq_none] at hf
    have : complete G M = true := complete_iff.2 fun i hi => by
      have := hf i (List.mem_range.2 hi)
      cases hm : M.m i <;> simp [hm] at this ⊢
    rw [hc] at this
    cases this
  next i hf =>
    have h1 := List.mem_range.1 (List.mem_of_find?_eq_some hf)
    have h2 := List.find?_some hf
    rcases h i h1 with h3 | ⟨L, hLi, hL⟩
    · cases hm : M.m i <;> simp [hm] at h2 h3
    · refine hall_spec hw hL _ _ _ (fun l hl => ?_) (hlen _)
      by_cases e : l = i
      · rw [e]; exact hLi
      · rw [put_ne _ _ e] at hl; cases hl

end Gcs.Gac
