import Verif.Lemmas.Cons.LinearIncremental
import Verif.Lemmas.Cons.LinearConsistent
import Verif.Model.Cons.LinearSlack
import Verif.Lemmas.PbEmit

/-! The terms that are watched are enough. -/

namespace Gcs.Linear
open IntervalSet

/-- How much a term may still add. -/
def room (t : Bounded) : Int := (if t.term.coeff ≥ 0 then t.term.coeff else - t.term.coeff) * (t.hi - t.lo)

theorem potentials_spec : ∀ {bs : List Bounded} {ps}, (∀ t ∈ bs, InI64 t.term.coeff ∧ InI64 t.lo ∧ InI64 t.hi) → potentials bs = .ok ps → ps = bs.map fun t => (t, room t)
  | [], _, _, h => by cases h; rfl
  | t :: bs, ps, ht, h => by
    obtain ⟨p, hp, h⟩ := bind_ok h
    obtain ⟨r, hr, h⟩ := bind_ok h
    cases h
    rw [potentials_spec (fun u hu => ht u (by simp [hu])) hr]
    obtain ⟨x, hx, hp⟩ := bind_ok hp
    obtain ⟨y, hy, hp⟩ := bind_ok hp
    obtain ⟨h1, h2, h3⟩ := ht t (by simp)
    have ex := (abs_roo h1).value hx
    have ey := (sub_roo h3 h2).value hy
    have ep := (mul_roo ex.2 ey.2).value hp
    have : p = room t := by
      rw [ep.1, ex.1, ey.1]
      unfold room
      congr 1
      split <;> omega
    rw [this]; rfl

theorem total_spec : ∀ {ps : List (Bounded × Int)} {s r : Int}, (∀ p ∈ ps, 0 ≤ p.2) → total s ps = .ok r → r = s + (ps.map (·.2)).sum
  | [], s, r, _, h => by cases h; simp
  | p :: ps, s, r, h0, h => by
    obtain ⟨x, hx, h⟩ := bind_ok h
    have := total_spec (fun q hq => h0 q (by simp [hq])) h
    have ex : x = s + p.2 := Pb.iAdd_eq hx
    rw [this, ex]; simp; omega

theorem sum_perm {xs ys : List Int} (h : xs.Perm ys) : xs.sum = ys.sum := by
  induction h with
  | nil => rfl
  | cons x _ ih => simp [ih]
  | swap x y l => simp; omega
  | trans _ _ h1 h2 => rw [h1, h2]

theorem sum_zero : ∀ {ps : List (Bounded × Int)}, (∀ p ∈ ps, p.2 = 0) → (ps.map (·.2)).sum = 0
  | [], _ => rfl
  | p :: ps, h => by
    have := sum_zero (ps := ps) fun q hq => h q (by simp [hq])
    rw [List.map_cons, List.sum_cons, h p (by simp), this]; rfl

theorem coverLoop_spec {margin : Int} : ∀ {ps : List (Bounded × Int)} {u : Int} {ws}, u = (ps.map (·.2)).sum → (∀ p ∈ ps, 0 ≤ p.2) → (ps.map (·.2)).Pairwise (· ≥ ·) → coverLoop margin u ps = .ok ws →
    ∃ front rest, ps = front ++ rest ∧ front.map (·.1) = ws ∧ ((rest.map (·.2)).sum ≤ margin ∨ (rest.map (·.2)).sum = 0)
  | [], u, ws, _, _, _, h => by cases h; exact ⟨[], [], rfl, rfl, .inr rfl⟩
  | (t, p) :: ps, u, ws, hu, h0, hs, h => by
    simp only [coverLoop] at h
    split at h
    · rename_i hc
      cases h
      refine ⟨[], _, rfl, rfl, ?_⟩
      rcases hc with hc | hc
      · exact .inl (hu ▸ hc)
      · refine .inr (sum_zero fun q hq => ?_)
        have hq0 := h0 q hq
        rcases List.mem_cons.1 hq with rfl | hq
        · exact hc
        · rw [List.map_cons, List.pairwise_cons] at hs
          have := hs.1 q.2 (List.mem_map.2 ⟨q, hq, rfl⟩)
          dsimp only at this hc
          omega
    · obtain ⟨u', hu', h⟩ := bind_ok h
      obtain ⟨ws', hws, h⟩ := bind_ok h
      cases h
      have eu : u' = u - p := Pb.iSub_eq hu'
      rw [List.map_cons, List.pairwise_cons] at hs
      obtain ⟨front, rest, e1, e2, e3⟩ := coverLoop_spec (ps := ps) (by rw [eu, hu]; simp; omega) (fun q hq => h0 q (by simp [hq])) hs.2 hws
      exact ⟨(t, p) :: front, rest, by rw [e1]; rfl, by simp [e2], e3⟩

theorem coverLoop_sub {margin : Int} : ∀ {ps : List (Bounded × Int)} {u : Int} {ws}, coverLoop margin u ps = .ok ws → ∀ t ∈ ws, t ∈ ps.map (·.1)
  | [], _, _, h => by cases h; simp
  | (t, p) :: ps, u, ws, h => by
    simp only [coverLoop] at h
    split at h
    · cases h; simp
    · obtain ⟨u', hu', h⟩ := bind_ok h
      obtain ⟨ws', hws, h⟩ := bind_ok h
      cases h
      intro x hx
      rcases List.mem_cons.1 hx with rfl | hx
      · simp
      · simpa using .inr (by simpa using coverLoop_sub hws x hx)

theorem potentials_sub : ∀ {bs : List Bounded} {ps}, potentials bs = .ok ps → ps.map (·.1) = bs
  | [], _, h => by cases h; rfl
  | t :: bs, ps, h => by
    obtain ⟨p, hp, h⟩ := bind_ok h
    obtain ⟨r, hr, h⟩ := bind_ok h
    cases h
    simp [potentials_sub hr]

theorem slackCover_sub {value : Int} {bs ws : List Bounded} {sort : List (Bounded × Int) → List (Bounded × Int)} (hsort : ∀ ps, (sort ps).Perm ps ∧ ((sort ps).map (·.2)).Pairwise (· ≥ ·))
    (hc : slackCover sort value bs = .ok ws) : ∀ t ∈ ws, t ∈ bs := by
  obtain ⟨ps, hps, hc⟩ := bind_ok hc
  obtain ⟨sum, _, hc⟩ := bind_ok hc
  obtain ⟨slack, _, hc⟩ := bind_ok hc
  obtain ⟨margin, _, hc⟩ := bind_ok hc
  obtain ⟨tot, _, hc⟩ := bind_ok hc
  intro t ht
  have := ((hsort ps).1.map (·.1)).mem_iff.1 (coverLoop_sub hc t ht)
  rwa [potentials_sub hps] at this

theorem exists_some {d' : Doms} (hd' : DomsOK d') : ∀ {ws : List Bounded}, ((ws.map Bounded.term).map Term.var).Nodup → (∀ t ∈ ws, ∃ b, Within d' b ∧ t.term.coeff * b t.term.var = low false t) →
    ∃ a, Within d' a ∧ ∀ t ∈ ws, t.term.coeff * a t.term.var = low false t
  | [], _, _ => by obtain ⟨a, ha⟩ := exists_within hd'; exact ⟨a, ha, by simp⟩
  | t :: bs, hn, hf => by
    simp only [List.map_cons, List.nodup_cons] at hn
    obtain ⟨a, ha, h⟩ := exists_some hd' hn.2 fun u hu => hf u (by simp [hu])
    obtain ⟨b, hb, e⟩ := hf t (by simp)
    refine ⟨_, ha.upd hb t.term.var, fun u hu => ?_⟩
    rcases List.mem_cons.1 hu with rfl | hu
    · simp only [if_pos, e]
    · rw [if_neg fun e : u.term.var = t.term.var => hn.1 (e ▸ List.mem_map.2 ⟨u.term, List.mem_map.2 ⟨u, hu, rfl⟩, rfl⟩)]
      exact h u hu

variable {d : Doms}

theorem low_room {t : Bounded} {x : Int} (h1 : t.lo ≤ x) (h2 : x ≤ t.hi) : t.term.coeff * x ≤ low false t + room t ∧ 0 ≤ room t := by
  simp only [low, eff, room]
  simp only [Bool.false_eq_true, if_false]
  split
  · rename_i h
    constructor
    · have := Int.mul_le_mul_of_nonneg_left h2 h
      rw [Int.mul_sub]; omega
    · exact Int.mul_nonneg h (by omega)
  · rename_i h
    constructor
    · have := Int.mul_le_mul_of_nonpos_left (a := t.term.coeff) (by omega) h1
      rw [Int.mul_sub, Int.neg_mul, Int.neg_mul]; omega
    · exact Int.mul_nonneg (by omega) (by omega)

theorem tsum_front {a : Asg} : ∀ {ps : List Bounded}, (∀ t ∈ ps, t.term.coeff * a t.term.var = low false t) → tsum (ps.map Bounded.term) a = lowSum false ps
  | [], _ => by simp [tsum, lowSum]
  | t :: ps, h => by rw [List.map_cons, tsum_cons, lowSum_cons, h t (by simp), tsum_front fun u hu => h u (by simp [hu])]

theorem tsum_rest {a : Asg} : ∀ {ps : List Bounded}, (∀ t ∈ ps, t.term.coeff * a t.term.var ≤ low false t + room t) → tsum (ps.map Bounded.term) a ≤ lowSum false ps + (ps.map room).sum
  | [], _ => by simp [tsum, lowSum]
  | t :: ps, h => by
    have := h t (by simp)
    have := tsum_rest (ps := ps) fun u hu => h u (by simp [hu])
    rw [List.map_cons, tsum_cons, lowSum_cons, List.map_cons, List.sum_cons]; omega

theorem lowSum_perm {xs ys : List Bounded} (h : xs.Perm ys) : lowSum false xs = lowSum false ys := by
  unfold lowSum
  exact sum_perm (h.map _)

theorem lowSum_append (xs ys : List Bounded) : lowSum false (xs ++ ys) = lowSum false xs + lowSum false ys := by simp [lowSum]

theorem slackCover_enough {n : Nat} {ts : List Term} {value : Int} {bs ws : List Bounded} {d' : Doms} {sort : List (Bounded × Int) → List (Bounded × Int)} (ht : Tidy n ts) (hv : InI64 value)
    (hsort : ∀ ps, (sort ps).Perm ps ∧ ((sort ps).map (·.2)).Pairwise (· ≥ ·)) (hd : DomsOK d) (hb : bs.map Bounded.term = ts) (hf : ∀ t ∈ bs, Fits d t)
    (hcons : ∀ v y, Poss d (.simple v) y → ∃ a, Within d a ∧ a v = y ∧ tsum ts a ≤ value) (hc : slackCover sort value bs = .ok ws)
    (hd' : DomsOK d') (hs : ∀ a, Within d' a → Within d a) (hw : ∀ t ∈ ws, ∃ b, Within d' b ∧ t.term.coeff * b t.term.var = low false t) :
    ∀ v y, Poss d' (.simple v) y → ∃ a, Within d' a ∧ a v = y ∧ tsum ts a ≤ value := by
  subst hb
  have good : ∀ t ∈ bs, Good n (units (bs.map Bounded.term)) t.term := fun t h => ht.good _ (List.mem_map.2 ⟨t, h, rfl⟩)
  obtain ⟨ps, hps, hc⟩ := bind_ok hc
  obtain ⟨sum, hsum, hc⟩ := bind_ok hc
  obtain ⟨slack, hslack, hc⟩ := bind_ok hc
  obtain ⟨margin, hmargin, hc⟩ := bind_ok hc
  obtain ⟨tot, htot, hc⟩ := bind_ok hc
  have eps := potentials_spec (fun t h => ⟨(good t h).coeff, (hf t h).loI, (hf t h).hiI⟩) hps
  have esum' := (lowerSum_roo (d := d) (inv := false) (s := 0) (by decide) fun t h => ⟨(good t h).coeff, hf t h⟩).value hsum
  have eslack : slack = value - sum := Pb.iSub_eq hslack
  have emargin : margin = slack - ((sort ps).map (·.2)).headD 0 := Pb.iSub_eq hmargin
  have inb : ∀ t ∈ bs, ∀ a, Within d a → t.term.coeff * a t.term.var ≤ low false t + room t ∧ 0 ≤ room t := fun t h a ha =>
    low_room ((hf t h).lo.2 _ ⟨a, ha, rfl⟩) ((hf t h).hi.2 _ ⟨a, ha, rfl⟩)
  obtain ⟨a0, ha0⟩ := exists_within hd
  have nonneg : ∀ p ∈ ps, 0 ≤ p.2 := by
    intro p hp
    rw [eps] at hp
    obtain ⟨t, h, rfl⟩ := List.mem_map.1 hp
    exact (inb t h a0 ha0).2
  have etot := total_spec nonneg htot
  obtain ⟨perm, sorted⟩ := hsort ps
  have nonneg' : ∀ p ∈ sort ps, 0 ≤ p.2 := fun p hp => nonneg p (perm.mem_iff.1 hp)
  obtain ⟨front, rest, e1, e2, e3⟩ := coverLoop_spec (by rw [etot, sum_perm (perm.map (·.2))]; omega) nonneg' sorted hc
  have eroom : ∀ p ∈ sort ps, p.1 ∈ bs ∧ p.2 = room p.1 := by
    intro p hp
    have := perm.mem_iff.1 hp
    rw [eps] at this
    obtain ⟨t, h, rfl⟩ := List.mem_map.1 this
    exact ⟨h, rfl⟩
  have maxpot : ∀ t ∈ bs, room t ≤ ((sort ps).map (·.2)).headD 0 := by
    intro t h
    have hm : (t, room t) ∈ sort ps := perm.mem_iff.2 (by rw [eps]; exact List.mem_map.2 ⟨t, h, rfl⟩)
    cases hsp : sort ps with
    | nil => rw [hsp] at hm; cases hm
    | cons q qs =>
      rw [hsp] at hm sorted
      simp only [List.map_cons, List.headD_cons]
      rcases List.mem_cons.1 hm with e | hm
      · rw [← e]; exact Int.le_refl _
      · rw [List.map_cons, List.pairwise_cons] at sorted
        exact sorted.1 _ (List.mem_map.2 ⟨_, hm, rfl⟩)
  have fix : 0 ≤ margin := by
    rw [emargin, eslack, esum'.1]
    cases hsp : sort ps with
    | nil =>
      have e : bs = [] := by
        have := perm.length_eq
        rw [hsp, eps] at this
        simpa using this.symm
      obtain ⟨a, ha, _, h⟩ := hcons 0 (a0 0) ⟨a0, ha0, rfl⟩
      rw [e] at h ⊢
      simp only [List.map_nil, tsum, List.sum_nil, lowSum, List.headD_nil] at *; omega
    | cons q qs =>
      have hq := eroom q (by rw [hsp]; simp)
      have ft := hf q.1 hq.1
      obtain ⟨b, hb, eb⟩ : ∃ b, Within d b ∧ q.1.term.coeff * b q.1.term.var = low false q.1 + room q.1 := by
        simp only [low, eff, room]
        simp only [Bool.false_eq_true, if_false]
        split
        · obtain ⟨b, hb, e⟩ := ft.hi.1
          simp only [VarId.eval] at e
          exact ⟨b, hb, by rw [e, Int.mul_sub]; omega⟩
        · obtain ⟨b, hb, e⟩ := ft.lo.1
          simp only [VarId.eval] at e
          exact ⟨b, hb, by rw [e, Int.mul_sub, Int.neg_mul, Int.neg_mul]; omega⟩
      obtain ⟨a, ha, e, h⟩ := hcons q.1.term.var (b q.1.term.var) ⟨b, hb, rfl⟩
      rw [← e] at eb
      have key : lowSum false bs + room q.1 ≤ tsum (bs.map Bounded.term) a := by
        have hm := hq.1
        obtain ⟨l, r, e⟩ := List.append_of_mem hm
        have hl := lowSum_le (inv := false) (bs := l) (fun t h => hf t (by rw [e]; simp [h])) ha
        have hr := lowSum_le (inv := false) (bs := r) (fun t h => hf t (by rw [e]; simp [h])) ha
        rw [e, lowSum_append, lowSum_cons, List.map_append, List.map_cons]
        simp only [esum, Bool.false_eq_true, if_false] at hl hr
        have : tsum (l.map Bounded.term ++ q.1.term :: r.map Bounded.term) a = tsum (l.map Bounded.term) a + (q.1.term.coeff * a q.1.term.var + tsum (r.map Bounded.term) a) := by
          simp [tsum]
        omega
      simp only [List.map_cons, List.headD_cons, hq.2]
      omega
  have restLe : (rest.map (·.2)).sum ≤ margin := by omega
  intro v y ⟨b, hb, eb⟩
  simp only [VarId.eval] at eb
  have permB : ((sort ps).map (·.1)).Perm bs := by
    have := perm.map (·.1)
    rw [eps] at this
    simpa [Function.comp_def, eps] using this
  have nodupW : ((ws.map Bounded.term).map Term.var).Nodup := by
    have h1 := ((permB.map Bounded.term).map Term.var).nodup_iff.2 ht.nodup
    rw [e1, List.map_append, List.map_append, List.map_append, e2] at h1
    exact (List.nodup_append.1 h1).1
  obtain ⟨a, ha, hlow⟩ := exists_some hd' nodupW hw
  have hsumA : tsum (bs.map Bounded.term) a ≤ lowSum false bs + margin := by
    have p1 := tsum_perm (permB.map Bounded.term) a
    rw [← p1, ← lowSum_perm permB, e1]
    simp only [List.map_append]
    rw [lowSum_append, e2]
    have t1 := tsum_front hlow
    have t2 := tsum_rest (a := a) (ps := rest.map (·.1)) fun t h => by
      obtain ⟨p, hp, rfl⟩ := List.mem_map.1 h
      exact (inb _ (eroom p (by rw [e1]; simp [hp])).1 a (hs a ha)).1
    have t3 : ((rest.map (·.1)).map room) = rest.map (·.2) := by
      rw [List.map_map]
      exact List.map_congr_left fun p hp => (eroom p (by rw [e1]; simp [hp])).2.symm
    rw [t3] at t2
    have : tsum (ws.map Bounded.term ++ (rest.map (·.1)).map Bounded.term) a = tsum (ws.map Bounded.term) a + tsum ((rest.map (·.1)).map Bounded.term) a := by simp [tsum]
    omega
  refine ⟨_, ha.upd hb v, by simp [eb], ?_⟩
  by_cases hm : v ∈ (bs.map Bounded.term).map Term.var
  · obtain ⟨t, ht', rfl⟩ := List.mem_map.1 hm
    rw [tsum_depends ht ht']
    obtain ⟨t1, ht1, rfl⟩ := List.mem_map.1 ht'
    have c1 := inb t1 ht1 b (hs b hb)
    have c2 := (hf t1 ht1).low_le (inv := false) (hs a ha)
    simp only [eff, Bool.false_eq_true, if_false] at c2
    have := maxpot t1 ht1
    rw [Int.mul_sub]; omega
  · rw [tsum_upd hm]
    by_cases hbs : bs = []
    · subst hbs
      obtain ⟨a, ha, _, h⟩ := hcons 0 (a0 0) ⟨a0, ha0, rfl⟩
      simp [tsum] at *
      exact h
    · obtain ⟨t, ht⟩ := List.exists_mem_of_ne_nil _ hbs
      have := maxpot t ht
      have := (inb t ht a0 ha0).2
      omega

end Gcs.Linear
