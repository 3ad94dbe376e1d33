import Verif.Lemmas.Cons.LinearInstall
import Verif.Lemmas.Wp

/-! After the sweep for an inequality, every value that is left has a support. -/

namespace Gcs
open IntervalSet

theorem Within.upd {d : Doms} {a b : Asg} (ha : Within d a) (hb : Within d b) (v : Nat) : Within d (fun j => if j = v then b v else a j) := by
  intro j s hs
  by_cases hj : j = v
  · subst hj; simp only [if_pos]; exact hb j s hs
  · simp only [if_neg hj]; exact ha j s hs

namespace Linear

theorem exists_low {d : Doms} {inv : Bool} (hd : DomsOK d) : ∀ {bs : List Bounded}, ((bs.map Bounded.term).map Term.var).Nodup → (∀ t ∈ bs, Fits d t) →
    ∃ a, Within d a ∧ ∀ t ∈ bs, eff inv t.term * a t.term.var = low inv t
  | [], _, _ => by obtain ⟨a, ha⟩ := exists_within hd; exact ⟨a, ha, by simp⟩
  | t :: bs, hn, hf => by
    simp only [List.map_cons, List.nodup_cons] at hn
    obtain ⟨a, ha, h⟩ := exists_low (inv := inv) hd hn.2 fun u hu => hf u (by simp [hu])
    have ft := hf t (by simp)
    obtain ⟨b, hb, e⟩ : ∃ b, Within d b ∧ b t.term.var = if eff inv t.term ≥ 0 then t.lo else t.hi := by
      split
      · exact ft.lo.1
      · exact ft.hi.1
    refine ⟨_, ha.upd hb t.term.var, fun u hu => ?_⟩
    rcases List.mem_cons.1 hu with rfl | hu
    · simp only [if_pos, e]; rfl
    · rw [if_neg fun e : u.term.var = t.term.var => hn.1 (e ▸ List.mem_map.2 ⟨u.term, List.mem_map.2 ⟨u, hu, rfl⟩, rfl⟩)]
      exact h u hu

theorem esum_low {inv : Bool} {a : Asg} : ∀ {bs : List Bounded}, (∀ t ∈ bs, eff inv t.term * a t.term.var = low inv t) → esum inv (bs.map Bounded.term) a = lowSum inv bs
  | [], _ => by rw [List.map_nil, esum_nil]; rfl
  | t :: bs, h => by rw [List.map_cons, esum_cons, lowSum_cons, h t (by simp), esum_low fun u hu => h u (by simp [hu])]

section
variable {σ μ : Type} {J : Job} {ts : List Term} {value : Int}

theorem propagate_consistent (ho : J.R .overflow) (hv : InI64 value) (ht : Tidy J.n ts) (hC : ∀ a, J.C a → tsum ts a ≤ value) {d : Doms} (hd : DomsOK d) (hl : d.length = J.n) :
    (propagate (σ := σ) (μ := μ) false ts value).Ver J (fun _ => True) (fun _ d' => ∀ v y, Poss d' (.simple v) y → ∃ a, Within d' a ∧ a v = y ∧ tsum ts a ≤ value) d := by
  unfold propagate
  split
  · rename_i e; subst e
    split
    · rename_i h
      intro v y hy
      obtain ⟨a, ha, e⟩ := hy
      exact ⟨a, ha, e, h⟩
    · rename_i h
      exact fun a _ hc => h (hC a hc)
  · rename_i hne
    refine ver_ask (f := (readBounds · ts)) ho (readBounds_roo hd hl ht.var) fun bs hbs => ?_
    obtain ⟨rfl, hf⟩ := hbs
    have good : ∀ t ∈ bs, Good J.n (units (bs.map Bounded.term)) t.term := fun t h => ht.good _ (List.mem_map.2 ⟨t, h, rfl⟩)
    refine ver_lift ho (lowerSum_roo (inv := false) (s := 0) (by decide) fun t h => ⟨(good t h).coeff, hf t h⟩) fun sum hsum => ?_
    refine sweep_ver ho trivial hv hd hl ht.nodup (fun t h => ⟨good t h, hf t h⟩) hsum.2 (fun a ha hc => ?_) fun bs1 d1 hd1 hl1 hs1 e1 f1 l1 le1 cap1 _ => ?_
    · rw [hsum.1]
      have := hC a hc
      simp only [esum]; simp; omega
    · intro v y hy
      obtain ⟨b, hb, eb⟩ := hy
      simp only [VarId.eval] at eb
      obtain ⟨a, ha, hlow⟩ := exists_low (inv := false) hd1 (e1 ▸ ht.nodup) f1
      have hsum1 := esum_low hlow
      have hle : sum ≤ value := le1 fun h => hne (by rw [h]; rfl)
      rw [e1] at hsum1
      simp only [esum] at hsum1
      refine ⟨_, ha.upd hb v, by simp [eb], ?_⟩
      simp only [eb]
      by_cases hm : v ∈ (bs.map Bounded.term).map Term.var
      · obtain ⟨t, ht', rfl⟩ := List.mem_map.1 hm
        rw [tsum_depends ht ht']
        rw [← e1] at ht'
        obtain ⟨t1, ht1, rfl⟩ := List.mem_map.1 ht'
        have c1 := cap1 t1 ht1 b hb
        have c2 := hlow t1 ht1
        simp only [eff] at c1 c2
        rw [eb] at c1
        simp at c1 c2 hsum1
        rw [Int.mul_sub]; omega
      · rw [tsum_upd hm]
        simp at hsum1
        omega

end
end Linear
end Gcs
