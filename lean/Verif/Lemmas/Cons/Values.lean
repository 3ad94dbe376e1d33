import Verif.Lemmas.Cons.Logical
import Verif.Lemmas.Cons.Equals

/-!
# Loops over the values of a variable
-/

namespace Gcs
open IntervalSet

theorem genMap_mem {f : Int → Chk Int} : ∀ (xs : List Int) (e : Option Err) (y : Int), y ∈ (genMap f xs e).1 → ∃ x ∈ xs, f x = .ok y
  | [], _, y, h => by simp [genMap] at h
  | x :: xs, e, y, h => by
    unfold genMap at h
    split at h
    · simp at h
    · rename_i z hz
      rcases List.mem_cons.1 h with rfl | h
      · exact ⟨x, by simp, hz⟩
      · obtain ⟨x', h1, h2⟩ := genMap_mem xs e y h
        exact ⟨x', List.mem_cons_of_mem _ h1, h2⟩

/-- What a loop over the values of a variable sees. -/
def Lists (P : Int → Prop) (g : Gen Int) : Prop := (∀ x ∈ g.1, InI64 x ∧ P x) ∧ (g.2 = none → ∀ x, P x → x ∈ g.1) ∧ ∀ e, g.2 = some e → e = .overflow

section
variable {d : Doms} {v : VarId}

theorem values_ok (hd : DomsOK d) (hv : v.Valid d.length) : ∃ g, eachValue d v = .ok g ∧ Lists (Poss d v) g := by
  obtain ⟨g, L, h1, h2, h3, h4, h5, _⟩ := eachValue_spec hd hv
  have hL : ∀ x, x ∈ L ↔ Poss d v x := by
    split at h2
    · exact h2.2
    · exact h2.2
  refine ⟨g, h1, fun x hx => ⟨?_, (hL x).1 (h3.subset hx)⟩, fun h x hx => h4 h ▸ (hL x).2 hx, h5⟩
  have ok := rawOf_ok hd hv
  have he := each_spec _ ok.wf ok.inRange
  cases v with
  | const c =>
    have : g = genMap (applyView · false 0) [c] none := by simpa [eachValue, deview] using h1.symm
    subst this
    obtain ⟨y, hy, e⟩ := genMap_mem _ _ _ hx
    simp only [List.mem_singleton] at hy; subst hy
    exact ((applyView_raw hd hv (v := .const y) (show Mem y (rawOf d (.const y)) by simp [rawOf, mem_const])).drop.value e).2
  | simple i =>
    have hh : g = genMap (applyView · false 0) (each (rawOf d (.simple i))).1 (each (rawOf d (.simple i))).2 := by
      simp only [eachValue, deview, stateOf_ok hv, Bind.bind, Except.bind, Pure.pure, Except.pure, Except.ok.injEq] at h1
      simp only [rawOf, List.getElem?_eq_getElem hv, Option.getD_some]; exact h1.symm
    subst hh
    obtain ⟨y, hy, e⟩ := genMap_mem _ _ _ hx
    exact ((applyView_raw hd hv (v := .simple i) ((he.1.2 y).1 hy)).drop.value e).2
  | view i n k =>
    have hh : g = genMap (applyView · n k) (each (rawOf d (.view i n k))).1 (each (rawOf d (.view i n k))).2 := by
      simp only [eachValue, deview, stateOf_ok hv.1, Bind.bind, Except.bind, Pure.pure, Except.pure, Except.ok.injEq] at h1
      simp only [rawOf, List.getElem?_eq_getElem hv.1, Option.getD_some]; exact h1.symm
    subst hh
    obtain ⟨y, hy, e⟩ := genMap_mem _ _ _ hx
    exact ((applyView_raw hd hv (v := .view i n k) ((he.1.2 y).1 hy)).drop.value e).2

theorem listed_roo (hd : DomsOK d) (hv : v.Valid d.length) : RightOrOverflow (eachValue d v) (Lists (Poss d v)) := .inr (values_ok hd hv)

end

section
variable {σ μ α β : Type} {J : Job} {d : Doms}

/-- A loop over a generator that gets to its end. -/
theorem ver_gen {f : α → Prog σ μ Unit} {g : Gen α} (I : List α → Doms → Prop) (hd : DomsOK d) (hl : d.length = J.n) (he : ∀ e, g.2 = some e → J.R e)
    (step : ∀ x xs d, DomsOK d → d.length = J.n → I (x :: xs) d → (f x).Ver J (fun _ => False) (fun _ d' => I xs d') d) (h0 : I g.1 d) :
    (Prog.forGen f g).Ver J (fun _ => False) (fun _ d' => I [] d' ∧ g.2 = none) d := by
  refine ver_bind (fun _ h => h.elim) _ d hd hl (ver_mono (fun _ d' hq _ _ _ => ?_) _ _ (ver_forEach I step g.1 d hd hl h0))
  cases e : g.2 with
  | none => exact ⟨hq, rfl⟩
  | some x => exact he x e

/-- What is known about the domains at the end anyway. -/
theorem ver_facts {S : α → Prop} {Q : α → Doms → Prop} : ∀ (p : Prog σ μ α) (d : Doms), DomsOK d → d.length = J.n → p.Ver J S Q d →
    p.Ver J S (fun v d' => (DomsOK d' ∧ d'.length = J.n ∧ ∀ a, Within d' a → Within d a) ∧ Q v d') d
  | .ret _, _, h1, h2, h => ⟨⟨h1, h2, fun _ h => h⟩, h⟩
  | .raise _, _, _, _, h => h
  | .fail, _, _, _, h => h
  | .read k, d, h1, h2, h => fun s e => ver_facts (k s) d h1 h2 (h s e)
  | .infer _ _ k, d, _, _, h => ⟨h.1, h.2.1, fun d' h1 h2 h3 => ver_mono (fun _ _ hq => ⟨⟨hq.1.1, hq.1.2.1, fun a ha => ((h3 a).1 (hq.1.2.2 a ha)).1⟩, hq.2⟩) _ _ (ver_facts (k true) d' h1 h2 (h.2.2.1 d' h1 h2 h3)), h.2.2.2⟩
  | .progress k, d, h1, h2, h => fun b => ver_facts (k b) d h1 h2 (h b)
  | .watch _ _ k, d, h1, h2, h => ⟨h.1, h.2.1, h.2.2.1, h.2.2.2.1, ver_facts k d h1 h2 h.2.2.2.2⟩
  | .clearWatches k, d, h1, h2, h => ⟨h.1, ver_facts k d h1 h2 h.2⟩
  | .setWatchState _ _ k, d, h1, h2, h => ⟨h.1, ver_facts k d h1 h2 h.2⟩
  | .setState _ _ k, d, h1, h2, h => ⟨h.1, ver_facts k d h1 h2 h.2⟩
  | .setMem _ _, _, _, _, h => h.elim

theorem ver_strong {S : α → Prop} {Q : α → Doms → Prop} {p : Prog σ μ α} (hd : DomsOK d) (hl : d.length = J.n) (h : p.Ver J S Q d) : p.Ver J S (fun v d' => DomsOK d' ∧ Q v d') d :=
  ver_mono (fun _ _ hq => ⟨hq.1.1, hq.2⟩) _ _ (ver_facts p d hd hl h)

theorem ver_within {S : α → Prop} {Q : α → Doms → Prop} {p : Prog σ μ α} {d0 : Doms} (hd : DomsOK d) (hl : d.length = J.n) (hs : ∀ a, Within d a → Within d0 a) (h : p.Ver J S Q d) :
    p.Ver J S (fun v d' => Q v d' ∧ ∀ a, Within d' a → Within d0 a) d :=
  ver_mono (fun _ _ hq => ⟨hq.2, fun a ha => hs a (hq.1.2.2 a ha)⟩) _ _ (ver_facts p d hd hl h)

end
end Gcs
