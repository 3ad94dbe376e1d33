import Verif.Lemmas.Cons.DifferenceSimplify

/-!
# What simplification returns
-/

namespace Gcs.Difference

/-- What the loop over `ss` adds. -/
structure SourcesAdd (arcs : List Arc) (roles : List Role) (base : List Nat) (ss : List Nat) (o o' : Outcome) : Prop where
  removed : ∀ e ∈ o'.removed, e ∈ o.removed ∨ ∃ a r, arcs[e]? = some a ∧ roles[e]? = some r ∧ r ≠ .ignored ∧ a.src ∈ ss ∧ ∃ es, (net .lower arcs base).Chain a.dst es a.src ∧ (net .lower arcs base).sum es ≤ a.d
  grows : ∀ e ∈ o.removed, e ∈ o'.removed
  fixGrows : ∀ p ∈ o.fix, p ∈ o'.fix
  fix : ∀ p ∈ o'.fix, p ∈ o.fix ∨ (roles[p.1]? = some .candidate ∧ Excludes arcs base p)
  kept : ∀ e ∈ base, (net .lower arcs base).tail e ∈ ss → ∃ D, (net .lower arcs base).Dist ((net .lower arcs base).tail e) D ∧ (D ((net .lower arcs base).head e) = some ((net .lower arcs base).wt e) →
    ∃ f ∈ base, f ∉ o'.removed ∧ (net .lower arcs base).tail f = (net .lower arcs base).tail e ∧ (net .lower arcs base).head f = (net .lower arcs base).head e ∧ (net .lower arcs base).wt f = (net .lower arcs base).wt e)
  long : ∀ e ∈ base, (net .lower arcs base).tail e ∈ ss → ∀ es, (net .lower arcs base).Chain ((net .lower arcs base).head e) es ((net .lower arcs base).tail e) → (net .lower arcs base).sum es < (net .lower arcs base).wt e → e ∈ o'.removed
  allImplied : ∀ (e : Nat) (a : Arc) (es : List Nat), arcs[e]? = some a → roles[e]? = some .candidate → a.src ∈ ss → (net .lower arcs base).Chain a.dst es a.src → (net .lower arcs base).sum es ≤ a.d → e ∈ o'.removed
  allFixed : ∀ (e : Nat) (a : Arc) (es : List Nat), arcs[e]? = some a → roles[e]? = some .candidate → a.dst ∈ ss → (net .lower arcs base).Chain a.src es a.dst → a.d + (net .lower arcs base).sum es < 0 → e ∈ o'.removed ∨ ∃ p ∈ o'.fix, p.1 = e

section
variable {n : Nat} {arcs : List Arc} {roles : List Role} {base : List Nat} {h reduced : List Int}

theorem sources_roo (H : Ready n arcs roles base h reduced) : ∀ (ss : List Nat) (o : Outcome), ss.Nodup → (∀ s ∈ ss, s < n) → (∀ e ∈ o.removed, ∀ a, arcs[e]? = some a → a.src ∉ ss) →
    RightOrOverflow (sources n arcs roles h reduced ss o) (SourcesAdd arcs roles base ss o)
  | [], o, _, _, _ => .pure ⟨fun e he => .inl he, fun _ h => h, fun _ h => h, fun p hp => .inl hp, by simp, by simp, by simp, by simp⟩
  | s :: ss, o, hn, hlt, ho => by
    obtain ⟨hs', hn'⟩ := List.nodup_cons.1 hn
    have hs := hlt s (by simp)
    have edge : ∀ e ∈ base, ∃ a, arcs[e]? = some a ∧ roles[e]? = some .base ∧ (net .lower arcs base).tail e = a.src ∧ (net .lower arcs base).head e = a.dst ∧ (net .lower arcs base).wt e = a.d := fun e he => by
      obtain ⟨a, h1, h2⟩ := (H.isBase e).1 he
      exact ⟨a, h1, h2, by simp [net, h1, Dir.tail], by simp [net, h1, Dir.head], by simp [net, h1]⟩
    have memF : ∀ e, e ∈ (select arcs roles fun a r => a.src = s ∧ r ≠ .ignored) ↔ ∃ a r, arcs[e]? = some a ∧ roles[e]? = some r ∧ a.src = s ∧ r ≠ .ignored := fun e => by simp [mem_select]
    have memT : ∀ e, e ∈ (select arcs roles fun a r => a.dst = s ∧ r = .candidate) ↔ ∃ a, arcs[e]? = some a ∧ roles[e]? = some .candidate ∧ a.dst = s := fun e => by
      simp only [mem_select, decide_eq_true_eq]
      constructor
      · rintro ⟨a, r, h1, h2, h3, rfl⟩; exact ⟨a, h1, h2, h3⟩
      · rintro ⟨a, h1, h2, h3⟩; exact ⟨a, _, h1, h2, h3, rfl⟩
    unfold sources
    generalize hF : (select arcs roles fun a r => a.src = s ∧ r ≠ .ignored) = from_ at memF
    generalize hT : (select arcs roles fun a r => a.dst = s ∧ r = .candidate) = to at memT
    have nodup : from_.Nodup := by rw [← hF]; exact nodup_select
    show RightOrOverflow (if from_ = [] ∧ to = [] then _ else _) _
    split
    · rename_i hnone
      have none1 : ∀ (e : Nat) (a : Arc) (r : Role), arcs[e]? = some a → roles[e]? = some r → r ≠ .ignored → a.src ≠ s := fun e a r h1 h2 h3 h4 => by
        have := (memF e).2 ⟨a, r, h1, h2, h4, h3⟩
        rw [hnone.1] at this; simp at this
      have none2 : ∀ (e : Nat) (a : Arc), arcs[e]? = some a → roles[e]? = some .candidate → a.dst ≠ s := fun e a h1 h2 h4 => by
        have := (memT e).2 ⟨a, h1, h2, h4⟩
        rw [hnone.2] at this; simp at this
      refine (sources_roo H ss o hn' (fun t ht => hlt t (by simp [ht])) fun e he a ha hm => ho e he a ha (by simp [hm])).mono fun o' k =>
        ⟨fun e he => ?_, k.grows, k.fixGrows, k.fix, fun e he ht => ?_, fun e he ht => ?_, fun e a es h1 h2 h3 => ?_, fun e a es h1 h2 h3 => ?_⟩
      · rcases k.removed e he with q | ⟨a, r, q1, q2, q3, q4, q5⟩
        · exact .inl q
        · exact .inr ⟨a, r, q1, q2, q3, by simp [q4], q5⟩
      · obtain ⟨a, h1, h2, h3, -⟩ := edge e he
        rcases List.mem_cons.1 ht with ht | ht
        · exact absurd (h3 ▸ ht) (none1 e a _ h1 h2 (by decide))
        · exact k.kept e he ht
      · obtain ⟨a, h1, h2, h3, -⟩ := edge e he
        rcases List.mem_cons.1 ht with ht | ht
        · exact absurd (h3 ▸ ht) (none1 e a _ h1 h2 (by decide))
        · exact k.long e he ht
      · rcases List.mem_cons.1 h3 with h3 | h3
        · exact absurd h3 (none1 e a _ h1 h2 (by decide))
        · exact k.allImplied e a es h1 h2 h3
      · rcases List.mem_cons.1 h3 with h3 | h3
        · exact absurd h3 (none2 e a h1 h2)
        · exact k.allFixed e a es h1 h2 h3
    · refine (found_roo (h := h) H hs (out := fun v => select arcs roles fun a r => a.src = v ∧ r = .base) fun v e => ?_).bind fun st F => ?_
      · simp only [mem_select, decide_eq_true_eq]
        constructor
        · rintro ⟨a, r, h1, h2, h3, rfl⟩
          exact ⟨(H.isBase e).2 ⟨a, h1, h2⟩, by simp [net, h1, Dir.tail, h3]⟩
        · rintro ⟨h1, h2⟩
          obtain ⟨a, q1, q2, q3, -⟩ := edge e h1
          exact ⟨a, _, q1, q2, q3 ▸ h2, rfl⟩
      · refine (redundant_roo H hs F from_ [] nodup fun e he => by obtain ⟨a, r, h1, h2, -, h3⟩ := (memF e).1 he; exact ⟨a, r, h1, h2, h3⟩).bind fun r hr => ?_
        refine (fixes_roo H hs F (o.removed ++ r) to fun e he => by obtain ⟨a, h1, -, h2⟩ := (memT e).1 he; exact ⟨a, h1, h2⟩).bind fun f hf => ?_
        have hrs : ∀ e ∈ r, ∀ a, arcs[e]? = some a → a.src = s := fun e he a ha => by
          obtain ⟨b, _, h1, -, h2, -⟩ := (memF e).1 (hr.from_ e he)
          rw [ha] at h1; cases h1; exact h2
        refine (sources_roo H ss ⟨o.removed ++ r, o.fix ++ f⟩ hn' (fun t ht => hlt t (by simp [ht])) fun e he a ha hm => ?_).mono fun o' k =>
          ⟨fun e he => ?_, fun e he => k.grows e (by simp [he]), fun p hp => k.fixGrows p (by simp [hp]), fun p hp => ?_, fun e he ht => ?_, fun e he ht es hc hlt' => ?_, fun e a es h1 h2 h3 h4 h5 => ?_, fun e a es h1 h2 h3 h4 h5 => ?_⟩
        · rcases List.mem_append.1 he with he | he
          · exact ho e he a ha (by simp [hm])
          · exact hs' (hrs e he a ha ▸ hm)
        · rcases k.removed e he with q | ⟨a, r, q1, q2, q3, q4, q5⟩
          · rcases List.mem_append.1 q with q | q
            · exact .inl q
            · obtain ⟨a, r', h1, h2, h3, h4⟩ := (memF e).1 (hr.from_ e q)
              obtain ⟨w, w1, w2⟩ := hr.implied e q a h1
              obtain ⟨es, c1, c2⟩ := F.dist.attained _ _ w1
              exact .inr ⟨a, r', h1, h2, h4, by simp [h3], es, by rw [h3]; exact c1, by omega⟩
          · exact .inr ⟨a, r, q1, q2, q3, by simp [q4], q5⟩
        · rcases k.fix p hp with q | q
          · rcases List.mem_append.1 q with q | q
            · exact .inl q
            · obtain ⟨a, h1, h2, -⟩ := (memT p.1).1 (hf.1 p q).1
              exact .inr ⟨h2, (hf.1 p q).2⟩
          · exact .inr q
        · obtain ⟨a, h1, h2, h3, h4, h5⟩ := edge e he
          rcases List.mem_cons.1 ht with ht | ht
          · refine ⟨_, by rw [ht]; exact F.dist, fun hD => ?_⟩
            rw [h4, h5] at hD
            rcases hr.kept e ((memF e).2 ⟨a, _, h1, h2, h3 ▸ ht, by decide⟩) a h1 h2 hD with q | ⟨g, g1, g2, g3, b, g4, g5, g6⟩
            · simp at q
            · have gs : b.src = s := by
                obtain ⟨b', _, z1, -, z2, -⟩ := (memF g).1 g1
                rw [g4] at z1; cases z1; exact z2
              refine ⟨g, (H.isBase g).2 ⟨b, g4, g3⟩, fun hg => ?_, by rw [ht]; simp [net, g4, Dir.tail, gs], by rw [h4]; simp [net, g4, Dir.head, g5], by rw [h5]; simp [net, g4, g6]⟩
              rcases k.removed g hg with q | ⟨b', _, q1, -, -, q4, -⟩
              · rcases List.mem_append.1 q with q | q
                · exact ho g q b g4 (by simp [gs])
                · exact g2 q
              · rw [g4] at q1; cases q1; exact hs' (gs ▸ q4)
          · exact k.kept e he ht
        · obtain ⟨a, h1, h2, h3, h4, h5⟩ := edge e he
          rcases List.mem_cons.1 ht with ht | ht
          · rw [ht] at hc
            obtain ⟨w, w1, w2⟩ := F.dist.least _ _ hc
            rw [h4] at w1
            exact k.grows e (List.mem_append.2 (.inr (hr.long e ((memF e).2 ⟨a, _, h1, h2, h3 ▸ ht, by decide⟩) a w h1 w1 (by omega))))
          · exact k.long e he ht es hc hlt'
        · rcases List.mem_cons.1 h3 with h3 | h3
          · rw [h3] at h4
            obtain ⟨w, w1, w2⟩ := F.dist.least _ _ h4
            exact k.grows e (List.mem_append.2 (.inr (hr.cand e ((memF e).2 ⟨a, _, h1, h2, h3, by decide⟩) a w h1 h2 w1 (by omega))))
          · exact k.allImplied e a es h1 h2 h3 h4 h5
        · rcases List.mem_cons.1 h3 with h3 | h3
          · rw [h3] at h4
            obtain ⟨w, w1, w2⟩ := F.dist.least _ _ h4
            by_cases hm : e ∈ o.removed ++ r
            · exact .inl (k.grows e hm)
            · obtain ⟨p, p1, p2⟩ := hf.2 e ((memT e).2 ⟨a, h1, h2, h3⟩) a w h1 hm w1 (by omega)
              exact .inr ⟨p, k.fixGrows p (List.mem_append.2 (.inr p1)), p2⟩
          · exact k.allFixed e a es h1 h2 h3 h4 h5

end

/-! ## In terms of values -/

theorem list_bound (f : Nat → Int) : ∀ l : List Nat, ∃ M, ∀ e ∈ l, f e ≤ M
  | [] => ⟨0, by simp⟩
  | e :: l => by
    obtain ⟨M, h⟩ := list_bound f l
    refine ⟨max M (f e), fun g hg => ?_⟩
    rcases List.mem_cons.1 hg with rfl | hg
    · omega
    · have := h g hg; omega

/-- Distances from `s` are values that satisfy every edge. Nodes that are not reached can be as low as one likes. -/
theorem Net.Dist.values {N : Net} {s : Nat} {D : Nat → Option Int} (hD : N.Dist s D) {h : Nat → Int} (hp : ∀ e ∈ N.act, h (N.head e) ≤ h (N.tail e) + N.wt e) (u : Nat) (M0 : Int) :
    ∃ x : Nat → Int, (∀ e ∈ N.act, x (N.tail e) - N.wt e ≤ x (N.head e)) ∧ x s = 0 ∧ (∀ v w, D v = some w → x v = - w) ∧ (D u = none → x u ≤ M0) := by
  obtain ⟨M, hM⟩ := list_bound (fun e => (D (N.head e)).getD 0 - h (N.tail e) - N.wt e) N.act
  let M' := max M (- M0 - h u)
  have h1 : M ≤ M' := by omega
  have h2 : - M0 - h u ≤ M' := by omega
  generalize M' = M' at h1 h2
  let x : Nat → Int := fun v => (D v).elim (- h v - M') (- ·)
  have xs : ∀ v w, D v = some w → x v = - w := fun v w hv => by simp [x, hv]
  have xn : ∀ v, D v = none → x v = - h v - M' := fun v hv => by simp [x, hv]
  refine ⟨x, fun e he => ?_, ?_, xs, fun hu => by rw [xn u hu]; omega⟩
  · cases ht : D (N.tail e) with
    | some w =>
      obtain ⟨es, c1, c2⟩ := hD.attained _ _ ht
      obtain ⟨w', d1, d2⟩ := hD.least (N.head e) (e :: es) ⟨he, rfl, c1⟩
      rw [Net.sum_cons] at d2
      rw [xs _ _ ht, xs _ _ d1]; omega
    | none =>
      have := hM e he
      cases hh : D (N.head e) with
      | some w' => rw [hh] at this; simp only [Option.getD_some] at this; rw [xn _ ht, xs _ _ hh]; omega
      | none => have := hp e he; rw [xn _ ht, xn _ hh]; omega
  · obtain ⟨w, w1, w2⟩ := hD.least s [] rfl
    obtain ⟨es, c1, c2⟩ := hD.attained _ _ w1
    have c3 := Net.Chain.sat (x := fun v => - h v) (fun e he => by have := hp e he; omega) c1
    have : N.sum [] = 0 := rfl
    rw [xs _ _ w1]
    omega

end Gcs.Difference
