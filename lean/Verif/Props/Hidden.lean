import Verif.Props.Stateful

/-!
# Problems with constraints that make variables of their own (C25, C26, C27, C28)

A constraint such as Table makes a variable that nobody branches on, and that may be left with several values in a solution. What a constraint is for does not mention such variables. Here what is known about
assignments to all variables is turned into what is wanted about assignments to the others.
-/

namespace Gcs
open IntervalSet Nogoods

section
variable {σ μ : Type} {n m : Nat} {R : Err → Prop}

/-- The assignments agree except for variables in `hid`. -/
abbrev AgreeOff (hid : Nat → Prop) (a b : Asg) : Prop := ∀ v, ¬ hid v → a v = b v

/-- What the constraint is for is `p`: it holds if and only if its own variables `hid` can be given values such that the constraint as implemented holds, which says nothing about the other variables in `all`. -/
structure Means (root : Doms) (hid all : Nat → Prop) (c : Posted σ μ) (p : Asg → Prop) : Prop where
  ignores : ∀ a b, AgreeOff (fun v => all v ∧ ¬ hid v) a b → (c.holds a ↔ c.holds b)
  iff : ∀ a, Within root a → (p a ↔ ∃ b, AgreeOff hid b a ∧ Within root b ∧ c.holds b)

/-- A constraint without variables of its own, saying nothing about those of others. -/
theorem Means.plain {root : Doms} {all : Nat → Prop} {c : Posted σ μ} (h : ∀ a b, AgreeOff all a b → (c.holds a ↔ c.holds b)) : Means root (fun _ => False) all c c.holds where
  ignores a b hab := h a b fun v hv => hab v fun hc => hv hc.1
  iff a ha := ⟨fun hc => ⟨a, fun _ _ => rfl, ha, hc⟩, fun ⟨b, h1, _, h3⟩ => (h b a fun v _ => h1 v id).1 h3⟩

/-- Constraint number `i` of the problem is for `means i`, and `hid i` are variables of its own, which are not branched on. -/
structure HiddenOK (root : Doms) (cs : List (Posted σ μ)) (hid : Nat → Nat → Prop) (means : Nat → Asg → Prop) (vars : List VarId) : Prop where
  means : ∀ (i : Nat) (c : Posted σ μ), cs[i]? = some c → Means root (hid i) (fun v => ∃ j, hid j v) c (means i)
  apart : ∀ i j v, hid i v → hid j v → i = j
  vars : ∀ x ∈ vars, ∀ v, x.underlyingIndex = some v → ∀ i, ¬ hid i v

variable {root : Doms} {cs : List (Posted σ μ)} {sts : List σ} {own hid : Nat → Nat → Prop} {means : Nat → Asg → Prop} {S : Setup σ μ} {V : SearchEnv σ μ} {vars : List VarId} {x : μ}

/-- Variables that are not hidden are those that count. -/
abbrev Seen (hid : Nat → Nat → Prop) (a b : Asg) : Prop := AgreeOff (fun v => ∃ j, hid j v) a b

/-- Values for the hidden variables can be put together. -/
theorem HiddenOK.extend (h : HiddenOK root cs hid means vars) {a : Asg} (ha : Within root a) :
    (∀ (i : Nat) (c : Posted σ μ), cs[i]? = some c → means i a) ↔ ∃ b, Seen hid b a ∧ Within root b ∧ ∀ c ∈ cs, c.holds b := by
  classical
  constructor
  · intro hm
    have hb : ∀ (i : Nat), ∃ b, AgreeOff (hid i) b a ∧ Within root b ∧ ∀ c, cs[i]? = some c → c.holds b := by
      intro i
      cases e : cs[i]? with
      | none => exact ⟨a, fun _ _ => rfl, ha, nofun⟩
      | some c =>
        obtain ⟨b, h1, h2, h3⟩ := ((h.means i c e).iff a ha).1 (hm i c e)
        exact ⟨b, h1, h2, fun c' hc' => by cases hc'; exact h3⟩
    let f : Nat → Asg := fun i => (hb i).choose
    have hf := fun i => (hb i).choose_spec
    let b : Asg := fun v => if hv : ∃ i, hid i v then f hv.choose v else a v
    have hbi : ∀ i v, hid i v → b v = f i v := by
      intro i v hv
      have hx : ∃ i, hid i v := ⟨i, hv⟩
      have : hx.choose = i := h.apart _ _ v hx.choose_spec hv
      simp only [b, dif_pos hx, this]
    have hba : ∀ v, (¬ ∃ i, hid i v) → b v = a v := fun v hv => by simp only [b, dif_neg hv]
    refine ⟨b, hba, fun v s hs => ?_, fun c hc => ?_⟩
    · by_cases hv : ∃ i, hid i v
      · obtain ⟨i, hi⟩ := hv
        rw [hbi i v hi]; exact (hf i).2.1 v s hs
      · rw [hba v hv]; exact ha v s hs
    · obtain ⟨i, hi⟩ := List.mem_iff_getElem?.1 hc
      refine ((h.means i c hi).ignores b (f i) fun v hv => ?_).2 ((hf i).2.2 c hi)
      by_cases hx : hid i v
      · exact hbi i v hx
      · have hn : ¬ ∃ j, hid j v := fun hj => hv ⟨hj, hx⟩
        rw [hba v hn]; exact ((hf i).1 v hx).symm
  · rintro ⟨b, h1, h2, h3⟩ i c hi
    refine ((h.means i c hi).iff a ha).2 ⟨fun v => if hid i v then b v else a v, fun v hv => by simp only [if_neg hv], fun v s hs => ?_, ?_⟩
    · by_cases hv : hid i v
      · simp only [if_pos hv]; exact h2 v s hs
      · simp only [if_neg hv]; exact ha v s hs
    · refine ((h.means i c hi).ignores _ b fun v hv => ?_).2 (h3 c (List.mem_of_getElem? hi))
      by_cases hx : hid i v
      · simp only [if_pos hx]
      · simp only [if_neg hx]
        exact (h1 v fun hj => hv ⟨hj, hx⟩).symm

/-- What is branched on is not hidden. -/
theorem HiddenOK.same (h : HiddenOK root cs hid means vars) {a b : Asg} (hab : Seen hid a b) {x : VarId} (hx : x ∈ vars) : x.eval a = x.eval b := by
  have key : ∀ v, x.underlyingIndex = some v → a v = b v := fun v hv => hab v fun ⟨i, hi⟩ => h.vars x hx v hv i hi
  cases x with
  | const c => rfl
  | simple i => exact key i rfl
  | view i ng k => simp only [VarId.eval]; rw [key i rfl]

section
variable {depthFuel fuel : Nat} {res : SearchResult} {has : Bool} {s' : Sys σ μ} {t : Tally}

/-- C25, C26: in terms of the variables that are not hidden, an assignment has what all constraints are for if and only if it is reported, exactly once. -/
theorem hidden_enumerates (hp : ProblemServed n m R root cs sts own S V vars) (hh : HiddenOK root cs hid means vars) (he : V.engine = S.engine) (hlearn : V.learn = none) (hd : root.card < depthFuel) (hf : 0 < fuel)
    (ho : V.minimise = none) (hr : solve V S depthFuel fuel none (Sys.start root sts x S.watches) = .ok ((res, has, s', t), true)) :
    ∀ a, Within root a → ((∀ (i : Nat) (c : Posted σ μ), cs[i]? = some c → means i a) ↔
      ∃ (i : Nat) (d : Doms), t.found[i]? = some d ∧ (∃ b, Within d b ∧ Seen hid b a) ∧ ∀ (j : Nat) (e : Doms), t.found[j]? = some e → (∃ b, Within e b ∧ Seen hid b a) → j = i) := by
  obtain ⟨h1, _, h3⟩ := stateful_enumerates hp he hlearn hd hf ho hr
  intro a ha
  rw [hh.extend ha]
  constructor
  · rintro ⟨b, k1, k2, k3⟩
    obtain ⟨i, d, hi, hdb, _⟩ := (h1 b).1 ⟨k3, k2⟩
    refine ⟨i, d, hi, ⟨b, hdb, k1⟩, ?_⟩
    rintro j e hj ⟨b', hb', k4⟩
    obtain ⟨hi1, hi2⟩ := List.getElem?_eq_some_iff.1 hi
    obtain ⟨hj1, hj2⟩ := List.getElem?_eq_some_iff.1 hj
    have hap := List.pairwise_iff_getElem.1 h3
    have hs : Seen hid b b' := fun v hv => (k1 v hv).trans (k4 v hv).symm
    rcases Nat.lt_trichotomy i j with hlt | heq | hlt
    · obtain ⟨x, hx, hne⟩ := hap i j hi1 hj1 hlt b b' (by rw [hi2]; exact hdb) (by rw [hj2]; exact hb')
      exact absurd (hh.same hs hx) hne
    · exact heq.symm
    · obtain ⟨x, hx, hne⟩ := hap j i hj1 hi1 hlt b' b (by rw [hj2]; exact hb') (by rw [hi2]; exact hdb)
      exact absurd (hh.same hs hx).symm hne
  · rintro ⟨i, d, hi, ⟨b, hdb, k1⟩, _⟩
    obtain ⟨k3, k2⟩ := (h1 b).2 (by
      refine ⟨i, d, hi, hdb, fun j e hj hb => ?_⟩
      obtain ⟨hi1, hi2⟩ := List.getElem?_eq_some_iff.1 hi
      obtain ⟨hj1, hj2⟩ := List.getElem?_eq_some_iff.1 hj
      have hap := List.pairwise_iff_getElem.1 h3
      rcases Nat.lt_trichotomy i j with hlt | heq | hlt
      · obtain ⟨x, _, hne⟩ := hap i j hi1 hj1 hlt b b (by rw [hi2]; exact hdb) (by rw [hj2]; exact hb)
        exact absurd rfl hne
      · exact heq.symm
      · obtain ⟨x, _, hne⟩ := hap j i hj1 hi1 hlt b b (by rw [hj2]; exact hb) (by rw [hi2]; exact hdb)
        exact absurd rfl hne)
    exact ⟨b, k1, k2, k3⟩

/-- C28: with an objective that is not hidden, the last solution reported has what all constraints are for and no assignment that does is better; or there is none and nothing is reported. -/
theorem hidden_optimises (hp : ProblemServed n m R root cs sts own S V vars) (hh : HiddenOK root cs hid means vars) (he : V.engine = S.engine) (hlearn : V.learn = none) (hd : root.card < depthFuel) (hf : 0 < fuel)
    {o : VarId} (ho : V.minimise = some o) (hr : solve V S depthFuel fuel none (Sys.start root sts x S.watches) = .ok ((res, has, s', t), true)) :
    (t.found = [] ∧ ∀ a, Within root a → ¬ ∀ (i : Nat) (c : Posted σ μ), cs[i]? = some c → means i a) ∨
    ∃ d v, t.found.getLast? = some d ∧ (∃ a, Within d a) ∧ (∀ a, Within d a → (∀ (i : Nat) (c : Posted σ μ), cs[i]? = some c → means i a) ∧ Within root a ∧ o.eval a = v) ∧
      ∀ b, (∀ (i : Nat) (c : Posted σ μ), cs[i]? = some c → means i b) → Within root b → v ≤ o.eval b := by
  have hobj : ∀ {a b}, Seen hid a b → o.eval a = o.eval b := by
    intro a b hab
    have key : ∀ v, o.underlyingIndex = some v → a v = b v := fun v hv => by
      obtain ⟨y, hy, e⟩ := (hp.objective o ho).2 v hv
      exact hab v fun ⟨i, hi⟩ => hh.vars y hy v e i hi
    cases o with
    | const c => rfl
    | simple i => exact key i rfl
    | view i ng k => simp only [VarId.eval]; rw [key i rfl]
  rcases stateful_optimises hp he hlearn hd hf ho hr with ⟨h1, h2⟩ | ⟨d, v, h1, h2, h3, h4⟩
  · refine .inl ⟨h1, fun a ha hm => ?_⟩
    obtain ⟨b, _, k2, k3⟩ := (hh.extend ha).1 hm
    exact h2 b k2 k3
  · refine .inr ⟨d, v, h1, h2, fun a ha => ?_, fun b hb hw => ?_⟩
    · obtain ⟨k1, k2, k3⟩ := h3 a ha
      exact ⟨(hh.extend k2).2 ⟨a, fun _ _ => rfl, k2, k1⟩, k2, k3⟩
    · obtain ⟨b', k1, k2, k3⟩ := (hh.extend hw).1 hb
      rw [← hobj k1]
      exact h4 b' k3 k2

variable {cell : Cell μ NogoodMem} {tr : Triggers} {k : Nat} {sched : Option Restarts} {done : Bool}

/-- C27, scanning: the same with restarts. No two solutions reported agree on all variables that are not hidden, also if the search is stopped. -/
theorem hidden_restarts (hp : ProblemServed n m R root cs sts own S V vars) (hh : HiddenOK root cs hid means vars) (hf : (scan (σ := σ) cell).Safe n m R) (ht : tr.refined = []) (hv : ∀ x ∈ vars, x ∈ tr.onChange)
    (he : V.engine = S.engine.install k (scan cell) tr) (hlearn : V.learn = some fun g x => cell.set ((cell.get x).add g) x) (hst : (cell.get x).store = [])
    (hen : Enough V (Sys.start root sts x S.watches) depthFuel fuel sched)
    (ho : V.minimise = none) (hr : solve V S depthFuel fuel sched (Sys.start root sts x S.watches) = .ok ((res, has, s', t), done)) :
    t.found.Pairwise (fun d e => ∀ a b, Within d a → Within e b → ¬ Seen hid a b) ∧
    (∀ d ∈ t.found, (∃ a, Within d a) ∧ ∀ a, Within d a → (∀ (i : Nat) (c : Posted σ μ), cs[i]? = some c → means i a) ∧ Within root a) ∧
    (done = true → ∀ a, (∀ (i : Nat) (c : Posted σ μ), cs[i]? = some c → means i a) → Within root a → ∃ d ∈ t.found, ∃ b, Within d b ∧ Seen hid b a) := by
  obtain ⟨h1, h2, h3⟩ := stateful_restarts hp hf ht hv he hlearn hst hen ho hr
  refine ⟨h1.imp fun {d e} h a b ha hb hs => ?_, fun d hd => ⟨(h2 d hd).1, fun a ha => ?_⟩, fun hdn a hm ha => ?_⟩
  · obtain ⟨x, hx, hne⟩ := h a b ha hb
    exact hne (hh.same hs hx)
  · obtain ⟨k1, k2⟩ := (h2 d hd).2 a ha
    exact ⟨(hh.extend k2).2 ⟨a, fun _ _ => rfl, k2, k1⟩, k2⟩
  · obtain ⟨b, k1, k2, k3⟩ := (hh.extend ha).1 hm
    obtain ⟨d, hd, hdb⟩ := h3 hdn b k3 k2
    exact ⟨d, hd, b, hdb, k1⟩

end
end
end Gcs
