import Verif.Lemmas.Cons.Quiet
import Verif.Model.Cons.MinMax

/-!
# Smallest and largest of several variables
-/

namespace Gcs
open IntervalSet

/-- Not about the same variable. -/
def Apart (v w : VarId) : Prop := ∀ i, v.underlyingIndex = some i → w.underlyingIndex ≠ some i

theorem eval_upd {w : VarId} {i : Nat} (h : w.underlyingIndex ≠ some i) (a : Asg) (x : Int) : w.eval (fun j => if j = i then x else a j) = w.eval a := by
  cases w with
  | simple j => simp only [VarId.eval]; rw [if_neg]; rintro rfl; exact h rfl
  | view j b k =>
    have : ¬ j = i := by rintro rfl; exact h rfl
    simp only [VarId.eval, if_neg this]
  | const c => rfl

/-- Narrowing one variable does not affect another. -/
theorem poss_apart {d d' : Doms} {P : Int → Prop} {v w : VarId} (hd' : DomsOK d') (h : ∀ b, Within d' b ↔ Within d b ∧ P (w.eval b)) (hv : Apart v w) {y : Int} (hy : Poss d v y) : Poss d' v y := by
  obtain ⟨b, hb, e⟩ := hy
  obtain ⟨c, hc⟩ := exists_within hd'
  have hc' := (h c).1 hc
  cases hi : v.underlyingIndex with
  | none =>
    refine ⟨c, hc, ?_⟩
    cases v with
    | const k => exact e
    | simple j => cases hi
    | view j b k => cases hi
  | some i =>
    refine ⟨fun j => if j = i then b i else c j, (h _).2 ⟨fun j s hs => ?_, ?_⟩, ?_⟩
    · dsimp only
      split
      · rename_i e; subst e; exact hb j s hs
      · exact hc'.1 j s hs
    · rw [eval_upd (hv i hi)]; exact hc'.2
    · rw [← e]
      cases v with
      | const k => cases hi
      | simple j => cases hi; simp [VarId.eval]
      | view j b k => cases hi; simp [VarId.eval]

namespace MinMax

section
variable {d : Doms} {result : VarId} {mn : Bool}

/-- `x` is on the right side of `y`. -/
abbrev Side (mn : Bool) (x y : Int) : Prop := if mn = true then x ≤ y else y ≤ x

/-- The result is the smallest, or largest. -/
def Extreme (mn : Bool) (vars : List VarId) (result : VarId) (a : Asg) : Prop := (∃ v ∈ vars, v.eval a = result.eval a) ∧ ∀ v ∈ vars, Side mn (result.eval a) (v.eval a)

theorem supports_roo (hd : DomsOK d) (hr : result.Valid d.length) {v : VarId} (hv : v.Valid d.length) : RightOrOverflow (supports d result v) (fun b => b = true ↔ ∃ y, Poss d result y ∧ Poss d v y) :=
  (listed_roo hd hr).bind fun _ hg => anyOfGen_roo hg fun x hx _ => inDomain_spec hd hv x hx

theorem findSecond_roo (hd : DomsOK d) (hr : result.Valid d.length) (z : VarId) : ∀ (xs : List VarId), (∀ v ∈ xs, v.Valid d.length) → RightOrOverflow (findSupports d result (some z) xs) (fun r =>
    r.1 = some z ∧ (r.2 = none → ∀ x ∈ xs, ¬ ∃ y, Poss d result y ∧ Poss d x y))
  | [], _ => .inr ⟨_, rfl, rfl, by simp⟩
  | x :: xs, h => by
    refine (supports_roo hd hr (h x (by simp))).bind fun b hb => ?_
    cases b with
    | true => exact .pure ⟨rfl, fun h => (nomatch h)⟩
    | false =>
      refine (findSecond_roo hd hr z xs fun v hv => h v (List.mem_cons_of_mem _ hv)).mono fun r hr => ⟨hr.1, fun e y hy hs => ?_⟩
      rcases List.mem_cons.1 hy with rfl | hy
      · have := hb.2 hs; cases this
      · exact hr.2 e y hy hs

theorem findSupports_roo (hd : DomsOK d) (hr : result.Valid d.length) : ∀ (xs : List VarId), (∀ v ∈ xs, v.Valid d.length) → RightOrOverflow (findSupports d result none xs) (fun r =>
    (r.1 = none → ∀ x ∈ xs, ¬ ∃ y, Poss d result y ∧ Poss d x y) ∧ ∀ z, r.1 = some z → z ∈ xs ∧ (r.2 = none → ∀ x ∈ xs, (∃ y, Poss d result y ∧ Poss d x y) → x = z))
  | [], _ => .inr ⟨_, rfl, by simp, fun _ h => nomatch h⟩
  | x :: xs, h => by
    have h' : ∀ v ∈ xs, v.Valid d.length := fun v hv => h v (List.mem_cons_of_mem _ hv)
    refine (supports_roo hd hr (h x (by simp))).bind fun b hb => ?_
    cases b with
    | true =>
      refine (findSecond_roo hd hr x xs h').mono fun r hr => ⟨fun e => (by rw [hr.1] at e; cases e), fun z hz => ?_⟩
      rw [hr.1] at hz; cases hz
      refine ⟨by simp, fun e y hy hs => ?_⟩
      rcases List.mem_cons.1 hy with rfl | hy
      · rfl
      · exact absurd hs (hr.2 e y hy)
    | false =>
      refine (findSupports_roo hd hr xs h').mono fun r hr => ⟨fun e y hy hs => ?_, fun z hz => ⟨List.mem_cons_of_mem _ (hr.2 z hz).1, fun e y hy hs => ?_⟩⟩
      · rcases List.mem_cons.1 hy with rfl | hy
        · have := hb.2 hs; cases this
        · exact hr.1 e y hy hs
      · rcases List.mem_cons.1 hy with rfl | hy
        · have := hb.2 hs; cases this
        · exact (hr.2 z hz).2 e y hy hs

theorem beyond_tighter {acc : Option Int} {x r : Int} : beyond mn (tighter mn acc x) r = false ↔ beyond mn acc r = false ∧ Side mn r x := by
  cases acc <;> cases mn <;> simp [beyond, tighter, Side] <;> omega

/-- A value on the right side of all the values of the others is within the limit. -/
theorem limit_roo (hd : DomsOK d) {a : Asg} (ha : Within d a) (r : Int) : ∀ (xs : List VarId) (acc : Option Int), (∀ v ∈ xs, v.Valid d.length) → RightOrOverflow (limit d mn acc xs) (fun lim =>
    beyond mn acc r = false → (∀ v ∈ xs, Side mn r (v.eval a)) → beyond mn lim r = false)
  | [], acc, _ => .inr ⟨_, rfl, fun h _ => h⟩
  | x :: xs, acc, h => by
    refine (bounds_roo hd (h x (by simp))).bind fun b hb => ?_
    refine (limit_roo hd ha r xs _ fun v hv => h v (List.mem_cons_of_mem _ hv)).mono fun lim hl h1 h2 => hl (beyond_tighter.2 ⟨h1, ?_⟩) fun v hv => h2 v (List.mem_cons_of_mem _ hv)
    have := h2 x (by simp)
    have := hb.1.2.le ha
    have := hb.2.2.ge ha
    cases mn <;> simp_all [Side] <;> omega

/-- What is found is at least as extreme as any value of the result that is within the limit and possible for another variable. -/
theorem extreme_roo (hd : DomsOK d) {others : List VarId} (ho : ∀ v ∈ others, v.Valid d.length) (lim : Option Int) : ∀ (rs : List Int) (acc : Option Int), (∀ r ∈ rs, InI64 r) →
    RightOrOverflow (extreme d mn others lim acc rs) (fun out => (∀ o, acc = some o → ∃ o', out = some o' ∧ Side mn o' o) ∧
      ∀ r ∈ rs, beyond mn lim r = false → (∃ v ∈ others, Poss d v r) → ∃ o', out = some o' ∧ Side mn o' r)
  | [], acc, _ => .inr ⟨_, rfl, fun o h => ⟨o, h, by cases mn <;> simp [Side]⟩, by simp⟩
  | r :: rs, acc, h => by
    have h' : ∀ r ∈ rs, InI64 r := fun x hx => h x (List.mem_cons_of_mem _ hx)
    unfold extreme
    cases hb : beyond mn lim r with
    | true =>
      refine (extreme_roo hd ho lim rs acc h').mono fun out hq => ⟨hq.1, fun x hx h1 h2 => ?_⟩
      rcases List.mem_cons.1 hx with rfl | hx
      · rw [hb] at h1; cases h1
      · exact hq.2 x hx h1 h2
    | false =>
      refine (anyOf_roo (P := fun v => Poss d v r) others fun v hv => inDomain_spec hd (ho v hv) r (h r (by simp))).bind fun b hb => ?_
      cases b with
      | true =>
        have tr : ∀ x y z : Int, Side mn x y → Side mn y z → Side mn x z := by intro x y z; cases mn <;> simp [Side] <;> omega
        have t1 : ∃ o, tighter mn acc r = some o ∧ Side mn o r ∧ ∀ o', acc = some o' → Side mn o o' := by
          cases acc <;> cases mn <;> simp [tighter, Side] <;> omega
        obtain ⟨o, e, e1, e2⟩ := t1
        refine (extreme_roo hd ho lim rs (tighter mn acc r) h').mono fun out hq => ⟨fun o' ho' => ?_, fun x hx h1 h2 => ?_⟩
        · obtain ⟨w, hw, hs⟩ := hq.1 o e
          exact ⟨w, hw, tr _ _ _ hs (e2 o' ho')⟩
        · rcases List.mem_cons.1 hx with rfl | hx
          · obtain ⟨w, hw, hs⟩ := hq.1 o e
            exact ⟨w, hw, tr _ _ _ hs e1⟩
          · exact hq.2 x hx h1 h2
      | false =>
        refine (extreme_roo hd ho lim rs acc h').mono fun out hq => ⟨hq.1, fun x hx h1 h2 => ?_⟩
        rcases List.mem_cons.1 hx with rfl | hx
        · have := hb.2 h2; cases this
        · exact hq.2 x hx h1 h2

theorem extremeGen_roo (hd : DomsOK d) {others : List VarId} (ho : ∀ v ∈ others, v.Valid d.length) (lim : Option Int) {g : Gen Int} {P : Int → Prop} (hg : Lists P g) :
    RightOrOverflow (extremeGen d mn others lim g) (fun out => ∀ r, P r → beyond mn lim r = false → (∃ v ∈ others, Poss d v r) → ∃ o', out = some o' ∧ Side mn o' r) := by
  refine (extreme_roo hd ho lim g.1 none fun r hr => (hg.1 r hr).1).bind fun out hq => ?_
  cases e : g.2 with
  | some e' => rw [hg.2.2 e' e]; exact .inl rfl
  | none => exact .pure fun r hr => hq.2 r (hg.2.1 e r hr)

end

section
variable {σ μ : Type} {n m : Nat} {R : Err → Prop} {root d d0 : Doms} {mn : Bool} {vars : List VarId} {result : VarId} {J : Job}

theorem pushResult_ver (ho : J.R .overflow) (hd : DomsOK d) (hl : d.length = J.n) (hr : result.Valid J.n) {v : VarId} (hv : v.Valid J.n) (hc : ∀ a, J.C a → Side mn (result.eval a) (v.eval a)) :
    (pushResult mn result v : Prog σ μ Unit).Ver J (fun _ => False) (fun _ d' => (∀ a, Within d' a → Within d a) ∧ (Known d v → ∀ a, Within d' a → Side mn (result.eval a) (v.eval a))) d := by
  refine ver_ask (f := (bounds · v)) ho (bounds_roo hd (hl ▸ hv)) fun b hb => ?_
  cases mn with
  | true =>
    simp only [Side, if_true] at *
    refine ver_lift ho (add_roo hb.2.1 (by decide)) fun w hw => ver_tell_last (.lt hr hw.2) (fun a ha hC => ?_) fun d' _ _ h3 => ⟨fun a ha => ((h3 a).1 ha).1, fun hk a ha => ?_⟩
    · rw [Lit.holds_lt]; have := hb.2.2.ge ha; have := hc a hC; omega
    · have h := (h3 a).1 ha
      have := hb.2.2.eq hk h.1
      have := h.2
      rw [Lit.holds_lt] at this; omega
  | false =>
    simp only [Side, Bool.false_eq_true, if_false] at *
    refine ver_tell_last (.ge hr hb.1.1) (fun a ha hC => ?_) fun d' _ _ h3 => ⟨fun a ha => ((h3 a).1 ha).1, fun hk a ha => ?_⟩
    · rw [Lit.holds_ge]; have := hb.1.2.le ha; have := hc a hC; omega
    · have h := (h3 a).1 ha
      have := hb.1.2.eq hk h.1
      have := h.2
      rw [Lit.holds_ge] at this; omega

theorem pushVar_ver (ho : J.R .overflow) (hd : DomsOK d) (hl : d.length = J.n) (hr : result.Valid J.n) {v : VarId} (hv : v.Valid J.n) (hc : ∀ a, J.C a → Side mn (result.eval a) (v.eval a)) {low : Int}
    (hi : InI64 low) (hlow : ∀ a, Within d a → low ≤ result.eval a) : (pushVar mn result low v : Prog σ μ Unit).Ver J (fun _ => False) (fun _ d' => ∀ a, Within d' a → Within d a) d := by
  unfold pushVar
  cases mn with
  | true =>
    simp only [Side, if_true] at *
    refine ver_tell_last (.ge hv hi) (fun a ha hC => ?_) fun d' _ _ h3 a ha => ((h3 a).1 ha).1
    rw [Lit.holds_ge]; have := hlow a ha; have := hc a hC; omega
  | false =>
    simp only [Side, Bool.false_eq_true, if_false] at *
    refine ver_ask (f := (upperBound · result)) ho (upper_roo hd (hl ▸ hr)) fun u hu => ?_
    refine ver_lift ho (add_roo hu.1 (by decide)) fun w hw => ver_tell_last (.lt hv hw.2) (fun a ha hC => ?_) fun d' _ _ h3 a ha => ((h3 a).1 ha).1
    rw [Lit.holds_lt]; have := hu.2.ge ha; have := hc a hC; omega

/-- What the loop over the values of the result leaves: every value is one that a variable had at the start of the loop, and has now if the variables are not about that of the result. -/
theorem pruneResult_ver (ho : J.R .overflow) (hd : DomsOK d) (hl : d.length = J.n) (hr : result.Valid J.n) (hv : ∀ v ∈ vars, v.Valid J.n) (hc : ∀ a, J.C a → ∃ v ∈ vars, v.eval a = result.eval a) {g : Gen Int}
    (hg : Lists (Poss d result) g) : (Prog.forGen (pruneResult vars result) g : Prog σ μ Unit).Ver J (fun _ => False) (fun _ d' => (∀ a, Within d' a → ∃ v ∈ vars, Poss d v (result.eval a)) ∧
      ((∀ v ∈ vars, v = result ∨ Apart v result) → ∀ y, Poss d' result y → ∃ v ∈ vars, Poss d' v y)) d := by
  refine ver_mono (fun _ d' hq => ?_) _ _ (ver_gen (J := J) (fun ys d' => (∀ y ∈ ys, y ∈ g.1) ∧ (∀ a, Within d' a → Within d a) ∧ (g.2 = none → ∀ a, Within d' a → result.eval a ∈ ys ∨ ∃ v ∈ vars, Poss d v (result.eval a)) ∧
    (g.2 = none → (∀ v ∈ vars, v = result ∨ Apart v result) → ∀ y, Poss d' result y → y ∈ ys ∨ ∃ v ∈ vars, Poss d' v y)) hd hl (fun e he => hg.2.2 e he ▸ ho) ?_
    ⟨fun _ h => h, fun _ h => h, fun e a ha => .inl (hg.2.1 e _ (ha.poss result)), fun e _ y hy => .inl (hg.2.1 e y hy)⟩)
  · exact ⟨fun a ha => (hq.1.2.2.1 hq.2 a ha).resolve_left (by simp), fun h y hy => (hq.1.2.2.2 hq.2 h y hy).resolve_left (by simp)⟩
  · rintro y ys d1 hd1 hl1 ⟨i1, i2, i3, i4⟩
    have hy := hg.1 y (i1 y (by simp))
    refine ver_ask (f := fun d => anyOf (inDomain d · y) vars) ho (anyOf_roo (P := fun v => Poss d1 v y) vars fun v hv' => inDomain_spec hd1 (hl1 ▸ hv v hv') y hy.1) fun b hb => ?_
    cases b with
    | true =>
      obtain ⟨v, h1, h2⟩ := hb.1 rfl
      refine ⟨fun z hz => i1 z (List.mem_cons_of_mem _ hz), i2, fun e a ha => ?_, fun e hh z hz => ?_⟩
      · rcases i3 e a ha with h | h
        · rcases List.mem_cons.1 h with h | h
          · obtain ⟨b, hb, e⟩ := h2
            exact .inr ⟨v, h1, h ▸ ⟨b, i2 b hb, e⟩⟩
          · exact .inl h
        · exact .inr h
      · rcases i4 e hh z hz with h | h
        · rcases List.mem_cons.1 h with rfl | h
          · exact .inr ⟨v, h1, h2⟩
          · exact .inl h
        · exact .inr h
    | false =>
      have no : ¬ ∃ v ∈ vars, Poss d1 v y := fun h => by have := hb.2 h; cases this
      refine ver_tell_last (.ne hr hy.1) (fun a ha hC => ?_) fun d2 hd2 _ h3 => ⟨fun z hz => i1 z (List.mem_cons_of_mem _ hz), fun a ha => i2 a ((h3 a).1 ha).1, fun e a ha => ?_, fun e hh z hz => ?_⟩
      · rintro (e : result.eval a = y)
        obtain ⟨v, h1, h2⟩ := hc a hC
        exact no ⟨v, h1, a, ha, h2.trans e⟩
      · have h := (h3 a).1 ha
        rcases i3 e a h.1 with h' | h'
        · rcases List.mem_cons.1 h' with h' | h'
          · exact absurd h' h.2
          · exact .inl h'
        · exact .inr h'
      · obtain ⟨b, hb, e'⟩ := hz
        have h := (h3 b).1 hb
        have hne : z ≠ y := e' ▸ h.2
        rcases i4 e hh z ⟨b, h.1, e'⟩ with h' | ⟨v, hv', hp⟩
        · exact .inl ((List.mem_cons.1 h').resolve_left hne)
        · refine .inr ⟨v, hv', ?_⟩
          rcases hh v hv' with rfl | hap
          · exact ⟨b, hb, e'⟩
          · exact poss_apart (P := (· ≠ y)) hd2 h3 hap hp

theorem onlySupport_ver (ho : J.R .overflow) (hd : DomsOK d) (hl : d.length = J.n) (hr : result.Valid J.n) (hv : ∀ v ∈ vars, v.Valid J.n) (hc : ∀ a, J.C a → ∃ v ∈ vars, v.eval a = result.eval a)
    (hu : J.R .unexpected ∨ ∀ y, Poss d result y → ∃ v ∈ vars, Poss d v y) : (onlySupport vars result : Prog σ μ Unit).Ver J (fun _ => False) (fun _ _ => True) d := by
  refine ver_ask (f := (findSupports · result none vars)) ho (findSupports_roo hd (hl ▸ hr) vars fun v h => hl ▸ hv v h) fun r hr' => ?_
  obtain ⟨r1, r2⟩ := r
  cases r1 with
  | none =>
    rcases hu with hu | hu
    · exact hu
    · exfalso
      obtain ⟨a, ha⟩ := exists_within hd
      obtain ⟨v, h1, h2⟩ := hu _ (ha.poss result)
      exact hr'.1 rfl v h1 ⟨_, ha.poss result, h2⟩
  | some z =>
    cases r2 with
    | some _ => exact trivial
    | none =>
      obtain ⟨hz, honly⟩ := hr'.2 z rfl
      refine ver_ask (f := (copyOfValues · z)) ho (copyOfValues_spec hd (hl ▸ hv z hz)).drop fun s hs => ?_
      refine ver_ask (f := (copyOfValues · result)) ho (copyOfValues_spec hd (hl ▸ hr)).drop fun t ht => ?_
      refine Equals.ver_prune (w := result) ho hd hl (hv z hz) ⟨hs.1, hs.2.1⟩ ⟨ht.1, ht.2.1⟩ fun a ha hC => ⟨?_, (ht.2.2 _).2 (ha.poss result)⟩
      obtain ⟨v, h1, h2⟩ := hc a hC
      rw [← honly rfl v h1 ⟨_, ha.poss result, a, ha, h2⟩]; exact h2

theorem gac_ver (ho : J.R .overflow) (hd : DomsOK d) (hl : d.length = J.n) (hr : result.Valid J.n) (hv : ∀ v ∈ vars, v.Valid J.n) (hc : ∀ a, J.C a → Extreme mn vars result a) {i : Nat × VarId}
    (hi : vars[i.1]? = some i.2) : (gac mn vars result i : Prog σ μ Unit).Ver J (fun _ => False) (fun _ _ => True) d := by
  have hoth : ∀ v ∈ vars.eraseIdx i.1, v ∈ vars := fun v h => List.mem_of_mem_eraseIdx h
  have hin : ∀ v ∈ vars, v = i.2 ∨ v ∈ vars.eraseIdx i.1 := by
    intro v h
    obtain ⟨j, hj, e⟩ := List.mem_iff_getElem.1 h
    by_cases hji : j = i.1
    · left; rw [← hji, List.getElem?_eq_getElem hj, e] at hi; exact Option.some.inj hi
    · right; rw [List.mem_eraseIdx_iff_getElem]; exact ⟨j, hj, hji, e⟩
  have hmem : i.2 ∈ vars := List.mem_of_getElem? hi
  have hov : ∀ v ∈ vars.eraseIdx i.1, v.Valid d.length := fun v h => hl ▸ hv v (hoth v h)
  have hlim : RightOrOverflow (limit d mn none (vars.eraseIdx i.1)) (fun lim => ∀ a, Within d a → ∀ r, (∀ v ∈ vars.eraseIdx i.1, Side mn r (v.eval a)) → beyond mn lim r = false) := by
    obtain ⟨a0, ha0⟩ := exists_within hd
    rcases limit_roo (mn := mn) hd ha0 0 _ none hov with h | ⟨lim, h, _⟩
    · exact .inl h
    · exact .inr ⟨lim, h, fun a ha r hs => (limit_roo (mn := mn) hd ha r _ none hov).value h rfl hs⟩
  refine ver_ask (f := (limit · mn none (vars.eraseIdx i.1))) ho hlim fun lim hlim => ?_
  refine ver_ask (f := fun d => do extremeGen d mn (vars.eraseIdx i.1) lim (← eachValue d result)) ho ((listed_roo hd (hl ▸ hr)).bind fun g hg => extremeGen_roo hd hov lim hg) fun other hother => ?_
  refine ver_ask (f := (eachValue · i.2)) ho (listed_roo hd (hl ▸ hv _ hmem)) fun g hg => ?_
  refine ver_mono (fun _ _ _ => trivial) _ _ (ver_gen (J := J) (fun ys d' => (∀ y ∈ ys, y ∈ g.1) ∧ ∀ a, Within d' a → Within d a) hd hl (fun e he => hg.2.2 e he ▸ ho) ?_ ⟨fun _ h => h, fun _ h => h⟩)
  rintro y ys d1 hd1 hl1 ⟨i1, i2⟩
  have hy := hg.1 y (i1 y (by simp))
  refine ver_ask (f := fun d => do return (← inDomain d result y) && !(beyond mn lim y)) ho ((inDomain_spec hd1 (hl1 ▸ hr) y hy.1).bind (Q := fun b => b = true ↔ Poss d1 result y ∧ beyond mn lim y = false) fun b hb => .pure ?_) fun b hb => ?_
  · rw [← hb]; cases b <;> simp
  refine ver_onlyIf (fun hno => ver_tell_last (.ne (hv _ hmem) hy.1) (fun a ha hC => ?_) fun d2 _ _ h3 => ⟨fun z hz => i1 z (List.mem_cons_of_mem _ hz), fun a ha => i2 a ((h3 a).1 ha).1⟩)
    fun _ => ⟨fun z hz => i1 z (List.mem_cons_of_mem _ hz), i2⟩
  rintro (e : i.2.eval a = y)
  obtain ⟨⟨v, hv', ev⟩, hall⟩ := hc a hC
  have had := i2 a ha
  have hside := hall i.2 hmem
  by_cases heq : result.eval a = y
  · have : b = true := hb.2 ⟨⟨a, ha, heq⟩, hlim a had y fun v h => heq ▸ hall v (hoth v h)⟩
    rw [this] at hno; exact absurd hno.1 (by simp)
  · have hvo : v ∈ vars.eraseIdx i.1 := (hin v hv').resolve_left (by rintro rfl; exact heq (ev ▸ e))
    obtain ⟨o, ho', hs⟩ := hother (result.eval a) (had.poss result) (hlim a had _ fun v h => hall v (hoth v h)) ⟨v, hvo, a, had, ev⟩
    have := hno.2
    subst ho'
    rw [e] at hside
    cases mn <;> simp_all [Side] <;> omega

theorem prop_enforces (ho : R .overflow) (hr : result.Valid n) (hv : ∀ v ∈ vars, v.Valid n) (hu : R .unexpected ∨ ∀ v ∈ vars, v = result ∨ Apart v result) :
    Enforces n m R root (Extreme mn vars result) (result :: vars) (prop (σ := σ) (μ := μ) mn vars result) := by
  intro d hd hl
  subst hl
  refine ver_seq (S := fun _ => False) hd rfl (fun _ h => h) (ver_forEach (J := { n := d.length, m, R, C := fun a => Within root a ∧ Extreme mn vars result a })
    (fun xs d' => (∀ x ∈ xs, x ∈ vars) ∧ (∀ a, Within d' a → Within d a) ∧ ((∀ x ∈ result :: vars, Known d x) → ∀ a, Within d' a → ∀ v ∈ vars, v ∈ xs ∨ Side mn (result.eval a) (v.eval a))) ?_ vars d hd rfl
    ⟨fun _ h => h, fun _ h => h, fun _ _ _ v h => .inl h⟩) fun _ d1 hd1 hl1 sub1 h1 => ?_
  · rintro x xs d1 hd1 hl1 ⟨i1, i2, i3⟩
    refine ver_mono (fun _ d' hq => ⟨fun y hy => i1 y (List.mem_cons_of_mem _ hy), fun a ha => i2 a (hq.1 a ha), fun hk a ha v hv' => ?_⟩) _ _
      (pushResult_ver ho hd1 hl1 hr (hv x (i1 x (by simp))) fun a hC => hC.2.2 x (i1 x (by simp)))
    rcases i3 hk a (hq.1 a ha) v hv' with h | h
    · rcases List.mem_cons.1 h with rfl | h
      · exact .inr (hq.2 ((hk v (List.mem_cons_of_mem _ hv')).sub i2) a ha)
      · exact .inl h
    · exact .inr h
  refine ver_ask (f := (bounds · result)) ho (bounds_roo hd1 (hl1 ▸ hr)) fun b hb => ?_
  refine ver_seq (S := fun _ => False) hd1 hl1 (fun _ h => h) (ver_forEach (J := { n := d.length, m, R, C := fun a => Within root a ∧ Extreme mn vars result a })
    (fun xs d' => (∀ x ∈ xs, x ∈ vars) ∧ ∀ a, Within d' a → Within d1 a) ?_ vars d1 hd1 hl1 ⟨fun _ h => h, fun _ h => h⟩) fun _ d2 hd2 hl2 sub2 _ => ?_
  · rintro x xs d2 hd2 hl2 ⟨i1, i2⟩
    exact ver_mono (fun _ d' hq => ⟨fun y hy => i1 y (List.mem_cons_of_mem _ hy), fun a ha => i2 a (hq a ha)⟩) _ _
      (pushVar_ver ho hd2 hl2 hr (hv x (i1 x (by simp))) (fun a hC => hC.2.2 x (i1 x (by simp))) hb.1.1 fun a ha => hb.1.2.le (i2 a ha))
  refine ver_ask (f := (eachValue · result)) ho (listed_roo hd2 (hl2 ▸ hr)) fun g hg => ?_
  refine ver_seq (S := fun _ => False) hd2 hl2 (fun _ h => h) (pruneResult_ver ho hd2 hl2 hr hv (fun a hC => hC.2.1) hg) fun _ d3 hd3 hl3 sub3 h3 => ?_
  refine ver_seq (S := fun _ => False) hd3 hl3 (fun _ h => h) (onlySupport_ver ho hd3 hl3 hr hv (fun a hC => hC.2.1) (hu.imp_right h3.2)) fun _ d4 hd4 hl4 sub4 _ => ?_
  refine ver_seq (S := fun _ => False) hd4 hl4 (fun _ h => h) (ver_forEach (J := { n := d.length, m, R, C := fun a => Within root a ∧ Extreme mn vars result a })
    (fun xs _ => ∀ x ∈ xs, vars[x.1]? = some x.2) (fun x xs d5 hd5 hl5 hi => ver_mono (fun _ _ _ y hy => hi y (List.mem_cons_of_mem _ hy)) _ _ (gac_ver ho hd5 hl5 hr hv (fun a hC => hC.2) (hi x (by simp)))) _ d4 hd4 hl4
    fun x hx => ?_) fun _ d5 _ _ sub5 _ => ?_
  · obtain ⟨j, hj, e⟩ := List.mem_iff_getElem.1 hx
    rw [List.getElem_zip, List.getElem_range] at e
    subst e
    exact List.getElem?_eq_getElem _
  refine .intro (fun hk a ha _ => ?_) (fun h => nomatch h) fun h => nomatch h
  have ha3 := sub4 a (sub5 a ha)
  have ha2 := sub3 a ha3
  have ha1 := sub2 a ha2
  refine ⟨?_, fun v hv' => (h1.2.2 hk a ha1 v hv').resolve_left (by simp)⟩
  obtain ⟨v, hv', hp⟩ := h3.1 a ha3
  exact ⟨v, hv', ((hk v (List.mem_cons_of_mem _ hv')).sub sub1 |>.sub sub2).poss ha2 hp⟩

theorem install_right (ho : R .overflow) (hr : result.Valid n) (hv : ∀ v ∈ vars, v.Valid n) (hu : R .unexpected ∨ ∀ v ∈ vars, v = result ∨ Apart v result) :
    (Posted.mk (install (σ := σ) (μ := μ) mn vars result) (Extreme mn vars result) (result :: vars)).Right n m R root (fun e => e = .invalidProblem ∧ vars = []) := by
  refine ⟨fun items e => ?_, fun e he => ?_⟩
  · replace e : install mn vars result root = _ := e
    unfold install at e
    split at e
    · cases e
    · cases e
      exact Posts.one ⟨_, fun y hy => hy, (prop_enforces ho hr hv hu).implements (fun _ _ => Iff.rfl) (wakes_mem fun _ hx => .inl hx) rfl⟩
  · replace he : install mn vars result root = _ := he
    unfold install at he
    split at he
    · cases he; exact ⟨rfl, ‹_›⟩
    · cases he

end
end MinMax
end Gcs
