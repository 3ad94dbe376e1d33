import Verif.Lemmas.Cons.Difference

/-!
# Static bounds, conditions, and the whole propagator
-/

namespace Gcs.Difference

section
variable {σ μ α β : Type} {J : Job} {nodes : List Nat} {d : Doms}

/-- The condition holds whatever happens. -/
def Sure (d : Doms) (cond : Option Cond) : Prop := ∀ a, Within d a → On cond a

theorem sure_sub {d' : Doms} {cond : Option Cond} (h : Sure d cond) (hs : ∀ a, Within d' a → Within d a) : Sure d' cond := fun a ha => h a (hs a ha)

/-- A condition on something fixed that holds once holds whatever happens. -/
theorem sure_of_known {cond : Option Cond} (hk : ∀ c, cond = some c → Known d c.var) {a : Asg} (ha : Within d a) (ho : On cond a) : Sure d cond := by
  intro b hb c hc
  have h1 := ho c hc
  have h2 := hk c hc a b ha hb
  show c.op.holds c.value c.upper (c.var.eval b)
  rw [← h2]; exact h1

/-- The domains of nodes have no holes: what is between two assignments is within the domains. -/
def Conv (nodes : List Nat) (d : Doms) : Prop := ∀ a b c, Within d a → Within d b → (∀ i, (i ∈ nodes ∧ a i ≤ c i ∧ c i ≤ b i) ∨ c i = a i) → Within d c

theorem Conv.cut {d' : Doms} {P : Asg → Prop} (h : Conv nodes d) (hw : ∀ a, Within d' a ↔ Within d a ∧ P a) (hp : ∀ a b c, P a → P b → (∀ i, (i ∈ nodes ∧ a i ≤ c i ∧ c i ≤ b i) ∨ c i = a i) → P c) : Conv nodes d' :=
  fun a b c ha hb hc => (hw c).2 ⟨h a b c ((hw a).1 ha).1 ((hw b).1 hb).1 hc, hp a b c ((hw a).1 ha).2 ((hw b).1 hb).2 hc⟩

theorem ver_static (ho : J.R .overflow) (hd : DomsOK d) (hl : d.length = J.n) (hn : ∀ i ∈ nodes, i < J.n) {b : Static} (hb : b.node < nodes.length) (hv : InI64 b.value) (hc : CondOK J.n b.cond)
    (hs : ∀ a, Within d a → J.C a → On b.cond a → b.Sat nodes a) :
    (static nodes b : Prog σ μ Unit).Ver J (fun _ => False) (fun _ d' => (∀ a, Within d' a → Within d a) ∧ (Sure d b.cond → ∀ a, Within d' a → b.Sat nodes a) ∧ (Conv nodes d → Conv nodes d')) d := by
  have hx : nodes[b.node] < d.length := by rw [hl]; exact hn _ (List.getElem_mem hb)
  have hx' : (VarId.simple nodes[b.node]).Valid J.n := hl ▸ hx
  have nv : ∀ a, nodeVal nodes a b.node = a nodes[b.node] := fun a => by simp [nodeVal, List.getElem?_eq_getElem hb]
  have main : Sure d b.cond → (do
      let x ← Prog.lift (vecAt nodes b.node)
      if b.isLower then
        let l ← Prog.ask (lowerBound · (.simple x))
        Prog.onlyIf (l < b.value) (Prog.tell (.cond (Cond.ge (.simple x) b.value)))
      else
        let u ← Prog.ask (upperBound · (.simple x))
        Prog.onlyIf (u > b.value) (do
          let k ← Prog.lift (iAdd b.value 1)
          Prog.tell (.cond (Cond.lt (.simple x) k))) : Prog σ μ Unit).Ver J (fun _ => False) (fun _ d' => (∀ a, Within d' a → Within d a) ∧ (Sure d b.cond → ∀ a, Within d' a → b.Sat nodes a) ∧ (Conv nodes d → Conv nodes d')) d := by
    intro sure
    refine ver_have (vecAt_ok.2 (List.getElem?_eq_getElem hb)) ?_
    by_cases hlo : b.isLower = true
    · rw [if_pos hlo]
      refine ver_ask (f := (lowerBound · (.simple nodes[b.node]))) ho (lower_roo hd hx) fun l hl' => ?_
      unfold Prog.onlyIf
      split
      · refine ver_tell_last (.ge hx' hv) (fun a ha hC => ?_) fun d' k1 k2 k3 => ⟨fun a ha => ((k3 a).1 ha).1, fun _ a ha => ?_, fun hc => hc.cut k3 fun a b' c ha hb' h => ?_⟩
        · have := hs a ha hC (sure a ha)
          rw [Static.Sat, if_pos hlo, nv] at this
          exact this
        · have : a nodes[b.node] ≥ b.value := ((k3 a).1 ha).2
          rw [Static.Sat, if_pos hlo, nv]; exact this
        · have ha' : a nodes[b.node] ≥ b.value := ha
          show c nodes[b.node] ≥ b.value
          have := h nodes[b.node]
          omega
      · refine ⟨fun a ha => ha, fun _ a ha => ?_, id⟩
        have : l ≤ a nodes[b.node] := hl'.2.le ha
        rw [Static.Sat, if_pos hlo, nv]; omega
    · rw [if_neg hlo]
      refine ver_ask (f := (upperBound · (.simple nodes[b.node]))) ho (upper_roo hd hx) fun l hl' => ?_
      unfold Prog.onlyIf
      split
      · refine ver_lift ho (add_roo hv (by decide)) fun k hk => ?_
        refine ver_tell_last (.lt hx' hk.2) (fun a ha hC => ?_) fun d' k1 k2 k3 => ⟨fun a ha => ((k3 a).1 ha).1, fun _ a ha => ?_, fun hc => hc.cut k3 fun a b' c ha hb' h => ?_⟩
        · have := hs a ha hC (sure a ha)
          rw [Static.Sat, if_neg hlo, nv] at this
          show a nodes[b.node] < k
          have := hk.1; omega
        · have : a nodes[b.node] < k := ((k3 a).1 ha).2
          have := hk.1
          rw [Static.Sat, if_neg hlo, nv]; omega
        · have ha' : a nodes[b.node] < k := ha
          have hb2 : b' nodes[b.node] < k := hb'
          show c nodes[b.node] < k
          have := h nodes[b.node]
          omega
      · refine ⟨fun a ha => ha, fun _ a ha => ?_, id⟩
        have : a nodes[b.node] ≤ l := hl'.2.ge ha
        rw [Static.Sat, if_neg hlo, nv]; omega
  unfold static
  cases hcond : b.cond with
  | none =>
    rw [hcond] at main
    exact main fun a _ c hc => nomatch hc
  | some c =>
    rw [hcond] at main
    have fine := hc c hcond
    have inner : ((Prog.ask (testLiteral · (.cond c))).bind fun t => .ret (decide (t = .definitelyTrue)) : Prog σ μ Bool).Ver J (fun _ => False) (fun on d' => d' = d ∧ (on = true ↔ Sure d (some c))) d := by
      refine ver_ask (f := (testLiteral · (.cond c))) ho (testLiteral_spec d _ hd (hl.symm ▸ fine.1) fine.2) fun r hr => ⟨rfl, ?_⟩
      rw [decide_eq_true_iff, hr.1]
      exact ⟨fun h a ha c' hc' => by cases hc'; exact h a ha, fun h a ha => h a ha c rfl⟩
    refine ver_seq (S := fun _ => False) hd hl (fun _ h => h) inner ?_
    rintro on d' - - - ⟨rfl, hon⟩
    cases on with
    | true => exact main (hon.1 rfl)
    | false => exact ⟨fun a ha => ha, fun sure => absurd (hon.2 sure) (by decide), id⟩

/-- What a bound has to be like. -/
def StaticOK (n k : Nat) (b : Static) : Prop := b.node < k ∧ InI64 b.value ∧ CondOK n b.cond

theorem ver_statics (ho : J.R .overflow) (hd : DomsOK d) (hl : d.length = J.n) (hn : ∀ i ∈ nodes, i < J.n) {bs : List Static} (hb : ∀ b ∈ bs, StaticOK J.n nodes.length b)
    (hs : ∀ a, Within d a → J.C a → ∀ b ∈ bs, On b.cond a → b.Sat nodes a) :
    (Prog.forEach (static nodes) bs : Prog σ μ Unit).Ver J (fun _ => False) (fun _ d' => (∀ a, Within d' a → Within d a) ∧ (∀ b ∈ bs, Sure d b.cond → ∀ a, Within d' a → b.Sat nodes a) ∧ (Conv nodes d → Conv nodes d')) d := by
  refine ver_mono (fun _ d' hq => ⟨hq.1, fun b hb => (hq.2.2.1 b hb).resolve_left (by simp), hq.2.2.2⟩) _ _
    (ver_forEach (J := J) (fun xs d' => (∀ a, Within d' a → Within d a) ∧ (∀ b ∈ xs, b ∈ bs) ∧ (∀ b ∈ bs, b ∈ xs ∨ (Sure d b.cond → ∀ a, Within d' a → b.Sat nodes a)) ∧ (Conv nodes d → Conv nodes d')) ?_ bs d hd hl
      ⟨fun a ha => ha, fun b hb => hb, fun b hb => .inl hb, id⟩)
  rintro x xs d1 hd1 hl1 ⟨h1, h2, h3, h4⟩
  have hx := hb x (h2 x (by simp))
  refine ver_mono (fun _ d' ⟨z1, z2, z3⟩ => ⟨fun a ha => h1 a (z1 a ha), fun b hb => h2 b (by simp [hb]), fun b hb => ?_, fun h => z3 (h4 h)⟩) _ _
    (ver_static ho hd1 hl1 hn hx.1 hx.2.1 hx.2.2 fun a ha hC => hs a (h1 a ha) hC x (h2 x (by simp)))
  rcases h3 b hb with k | k
  · rcases List.mem_cons.1 k with rfl | k
    · exact .inr fun sure => z2 (sure_sub sure h1)
    · exact .inl k
  · exact .inr fun sure a ha => k sure a (z1 a ha)

/-- What the whole graph has to be like. -/
structure Graph.OK (n : Nat) (g : Graph) : Prop where
  nodes : ∀ i ∈ g.nodes, i < n
  arcs : ArcsOK g.nodes.length g.arcs
  arcConds : ∀ e ∈ g.arcs, CondOK n e.cond
  bounds : ∀ b ∈ g.bounds, StaticOK n g.nodes.length b
  disallowed : ∀ c ∈ g.disallowed, (Lit.cond c).Fine n

/-- What the propagator is for. -/
def Graph.Main (g : Graph) (a : Asg) : Prop := (∀ e ∈ g.arcs, On e.cond a → e.Sat g.nodes a) ∧ ∀ b ∈ g.bounds, On b.cond a → b.Sat g.nodes a

/-- What the initialiser is for. -/
def Graph.Side (g : Graph) (a : Asg) : Prop := ∀ c ∈ g.disallowed, ¬ (Lit.cond c).holds a

theorem activeFrom_roo (hd : DomsOK d) : ∀ (es : List Arc) (i : Nat), (∀ e ∈ es, CondOK d.length e.cond) →
    RightOrOverflow (activeFrom d i es) (fun r => ∀ j, j ∈ r ↔ ∃ k e, j = i + k ∧ es[k]? = some e ∧ Sure d e.cond)
  | [], i, _ => .pure fun j => by simp
  | e :: es, i, hc => by
    have test : RightOrOverflow (match e.cond with | none => Except.ok true | some c => do return decide ((← testLiteral d (.cond c)) = .definitelyTrue)) (fun b => b = true ↔ Sure d e.cond) := by
      have hc' := hc e (by simp)
      cases hcond : e.cond with
      | none => exact .pure ⟨fun _ a _ c hc => (nomatch hc), fun _ => rfl⟩
      | some c =>
        have fine := hc' c hcond
        refine (testLiteral_spec d _ hd fine.1 fine.2).bind fun r hr => .pure ?_
        rw [decide_eq_true_iff, hr.1]
        exact ⟨fun h a ha c' hc' => by cases hc'; exact h a ha, fun h a ha => h a ha c rfl⟩
    refine test.bind fun b hb => ?_
    refine (activeFrom_roo hd es (i + 1) fun f hf => hc f (by simp [hf])).bind fun r hr => .pure fun j => ?_
    have shift : (∃ k f, j = i + k ∧ (e :: es)[k]? = some f ∧ Sure d f.cond) ↔ (j = i ∧ Sure d e.cond) ∨ ∃ k f, j = i + 1 + k ∧ es[k]? = some f ∧ Sure d f.cond := by
      constructor
      · rintro ⟨k, f, h1, h2, h3⟩
        cases k with
        | zero => cases h2; exact .inl ⟨h1, h3⟩
        | succ k => exact .inr ⟨k, f, by omega, h2, h3⟩
      · rintro (⟨h1, h2⟩ | ⟨k, f, h1, h2, h3⟩)
        · exact ⟨0, e, h1, rfl, h2⟩
        · exact ⟨k + 1, f, by omega, h2, h3⟩
    rw [shift, ← hr j, ← hb]
    cases b <;> simp

variable {g : Graph}

/-- All nodes. -/
theorem Graph.OK.live {n : Nat} (hg : g.OK n) : Live g.nodes.length g.nodes.length g.arcs :=
  ⟨List.range g.nodes.length, by simp, by simp, fun a ha => by have := hg.arcs a ha; simp [this.1, this.2.1]⟩

theorem ver_prop {B : Nat} (ho : J.R .overflow) (hd : DomsOK d) (hl : d.length = J.n) (hg : g.OK J.n) (hB : Live B g.nodes.length g.arcs) (hs : ∀ a, Within d a → J.C a → g.Main a) :
    (propWith B g : Prog σ μ PState).Ver J (fun _ => True) (fun ps d' => ps = .enable ∧ ((∀ i ∈ g.nodes, Known d (.simple i)) → (∀ e ∈ g.arcs, ∀ c, e.cond = some c → Known d c.var) →
      (∀ b ∈ g.bounds, ∀ c, b.cond = some c → Known d c.var) → ∀ a, Within d' a → g.Main a)) d := by
  refine ver_seq (S := fun _ => False) hd hl (fun _ h => h) (ver_statics ho hd hl hg.nodes hg.bounds fun a ha hC => (hs a ha hC).2) ?_
  rintro _ d1 hd1 hl1 - ⟨h1, h2, -⟩
  refine ver_ask (f := (activeFrom · 0 g.arcs)) ho (activeFrom_roo hd1 g.arcs 0 fun e he => hl1.symm ▸ hg.arcConds e he) fun act hact => ?_
  have sure : ∀ j ∈ act, ∃ e, g.arcs[j]? = some e ∧ Sure d1 e.cond := fun j hj => by
    obtain ⟨k, e, e1, e2, e3⟩ := (hact j).1 hj
    exact ⟨e, by rw [e1, Nat.zero_add]; exact e2, e3⟩
  have he : ∀ j ∈ act, j < g.arcs.length := fun j hj => by
    obtain ⟨e, e1, -⟩ := sure j hj
    exact (List.getElem?_eq_some_iff.1 e1).1
  have sat : ∀ a, Within d1 a → J.C a → AllSat g.nodes g.arcs act a := fun a ha hC j hj x hx => by
    obtain ⟨e, e1, e2⟩ := sure j hj
    rw [hx] at e1; cases e1
    exact (hs a (h1 a ha) hC).1 x (List.mem_of_getElem? hx) (e2 a ha)
  refine ver_seq (S := fun _ => False) hd1 hl1 (fun _ h => h) (ver_pass (dir := .lower) ho hd1 hl1 hg.arcs hB he hg.nodes sat) ?_
  rintro _ d2 hd2 hl2 s2 ⟨L, h3⟩
  refine ver_seq (S := fun _ => False) hd2 hl2 (fun _ h => h) (ver_pass (dir := .upper) ho hd2 hl2 hg.arcs hB he hg.nodes fun a ha => sat a (s2 a ha)) ?_
  rintro _ d3 hd3 hl3 s3 -
  refine ⟨rfl, fun kn ka kb a ha => ⟨fun e hm hon => ?_, fun b hm hon => ?_⟩⟩
  · have a2 := s3 a ha
    have a1 := s2 a a2
    have su : Sure d1 e.cond := sure_sub (sure_of_known (ka e hm) (h1 a a1) hon) h1
    obtain ⟨k, hk⟩ := List.mem_iff_getElem?.1 hm
    have : k ∈ act := (hact k).2 ⟨k, e, by simp, hk, su⟩
    exact h3.sat hg.arcs (fun i hi => (kn i hi).sub h1) a a2 k this e hk
  · have a1 := s2 a (s3 a ha)
    exact h2 b hm (sure_of_known (kb b hm) (h1 a a1) hon) a a1

theorem ver_start (ho : J.R .overflow) (hd : DomsOK d) (hl : d.length = J.n) (hg : g.OK J.n) (hs : ∀ a, Within d a → J.C a → g.Main a ∧ g.Side a) :
    (start g : Prog σ μ Unit).Ver J (fun _ => False) (fun _ d' => ∀ a, Within d' a → g.Side a) d := by
  refine ver_seq (S := fun _ => False) hd hl (fun _ h => h)
    (ver_forEach (J := J) (fun xs d' => (∀ a, Within d' a → Within d a) ∧ (∀ c ∈ xs, c ∈ g.disallowed) ∧ ∀ c ∈ g.disallowed, c ∈ xs ∨ ∀ a, Within d' a → ¬ (Lit.cond c).holds a) ?_ g.disallowed d hd hl
      ⟨fun a ha => ha, fun c hc => hc, fun c hc => .inl hc⟩) ?_
  · rintro c cs d1 hd1 hl1 ⟨h1, h2, h3⟩
    have hm := h2 c (by simp)
    have fine := hg.disallowed c hm
    have fin : ∀ d' : Doms, (∀ a, Within d' a → Within d1 a) → (∀ a, Within d' a → ¬ (Lit.cond c).holds a) →
        (∀ a, Within d' a → Within d a) ∧ (∀ c ∈ cs, c ∈ g.disallowed) ∧ ∀ c ∈ g.disallowed, c ∈ cs ∨ ∀ a, Within d' a → ¬ (Lit.cond c).holds a := by
      intro d' k1 k2
      refine ⟨fun a ha => h1 a (k1 a ha), fun c hc => h2 c (by simp [hc]), fun c' hc' => ?_⟩
      rcases h3 c' hc' with k | k
      · rcases List.mem_cons.1 k with rfl | k
        · exact .inr k2
        · exact .inl k
      · exact .inr fun a ha => k a (k1 a ha)
    refine ver_ask (f := (testLiteral · (.cond c))) ho (testLiteral_spec d1 _ hd1 (hl1.symm ▸ fine.1) fine.2) fun r hr => ?_
    unfold Prog.onlyIf
    split
    · refine ver_tell_last (l := (Lit.cond c).not) fine.1.not (fun a ha hC => ?_) fun d' k1 k2 k3 => fin d' (fun a ha => ((k3 a).1 ha).1) fun a ha => ?_
      · exact (Lit.not_holds ..).2 ((hs a (h1 a ha) hC).2 c hm)
      · exact (Lit.not_holds ..).1 ((k3 a).1 ha).2
    · rename_i hne
      exact fin d1 (fun a ha => ha) (hr.2.1 (by simpa using hne))
  · rintro _ d1 hd1 hl1 - ⟨h1, -, h3⟩
    refine ver_mono (fun _ d' hq a ha c hc => ?_) _ _ (ver_statics ho hd1 hl1 hg.nodes hg.bounds fun a ha hC => (hs a (h1 a ha) hC).1.2)
    exact (h3 c hc).resolve_left (by simp) a (hq.1 a ha)

end
end Gcs.Difference
