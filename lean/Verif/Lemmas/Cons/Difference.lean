import Verif.Lemmas.Cons.DifferenceRelax
import Verif.Lemmas.Cons.Logical

/-!
# The propagator of DifferenceConstraints
-/

namespace Gcs.Difference

/-- The value of a node. -/
def nodeVal (nodes : List Nat) (a : Asg) (v : Nat) : Int := (nodes[v]?.map a).getD 0

/-- The condition, if any. -/
def On (cond : Option Cond) (a : Asg) : Prop := ∀ c, cond = some c → (Lit.cond c).holds a

def Arc.Sat (nodes : List Nat) (a : Asg) (e : Arc) : Prop := nodeVal nodes a e.src - nodeVal nodes a e.dst ≤ e.d

def Static.Sat (nodes : List Nat) (a : Asg) (b : Static) : Prop := if b.isLower then b.value ≤ nodeVal nodes a b.node else nodeVal nodes a b.node ≤ b.value

/-- The condition is one that can be tested. -/
def CondOK (n : Nat) (cond : Option Cond) : Prop := ∀ c, cond = some c → (Lit.cond c).Fine n

section
variable {σ μ α β : Type} {J : Job} {dir : Dir} {nodes : List Nat} {arcs : List Arc} {act : List Nat} {st : List Label} {V0 : Nat → Int} {d : Doms}

theorem ver_have {T : β → Prop} {Q : β → Doms → Prop} {x : Chk α} {v : α} {k : α → Prog σ μ β} (e : x = .ok v) (hk : (k v).Ver J T Q d) : ((Prog.lift x).bind k).Ver J T Q d := by
  rw [e]; exact hk

theorem bound_roo (hd : DomsOK d) {x : VarId} (hx : x.Valid d.length) :
    RightOrOverflow (dir.bound d x) (fun b => InI64 b ∧ (∀ a, Within d a → dir.sg * b ≤ dir.sg * x.eval a) ∧ (Known d x → ∀ a, Within d a → b = x.eval a) ∧ ∃ a, Within d a ∧ x.eval a = b) := by
  cases dir with
  | lower => exact (lower_roo hd hx).mono fun b h => ⟨h.1, fun a ha => by have := h.2.le ha; simp only [Dir.sg]; omega, fun hk a ha => h.2.eq hk ha, h.2.1⟩
  | upper => exact (upper_roo hd hx).mono fun b h => ⟨h.1, fun a ha => by have := h.2.ge ha; simp only [Dir.sg]; omega, fun hk a ha => h.2.eq hk ha, h.2.1⟩

/-- The labels to begin with. -/
structure Seeded (dir : Dir) (nodes : List Nat) (d : Doms) (st : List Label) : Prop where
  labels : LabelsOK nodes.length st
  pred : ∀ v, pred st v = none
  le : ∀ a, Within d a → ∀ v, val dir st v ≤ dir.sg * nodeVal nodes a v
  att : ∃ b, Within d b ∧ ∀ v < nodes.length, val dir st v = dir.sg * nodeVal nodes b v

theorem mix {b c : Asg} (hb : Within d b) (hc : Within d c) (i : Nat) : Within d (fun j => if j = i then b j else c j) := by
  intro j s hj
  show IntervalSet.Mem (if j = i then b j else c j) s
  split
  · exact hb j s hj
  · exact hc j s hj

theorem seeds_roo (hd : DomsOK d) : ∀ nodes : List Nat, (∀ i ∈ nodes, i < d.length) → RightOrOverflow (seeds dir d nodes) (Seeded dir nodes d)
  | [], _ => .pure ⟨⟨rfl, by simp⟩, fun v => by simp [Difference.pred], fun a _ v => by simp [val, nodeVal], by
      obtain ⟨a, ha⟩ := exists_within hd
      exact ⟨a, ha, by simp⟩⟩
  | i :: is, hv => by
    refine (bound_roo (dir := dir) hd (x := .simple i) (hv i (by simp))).bind fun b ⟨h1, h2, _, c, hc, hcb⟩ => ?_
    refine (seeds_roo hd is fun j hj => hv j (by simp [hj])).bind fun st hs => .pure ?_
    refine ⟨⟨by simp [hs.labels.1], fun l hl => ?_⟩, fun v => ?_, fun a ha v => ?_, ?_⟩
    · rcases List.mem_cons.1 hl with rfl | hl
      · exact h1
      · exact hs.labels.2 l hl
    · cases v with
      | zero => rfl
      | succ v => exact hs.pred v
    · cases v with
      | zero => exact h2 a ha
      | succ v => exact hs.le a ha v
    · obtain ⟨b', hb', hv'⟩ := hs.att
      have hci : c i = b := hcb
      refine ⟨_, mix hc hb' i, fun v hv2 => ?_⟩
      cases v with
      | zero => show dir.sg * b = dir.sg * (if i = i then c i else b' i); rw [if_pos rfl, hci]
      | succ v =>
        have hv3 : v < is.length := by simpa using hv2
        refine (hv' v hv3).trans ?_
        have e : nodeVal is b' v = b' is[v] := by simp [nodeVal, List.getElem?_eq_getElem hv3]
        have e2 : nodeVal (i :: is) (fun j => if j = i then c j else b' j) (v + 1) = (if is[v] = i then c is[v] else b' is[v]) := by simp [nodeVal, List.getElem?_eq_getElem hv3]
        rw [e, e2]
        split
        · rename_i hi
          -- both are the bound of the same variable
          have k1 := hs.le c hc v
          have k2 : dir.sg * b ≤ dir.sg * b' i := h2 b' hb'
          rw [hv' v hv3, e] at k1
          have e3 : nodeVal is c v = c is[v] := by simp [nodeVal, List.getElem?_eq_getElem hv3]
          rw [e3] at k1
          rw [hi] at k1 ⊢
          rw [← hci] at k2
          omega
        · rfl

/-- What a valid pass has to know about the labels. -/
structure Final (J : Job) (dir : Dir) (nodes : List Nat) (arcs : List Arc) (act : List Nat) (V0 : Nat → Int) (st : List Label) (d : Doms) : Prop where
  arcsOK : ArcsOK nodes.length arcs
  actOK : ∀ e ∈ act, e < arcs.length
  nodesOK : ∀ i ∈ nodes, i < J.n
  labels : LabelsOK nodes.length st
  inv : (net dir arcs act).Inv V0 (val dir st) (pred st)
  fix : Fix dir arcs act act st
  le : ∀ a, Within d a → J.C a → ∀ v, val dir st v ≤ dir.sg * nodeVal nodes a v

theorem Final.sub {d' : Doms} (h : Final J dir nodes arcs act V0 st d) (hs : ∀ a, Within d' a → Within d a) : Final J dir nodes arcs act V0 st d' :=
  { h with le := fun a ha => h.le a (hs a ha) }

theorem ver_pushOne (ho : J.R .overflow) (hd : DomsOK d) (hl : d.length = J.n) (hf : Final J dir nodes arcs act V0 st d) {v : Nat} (hv : v < nodes.length) (hp : pred st v ≠ none) :
    (pushOne dir nodes arcs st v : Prog σ μ Unit).Ver J (fun _ => False) (fun _ d' => ∀ a, Within d' a ↔ Within d a ∧ val dir st v ≤ dir.sg * nodeVal nodes a v) d := by
  obtain ⟨l, e1, e2⟩ := pred_vec hf.labels hv
  have hvl : v < st.length := by rw [hf.labels.1]; exact hv
  have el : l = st[v] := by have := vecAt_ok.1 e1; rw [List.getElem?_eq_getElem hvl] at this; cases this; rfl
  have vl : val dir st v = dir.sg * l.1 := by rw [el]; simp [val, List.getElem?_eq_getElem hvl]
  have il : InI64 l.1 := hf.labels.2 l (by rw [el]; exact List.getElem_mem hvl)
  refine ver_have e1 ?_
  cases hl2 : l.2 with
  | none => exact absurd (e2.trans hl2) hp
  | some e =>
    rw [hl2] at e2
    have fr := hf.inv.from_ v e e2
    obtain ⟨a, q1, q2, q3, q4, q5⟩ := arc_vec (dir := dir) hf.actOK fr.1
    have ht : dir.tail a < st.length := by rw [hf.labels.1]; exact tail_lt hf.arcsOK q1
    have vt : val dir st (dir.tail a) = dir.sg * st[dir.tail a].1 := by simp [val, List.getElem?_eq_getElem ht]
    refine ver_have q2 ?_
    refine ver_have (vecAt_ok.2 (List.getElem?_eq_getElem ht)) ?_
    have hh : dir.head a = v := by rw [← q4]; exact fr.2.1
    rw [if_neg (by rw [hh]; simp)]
    refine ver_lift ho (step_roo (dir := dir) (hf.labels.2 _ (List.getElem_mem ht)) (hf.arcsOK a (List.mem_of_getElem? q1)).2.2) fun c hc => ?_
    have hcl : c = l.1 := by
      have h1 := fr.2.2
      have h2 := hf.fix e fr.1
      rw [q3, q5] at h1
      rw [q3, q5, q4, hh] at h2
      rw [vl, vt] at h1 h2
      have h3 := hc.1
      have : dir.sg * c = dir.sg * l.1 := by omega
      cases dir <;> simp only [Dir.sg] at this <;> omega
    rw [if_neg (by rw [hcl]; simp)]
    refine ver_have (vecAt_ok.2 (List.getElem?_eq_getElem hv)) ?_
    have hx : nodes[v] < d.length := by rw [hl]; exact hf.nodesOK _ (List.getElem_mem hv)
    have hx' : (VarId.simple nodes[v]).Valid J.n := hl ▸ hx
    have nv : ∀ a, nodeVal nodes a v = a nodes[v] := fun a => by simp [nodeVal, List.getElem?_eq_getElem hv]
    have le' : ∀ a, Within d a → J.C a → dir.sg * l.1 ≤ dir.sg * a nodes[v] := fun a ha hC => by rw [← vl, ← nv a]; exact hf.le a ha hC v
    refine ver_ask (f := (dir.bound · (.simple nodes[v]))) ho (bound_roo (dir := dir) hd hx) fun b hb => ?_
    split
    · cases dir with
      | lower =>
        refine ver_tell_last (.ge hx' il) (fun a ha hC => ?_) fun d' k1 k2 k3 a => (k3 a).trans ⟨fun ⟨h, h'⟩ => ⟨h, ?_⟩, fun ⟨h, h'⟩ => ⟨h, ?_⟩⟩
        · have := le' a ha hC
          show a nodes[v] ≥ l.1
          simp only [Dir.sg] at this; omega
        · have : a nodes[v] ≥ l.1 := h'
          rw [vl, nv]; simp only [Dir.sg]; omega
        · show a nodes[v] ≥ l.1
          rw [vl, nv] at h'; simp only [Dir.sg] at h'; omega
      | upper =>
        refine ver_lift ho (add_roo il (by decide)) fun k hk => ?_
        refine ver_tell_last (.lt hx' hk.2) (fun a ha hC => ?_) fun d' k1 k2 k3 a => (k3 a).trans ⟨fun ⟨h, h'⟩ => ⟨h, ?_⟩, fun ⟨h, h'⟩ => ⟨h, ?_⟩⟩
        · have := le' a ha hC
          show a nodes[v] < k
          simp only [Dir.sg] at this; omega
        · have : a nodes[v] < k := h'
          have := hk.1
          rw [vl, nv]; simp only [Dir.sg]; omega
        · show a nodes[v] < k
          have := hk.1
          rw [vl, nv] at h'; simp only [Dir.sg] at h'; omega
    · rename_i hb'
      rw [better_iff] at hb'
      refine fun a => ⟨fun ha => ⟨ha, ?_⟩, And.left⟩
      have := hb.2.1 a ha
      rw [vl, nv]
      have e : (VarId.simple nodes[v]).eval a = a nodes[v] := rfl
      rw [e] at this
      omega

theorem ver_push (ho : J.R .overflow) (hd : DomsOK d) (hl : d.length = J.n) (hf : Final J dir nodes arcs act V0 st d) :
    (push dir nodes arcs st : Prog σ μ Unit).Ver J (fun _ => False) (fun _ d' => ∀ a, Within d' a ↔ Within d a ∧ ∀ v < nodes.length, pred st v ≠ none → val dir st v ≤ dir.sg * nodeVal nodes a v) d := by
  refine ver_seq (S := fun _ => False) hd hl (fun _ h => h)
    (ver_forEachWith (J := J) (fun done xs d' => (∀ a, Within d' a → Within d a) ∧ done.Nodup ∧ (∀ x ∈ done, x < nodes.length) ∧ (∀ x ∈ done, ∀ a, Within d' a → val dir st x ≤ dir.sg * nodeVal nodes a x) ∧
      (∀ x ∈ xs, x < nodes.length) ∧ (∀ v < nodes.length, v ∈ xs ∨ v ∈ done ∨ pred st v = none) ∧
      ∀ a, Within d a → (∀ v < nodes.length, pred st v ≠ none → val dir st v ≤ dir.sg * nodeVal nodes a v) → Within d' a) ?_ (List.range nodes.length) [] d hd hl ?_) ?_
  · rintro done v xs d1 hd1 hl1 ⟨h1, h2, h3, h4, h5, h6, h7⟩
    have hf1 := hf.sub h1
    obtain ⟨r, c1, c2, c3, c4, c5, c6⟩ := chain_ok hf.arcsOK hf.actOK hf.labels hf.inv (st.length + 1) done v (h5 v (by simp)) h2 h3 (by rw [hf.labels.1]; omega)
    refine ver_have c1 ?_
    refine ver_seq (S := fun _ => False) hd1 hl1 (fun _ h => h)
      (ver_forEach (J := J) (fun ys d' => (∀ a, Within d' a → Within d1 a) ∧ (∀ x ∈ ys, x ∈ r.2) ∧ (∀ x ∈ r.2, x ∈ ys ∨ ∀ a, Within d' a → val dir st x ≤ dir.sg * nodeVal nodes a x) ∧
        ∀ a, Within d1 a → (∀ v < nodes.length, pred st v ≠ none → val dir st v ≤ dir.sg * nodeVal nodes a v) → Within d' a) ?_ r.2 d1 hd1 hl1
        ⟨fun a ha => ha, fun x hx => hx, fun x hx => .inl hx, fun a ha _ => ha⟩) ?_
    · rintro y ys d2 hd2 hl2 ⟨k1, k2, k3, k4⟩
      have hy := c5 y (k2 y (by simp))
      refine ver_mono (fun _ d' z => ⟨fun a ha => k1 a ((z a).1 ha).1, fun x hx => k2 x (by simp [hx]), fun x hx => ?_, fun a ha hv => (z a).2 ⟨k4 a ha hv, hv y hy.1 hy.2⟩⟩) _ _ (ver_pushOne ho hd2 hl2 (hf1.sub k1) hy.1 hy.2)
      rcases k3 x hx with k | k
      · rcases List.mem_cons.1 k with rfl | k
        · exact .inr fun a ha => ((z a).1 ha).2
        · exact .inl k
      · exact .inr fun a ha => k a ((z a).1 ha).1
    · rintro _ d2 hd2 hl2 hsub ⟨k1, -, k3, k4⟩
      refine ⟨fun a ha => h1 a (k1 a ha), c2, c3, fun x hx a ha => ?_, fun x hx => h5 x (by simp [hx]), fun w hw => ?_, fun a ha hv => k4 a (h7 a ha hv) hv⟩
      · rcases (c4 x).1 hx with hx | hx
        · exact h4 x hx a (k1 a ha)
        · rcases k3 x hx with k | k
          · cases k
          · exact k a ha
      · rcases h6 w hw with k | k | k
        · rcases List.mem_cons.1 k with rfl | k
          · rcases c6 with c6 | c6
            · exact .inr (.inl c6)
            · exact .inr (.inr c6)
          · exact .inl k
        · exact .inr (.inl ((c4 w).2 (.inl k)))
        · exact .inr (.inr k)
  · exact ⟨fun a ha => ha, .nil, by simp, by simp, by simp, fun v hv => .inl (by simpa using hv), fun a ha _ => ha⟩
  · rintro done d' - - - ⟨h1, -, -, h4, -, h6, h7⟩ a
    refine ⟨fun ha => ⟨h1 a ha, fun v hv hp => ?_⟩, fun ⟨ha, hv⟩ => h7 a ha hv⟩
    rcases h6 v hv with k | k | k
    · cases k
    · exact h4 v k a ha
    · exact absurd k hp

/-- The edges that are used hold. -/
def AllSat (nodes : List Nat) (arcs : List Arc) (act : List Nat) (a : Asg) : Prop := ∀ e ∈ act, ∀ x, arcs[e]? = some x → x.Sat nodes a

theorem AllSat.net (h : AllSat nodes arcs act a) (he : ∀ e ∈ act, e < arcs.length) : ∀ e ∈ act,
    dir.sg * nodeVal nodes a ((net dir arcs act).tail e) - (net dir arcs act).wt e ≤ dir.sg * nodeVal nodes a ((net dir arcs act).head e) := by
  intro e hact
  obtain ⟨x, q1, q2, q3, q4, q5⟩ := arc_vec (dir := dir) he hact
  have := h e hact x q1
  rw [q3, q4, q5]
  unfold Arc.Sat at this
  cases dir <;> simp only [Dir.tail, Dir.head, Dir.sg] <;> omega

theorem Net.chain_le {N : Net} {x : Nat → Int} (h : ∀ e ∈ N.act, x (N.tail e) - N.wt e ≤ x (N.head e)) {b : Nat} : ∀ {es : List Nat} {a : Nat}, N.Chain a es b → x b - N.sum es ≤ x a
  | [], _, hc => by cases hc; simp [Net.sum]
  | e :: es, a, ⟨h1, h2, h3⟩ => by
    have := h e h1
    have := Net.chain_le h h3
    rw [h2] at *
    rw [Net.sum_cons]; omega

/-- What is left after a pass: what is at least as good as some labels, which are a fixed point, and no better than what there was. -/
structure Passed (dir : Dir) (nodes : List Nat) (arcs : List Arc) (act : List Nat) (d d' : Doms) (L : Nat → Int) : Prop where
  within : ∀ a, Within d' a ↔ Within d a ∧ ∀ v < nodes.length, L v ≤ dir.sg * nodeVal nodes a v
  fix : ∀ e ∈ act, ∀ x, arcs[e]? = some x → L (dir.tail x) - x.d ≤ L (dir.head x)
  above : ∃ b, Within d b ∧ ∀ v < nodes.length, dir.sg * nodeVal nodes b v ≤ L v

theorem Passed.sat {d' : Doms} {L : Nat → Int} (h : Passed dir nodes arcs act d d' L) (ha : ArcsOK nodes.length arcs) (hk : ∀ i ∈ nodes, Known d (.simple i)) : ∀ a, Within d' a → AllSat nodes arcs act a := by
  intro a haw e hact x hx
  obtain ⟨b, hb, hb'⟩ := h.above
  have haw' := ((h.within a).1 haw).1
  have h1 := h.fix e hact x hx
  have ht := tail_lt (dir := dir) ha hx
  have h3 := hb' _ ht
  have e : nodeVal nodes b (dir.tail x) = nodeVal nodes a (dir.tail x) := by
    simp only [nodeVal, List.getElem?_eq_getElem ht]
    exact hk _ (List.getElem_mem ht) b a hb haw'
  rw [e] at h3
  have h5 := ((h.within a).1 haw).2 _ (head_lt (dir := dir) ha hx)
  show nodeVal nodes a x.src - nodeVal nodes a x.dst ≤ x.d
  cases dir <;> simp only [Dir.tail, Dir.head, Dir.sg] at h1 h3 h5 <;> omega

theorem ver_pass {B : Nat} (ho : J.R .overflow) (hd : DomsOK d) (hl : d.length = J.n) (ha : ArcsOK nodes.length arcs) (hB : Live B nodes.length arcs) (he : ∀ e ∈ act, e < arcs.length) (hn : ∀ i ∈ nodes, i < J.n)
    (hs : ∀ a, Within d a → J.C a → AllSat nodes arcs act a) :
    (pass dir B nodes arcs act : Prog σ μ Unit).Ver J (fun _ => False) (fun _ d' => ∃ L, Passed dir nodes arcs act d d' L) d := by
  refine ver_ask (f := (seeds dir · nodes)) ho (seeds_roo hd nodes fun i hi => hl ▸ hn i hi) fun st0 h0 => ?_
  have i0 : (net dir arcs act).Inv (val dir st0) (val dir st0) (pred st0) := by
    have : pred st0 = fun _ => none := funext h0.pred
    rw [this]; exact Net.Inv.init
  refine ver_lift ho (rounds_roo (dir := dir) (B := B) ha he B (Nat.le_refl _) h0.labels i0 (by rw [Nat.sub_self]; exact Net.Reach.zero fun _ => Int.le_refl _)) fun r hr => ?_
  cases h2 : r.2 with
  | some v =>
    refine ver_lift ho (refute_roo ha he hB hr h2) fun _ ⟨t, es, _, hc, hneg⟩ => ?_
    intro a haw hC
    have := Net.chain_le (N := net dir arcs act) (x := fun v => dir.sg * nodeVal nodes a v) ((hs a haw hC).net he) hc
    omega
  | none =>
    have hf : Final J dir nodes arcs act (val dir st0) r.1 d :=
      ⟨ha, he, hn, hr.labels, hr.inv, hr.fix h2, fun a haw hC => hr.inv.below _ ((hs a haw hC).net he) (h0.le a haw)⟩
    refine ver_mono (fun _ d' hq => ⟨val dir r.1, fun a => (hq a).trans ⟨fun ⟨k1, k2⟩ => ⟨k1, fun v hv => ?_⟩, fun ⟨k1, k2⟩ => ⟨k1, fun v hv _ => k2 v hv⟩⟩, fun e hact x hx => ?_, ?_⟩) _ _ (ver_push ho hd hl hf)
    · by_cases hp : pred r.1 v = none
      · rw [hr.inv.fresh _ hp]; exact h0.le a k1 v
      · exact k2 v hv hp
    · obtain ⟨y, q1, q2, q3, q4, q5⟩ := arc_vec (dir := dir) he hact
      rw [hx] at q1; cases q1
      have h1 := hr.fix h2 e hact
      rw [q3, q4, q5] at h1
      exact h1
    · obtain ⟨b, hb, hb'⟩ := h0.att
      exact ⟨b, hb, fun v hv => by rw [← hb' v hv]; exact hr.inv.grow v⟩

end
end Gcs.Difference
