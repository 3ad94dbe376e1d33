import Verif.Lemmas.Cons.DifferenceNet
import Verif.Lemmas.Queue

/-!
# Bellman-Ford, as it is in the code
-/

namespace Gcs.Difference

def Dir.sg : Dir → Int
  | .lower => 1
  | .upper => -1

/-- The value at a node, growing. -/
def val (dir : Dir) (st : List Label) (v : Nat) : Int := dir.sg * ((st[v]?.map (·.1)).getD 0)

/-- The edge it comes from. -/
def pred (st : List Label) (v : Nat) : Option Nat := st[v]?.bind (·.2)

def net (dir : Dir) (arcs : List Arc) (act : List Nat) : Net where
  tail e := (arcs[e]?.map dir.tail).getD 0
  head e := (arcs[e]?.map dir.head).getD 0
  wt e := (arcs[e]?.map (·.d)).getD 0
  act := act

/-- At most `B` nodes have edges. -/
def Live (B n : Nat) (arcs : List Arc) : Prop := ∃ lv : List Nat, lv.length ≤ B ∧ lv.length ≤ n ∧ ∀ a ∈ arcs, a.src ∈ lv ∧ a.dst ∈ lv

/-- Edges are between nodes, and have 64-bit weights. -/
def ArcsOK (n : Nat) (arcs : List Arc) : Prop := ∀ a ∈ arcs, a.src < n ∧ a.dst < n ∧ InI64 a.d

/-- As many labels as nodes, with 64-bit integers. -/
def LabelsOK (n : Nat) (st : List Label) : Prop := st.length = n ∧ ∀ l ∈ st, InI64 l.1

section
variable {dir : Dir} {B n : Nat} {arcs : List Arc} {act : List Nat} {st : List Label} {V0 : Nat → Int}

theorem step_roo {x d : Int} (hx : InI64 x) (hd : InI64 d) : RightOrOverflow (dir.step x d) (fun r => dir.sg * r = dir.sg * x - d ∧ InI64 r) := by
  cases dir with
  | lower => exact (sub_roo hx hd).mono fun r h => ⟨by simp only [Dir.sg]; omega, h.2⟩
  | upper => exact (add_roo hx hd).mono fun r h => ⟨by simp only [Dir.sg]; omega, h.2⟩

theorem better_iff {new old : Int} : dir.better new old = true ↔ dir.sg * old < dir.sg * new := by
  cases dir <;> simp only [Dir.better, Dir.sg, decide_eq_true_eq] <;> omega

theorem tail_lt (h : ArcsOK n arcs) {e : Nat} {a : Arc} (ha : arcs[e]? = some a) : dir.tail a < n := by
  have := h a (List.mem_of_getElem? ha)
  cases dir <;> simp only [Dir.tail] <;> omega
theorem head_lt (h : ArcsOK n arcs) {e : Nat} {a : Arc} (ha : arcs[e]? = some a) : dir.head a < n := by
  have := h a (List.mem_of_getElem? ha)
  cases dir <;> simp only [Dir.head] <;> omega

/-- What an improvement is. -/
structure Improved (dir : Dir) (n : Nat) (arcs : List Arc) (act : List Nat) (e : Nat) (st : List Label) (r : Nat × List Label) : Prop where
  head : r.1 = (net dir arcs act).head e
  lt : r.1 < n
  labels : LabelsOK n r.2
  net : e ∈ act → Net.Improves (net dir arcs act) e (val dir st) (pred st) (val dir r.2) (pred r.2)

theorem relax_roo (ha : ArcsOK n arcs) (hs : LabelsOK n st) {e : Nat} (he : e < arcs.length) :
    RightOrOverflow (relax dir arcs e st) (fun r => (r = none → val dir st ((net dir arcs act).tail e) - (net dir arcs act).wt e ≤ val dir st ((net dir arcs act).head e)) ∧
      ∀ p, r = some p → Improved dir n arcs act e st p) := by
  have hae : arcs[e]? = some arcs[e] := List.getElem?_eq_getElem he
  generalize hA : arcs[e] = a at hae
  have ht : dir.tail a < st.length := hs.1 ▸ tail_lt ha hae
  have hh : dir.head a < st.length := hs.1 ▸ head_lt ha hae
  have ad := (ha a (List.mem_of_getElem? hae)).2.2
  have e1 : vecAt arcs e = .ok a := vecAt_ok.2 hae
  have e2 : vecAt st (dir.tail a) = .ok st[dir.tail a] := vecAt_ok.2 (List.getElem?_eq_getElem ht)
  have e3 : vecAt st (dir.head a) = .ok st[dir.head a] := vecAt_ok.2 (List.getElem?_eq_getElem hh)
  have eT : (net dir arcs act).tail e = dir.tail a := by simp [net, hae]
  have eH : (net dir arcs act).head e = dir.head a := by simp [net, hae]
  have eW : (net dir arcs act).wt e = a.d := by simp [net, hae]
  have vT : val dir st (dir.tail a) = dir.sg * st[dir.tail a].1 := by simp [val, List.getElem?_eq_getElem ht]
  have vH : val dir st (dir.head a) = dir.sg * st[dir.head a].1 := by simp [val, List.getElem?_eq_getElem hh]
  unfold relax
  rw [e1]
  show RightOrOverflow (do
    let x ← vecAt st (dir.tail a)
    let c ← dir.step x.1 a.d
    let y ← vecAt st (dir.head a)
    return if dir.better c y.1 then some (dir.head a, st.set (dir.head a) (c, some e)) else none) _
  rw [e2]
  refine (step_roo (dir := dir) (hs.2 _ (List.getElem_mem ht)) ad).bind fun c hc => ?_
  rw [e3]
  refine .pure ?_
  rw [eT, eH, eW, vT, vH]
  by_cases hb : dir.better c st[dir.head a].1 = true
  · rw [if_pos hb]
    rw [better_iff] at hb
    refine ⟨fun h => (nomatch h), fun p hp => ?_⟩
    cases hp
    refine ⟨eH.symm, hs.1 ▸ hh, ⟨by simp [hs.1], fun l hl => ?_⟩, fun hact => ⟨hact, by rw [eT, eH, eW, vT, vH]; omega, fun v => ?_, fun v => ?_⟩⟩
    · rcases List.mem_or_eq_of_mem_set hl with hl | rfl
      · exact hs.2 l hl
      · exact hc.2
    · rw [eT, eH, eW, vT]
      by_cases hv : v = dir.head a
      · subst hv; rw [if_pos rfl]; simp [val, List.getElem?_set_self hh]; omega
      · rw [if_neg hv]; simp only [val]; rw [List.getElem?_set_ne (by omega)]
    · rw [eH]
      by_cases hv : v = dir.head a
      · subst hv; rw [if_pos rfl]; simp [pred, List.getElem?_set_self hh]
      · rw [if_neg hv]; simp only [pred]; rw [List.getElem?_set_ne (by omega)]
  · have hb' := hb
    rw [if_neg hb]
    rw [better_iff] at hb'
    exact ⟨fun _ => by omega, fun p hp => (nomatch hp)⟩

/-- Nothing can be improved. -/
def Fix (dir : Dir) (arcs : List Arc) (act es : List Nat) (st : List Label) : Prop :=
  ∀ e ∈ es, val dir st ((net dir arcs act).tail e) - (net dir arcs act).wt e ≤ val dir st ((net dir arcs act).head e)

theorem sweep_roo (ha : ArcsOK n arcs) : ∀ (es : List Nat) {st : List Label} (b : Bool), (∀ e ∈ es, e < arcs.length ∧ e ∈ act) → LabelsOK n st → (net dir arcs act).Inv V0 (val dir st) (pred st) →
    RightOrOverflow (sweep dir arcs es st b) (fun r => LabelsOK n r.1 ∧ (net dir arcs act).Inv V0 (val dir r.1) (pred r.1) ∧ (∀ v, val dir st v ≤ val dir r.1 v) ∧
      (∀ e ∈ es, val dir st ((net dir arcs act).tail e) - (net dir arcs act).wt e ≤ val dir r.1 ((net dir arcs act).head e)) ∧
      (r.2 = false → b = false ∧ r.1 = st))
  | [], st, b, _, hs, hi => .pure ⟨hs, hi, fun _ => Int.le_refl _, by simp, fun h => ⟨h, rfl⟩⟩
  | e :: es, st, b, he, hs, hi => by
    have hee := he e (by simp)
    refine (relax_roo (act := act) ha hs hee.1).bind fun r hr => ?_
    cases r with
    | none =>
      refine (sweep_roo ha es b (fun f hf => he f (by simp [hf])) hs hi).mono fun r ⟨k1, k2, k3, k4, k5⟩ => ⟨k1, k2, k3, fun f hf => ?_, k5⟩
      rcases List.mem_cons.1 hf with rfl | hf
      · exact Int.le_trans (hr.1 rfl) (k3 _)
      · exact k4 f hf
    | some p =>
      have im := hr.2 p rfl
      have ni := im.net hee.2
      refine (sweep_roo ha es true (fun f hf => he f (by simp [hf])) im.labels (ni.inv hi)).mono fun r ⟨k1, k2, k3, k4, k5⟩ =>
        ⟨k1, k2, fun v => Int.le_trans (ni.ge v) (k3 v), fun f hf => ?_, fun h => absurd (k5 h).1 (by decide)⟩
      rcases List.mem_cons.1 hf with rfl | hf
      · have h1 := k3 ((net dir arcs act).head f)
        have h2 := ni.val ((net dir arcs act).head f)
        rw [if_pos rfl] at h2
        omega
      · have h1 := k4 f hf
        have h2 := ni.ge ((net dir arcs act).tail f)
        omega

theorem lastSweep_roo (ha : ArcsOK n arcs) : ∀ (es : List Nat), (∀ e ∈ es, e < arcs.length ∧ e ∈ act) → LabelsOK n st →
    RightOrOverflow (lastSweep dir arcs es st) (fun r => (r = none → Fix dir arcs act es st) ∧ ∀ p, r = some p → ∃ e ∈ act, Improved dir n arcs act e st p)
  | [], _, _ => .pure ⟨fun _ => by simp [Fix], fun p h => (nomatch h)⟩
  | e :: es, he, hs => by
    have hee := he e (by simp)
    refine (relax_roo (act := act) ha hs hee.1).bind fun r hr => ?_
    cases r with
    | none =>
      refine (lastSweep_roo ha es (fun f hf => he f (by simp [hf])) hs).mono fun r ⟨k1, k2⟩ => ⟨fun h f hf => ?_, k2⟩
      rcases List.mem_cons.1 hf with rfl | hf
      · exact hr.1 rfl
      · exact k1 h f hf
    | some p => exact .pure ⟨fun h => (nomatch h), fun q hq => by cases hq; exact ⟨e, hee.2, hr.2 p rfl⟩⟩

/-- What is left after all the rounds. -/
structure Settled (dir : Dir) (B n : Nat) (arcs : List Arc) (act : List Nat) (V0 : Nat → Int) (r : List Label × Option Nat) : Prop where
  labels : LabelsOK n r.1
  inv : (net dir arcs act).Inv V0 (val dir r.1) (pred r.1)
  fix : r.2 = none → Fix dir arcs act act r.1
  cycle : ∀ v, r.2 = some v → v < n ∧ (∃ e ∈ act, v = (net dir arcs act).head e) ∧ ∀ es b, (net dir arcs act).Walk (pred r.1) v es b → es.length ≤ B → pred r.1 b ≠ none

theorem rounds_roo (ha : ArcsOK n arcs) (he : ∀ e ∈ act, e < arcs.length) : ∀ (k : Nat) {st : List Label}, k ≤ B → LabelsOK n st → (net dir arcs act).Inv V0 (val dir st) (pred st) →
    (net dir arcs act).Reach V0 (val dir st) (B - k) → RightOrOverflow (rounds dir arcs act k st) (Settled dir B n arcs act V0)
  | 0, st, _, hs, hi, hr => by
    refine (lastSweep_roo (act := act) ha act (fun e h => ⟨he e h, h⟩) hs).bind fun r hr' => ?_
    cases r with
    | none => exact .pure ⟨hs, hi, fun _ => hr'.1 rfl, fun v h => nomatch h⟩
    | some p =>
      obtain ⟨e, h1, h2⟩ := hr'.2 p rfl
      have ni := h2.net h1
      refine .pure ⟨h2.labels, ni.inv hi, fun h => (nomatch h), fun v h => ?_⟩
      cases h
      refine ⟨h2.lt, ⟨e, h1, h2.head⟩, fun es b w hl => ?_⟩
      have w : (net dir arcs act).Walk (pred p.2) p.1 es b := w
      rw [h2.head] at w
      exact ni.endless hi hr w (by omega)
  | k + 1, st, hk, hs, hi, hr => by
    refine (sweep_roo (act := act) ha act false (fun e h => ⟨he e h, h⟩) hs hi).bind fun r ⟨k1, k2, k3, k4, k5⟩ => ?_
    split
    · exact rounds_roo ha he k (by omega) k1 k2 (by have := Net.Reach.succ hr k3 k4; rwa [show B - (k + 1) + 1 = B - k by omega] at this)
    · rename_i hb
      have := k5 (by simpa using hb)
      refine .pure ⟨k1, k2, fun _ e hee => ?_, fun v h => nomatch h⟩
      have := k4 e hee
      have e' : r.1 = st := by simp_all
      rw [e'] at this ⊢
      exact this

/-! ## The cycle -/

theorem pred_vec (hs : LabelsOK n st) {v : Nat} (hv : v < n) : ∃ l, vecAt st v = .ok l ∧ pred st v = l.2 := by
  have h : v < st.length := by rw [hs.1]; exact hv
  exact ⟨st[v], vecAt_ok.2 (List.getElem?_eq_getElem h), by simp [pred, List.getElem?_eq_getElem h]⟩

theorem arc_vec (he : ∀ e ∈ act, e < arcs.length) {e : Nat} (h : e ∈ act) : ∃ a, arcs[e]? = some a ∧ vecAt arcs e = .ok a ∧ (net dir arcs act).tail e = dir.tail a ∧ (net dir arcs act).head e = dir.head a ∧ (net dir arcs act).wt e = a.d := by
  have hlt := he e h
  have hae : arcs[e]? = some arcs[e] := List.getElem?_eq_getElem hlt
  exact ⟨_, hae, vecAt_ok.2 hae, by simp [net, hae], by simp [net, hae], by simp [net, hae]⟩

theorem seek_ok (ha : ArcsOK n arcs) (he : ∀ e ∈ act, e < arcs.length) (hs : LabelsOK n st) (hi : (net dir arcs act).Inv V0 (val dir st) (pred st)) {v : Nat}
    {lv : List Nat} (hB : lv.length ≤ B) (hlv : ∀ a ∈ arcs, a.src ∈ lv ∧ a.dst ∈ lv) (hc : ∀ es b, (net dir arcs act).Walk (pred st) v es b → es.length ≤ B → pred st b ≠ none) :
    ∀ (k : Nat) (seen : List Nat) (at_ : Nat), at_ < n → at_ ∈ lv → seen.Nodup → (∀ x ∈ seen, x ∈ lv) → lv.length < seen.length + k → (∃ es, (net dir arcs act).Walk (pred st) v es at_ ∧ es.length = seen.length) →
      (∀ s ∈ seen, ∃ es, es ≠ [] ∧ (net dir arcs act).Walk (pred st) s es at_ ∧ es.length ≤ seen.length) →
      ∃ r es, seek dir arcs st k seen at_ = .ok r ∧ r < n ∧ es ≠ [] ∧ (net dir arcs act).Walk (pred st) r es r ∧ es.length ≤ lv.length
  | 0, seen, at_, _, _, hn, hm, hk, _, _ => by
    have := nodup_sub seen lv hn hm
    omega
  | k + 1, seen, at_, hat, hatl, hn, hm, hk, ⟨es, hw, hl⟩, hback => by
    have hlen := nodup_sub seen lv hn hm
    unfold seek
    by_cases hin : at_ ∈ seen
    · rw [if_pos hin]
      obtain ⟨fs, h1, h2, h3⟩ := hback at_ hin
      exact ⟨at_, fs, rfl, hat, h1, h2, by omega⟩
    · rw [if_neg hin]
      obtain ⟨l, e1, e2⟩ := pred_vec hs hat
      rw [e1]
      have hp := hc es at_ hw (by omega)
      rw [e2] at hp
      cases hl2 : l.2 with
      | none => exact absurd hl2 hp
      | some e =>
        rw [hl2] at e2
        have hact := (hi.from_ at_ e e2).1
        obtain ⟨a, q1, q2, q3, -, -⟩ := arc_vec (dir := dir) he hact
        have step : (net dir arcs act).Walk (pred st) at_ [e] (dir.tail a) := ⟨e2, q3⟩
        have hta : dir.tail a ∈ lv := by have := hlv a (List.mem_of_getElem? q1); cases dir; exact this.1; exact this.2
        have := seek_ok ha he hs hi hB hlv hc k (at_ :: seen) (dir.tail a) (tail_lt ha q1) hta (List.nodup_cons.2 ⟨hin, hn⟩)
          (fun x hx => by rcases List.mem_cons.1 hx with rfl | hx; exact hatl; exact hm x hx) (by simp; omega) ⟨es ++ [e], hw.append step, by simp [hl]⟩
          (fun s hs' => by
            rcases List.mem_cons.1 hs' with rfl | hs'
            · exact ⟨[e], by simp, step, by simp⟩
            · obtain ⟨fs, h1, h2, h3⟩ := hback s hs'
              exact ⟨fs ++ [e], by simp, h2.append step, by simp; omega⟩)
        obtain ⟨r, fs, z1, z2⟩ := this
        refine ⟨r, fs, ?_, z2⟩
        show (match l.2 with | none => _ | some e => _) = _
        rw [hl2]
        show (vecAt arcs e >>= _) = _
        rw [q2]
        exact z1

theorem around_ok (ha : ArcsOK n arcs) (he : ∀ e ∈ act, e < arcs.length) (hs : LabelsOK n st) (hi : (net dir arcs act).Inv V0 (val dir st) (pred st)) {target : Nat} :
    ∀ (k : Nat) (here : Nat) (es : List Nat), here < n → es ≠ [] → es.length ≤ k → (net dir arcs act).Walk (pred st) here es target →
      ∃ fs, around dir arcs st target k here = .ok fs ∧ fs ≠ [] ∧ (net dir arcs act).Walk (pred st) here fs target
  | 0, here, es, _, hne, hl, _ => absurd (List.length_eq_zero_iff.1 (by omega)) hne
  | k + 1, here, [], _, hne, _, _ => absurd rfl hne
  | k + 1, here, e :: es, hh, _, hl, hw => by
    obtain ⟨l, e1, e2⟩ := pred_vec hs hh
    have hp := hw.1
    have hact := (hi.from_ here e hp).1
    obtain ⟨a, q1, q2, q3, -, -⟩ := arc_vec (dir := dir) he hact
    have hl2 : l.2 = some e := e2 ▸ hp
    have ev : around dir arcs st target (k + 1) here = if dir.tail a = target then .ok [e] else do return e :: (← around dir arcs st target k (dir.tail a)) := by
      rw [around, e1]
      show (match l.2 with | none => _ | some e => _) = _
      rw [hl2]
      show (vecAt arcs e >>= _) = _
      rw [q2]
      rfl
    rw [ev]
    by_cases ht : dir.tail a = target
    · rw [if_pos ht]
      exact ⟨[e], rfl, by simp, hp, q3.trans ht⟩
    · rw [if_neg ht]
      have hrest := hw.2
      rw [q3] at hrest
      have hne : es ≠ [] := by rintro rfl; exact ht hrest
      obtain ⟨fs, z1, z2, z3⟩ := around_ok ha he hs hi k (dir.tail a) es (tail_lt ha q1) hne (by simpa using hl) hrest
      refine ⟨e :: fs, by rw [z1]; rfl, by simp, hp, ?_⟩
      rw [q3]; exact z3

theorem weigh_roo (ha : ArcsOK n arcs) (he : ∀ e ∈ act, e < arcs.length) (hi : (net dir arcs act).Inv V0 (val dir st) (pred st)) {target c : Nat} (hc : c ∈ act) (hcT : (net dir arcs act).head c = target) :
    ∀ (rest : List Nat) (f here : Nat) (w : Int), InI64 w → (net dir arcs act).Walk (pred st) here (f :: rest) target →
      RightOrOverflow (weigh dir arcs w ((f :: rest).zip (rest ++ [c]))) (fun r => r = w + (net dir arcs act).sum (f :: rest))
  | [], f, here, w, hw, k => by
    have hf := (hi.from_ here f k.1).1
    obtain ⟨a, q1, q2, q3, q4, q5⟩ := arc_vec (dir := dir) he hf
    obtain ⟨b, p1, p2, p3, p4, p5⟩ := arc_vec (dir := dir) he hc
    have ht : dir.tail a = target := by rw [← q3]; exact k.2
    show RightOrOverflow (weigh dir arcs w [(f, c)]) _
    unfold weigh
    show RightOrOverflow (vecAt arcs f >>= _) _
    rw [q2]
    show RightOrOverflow (vecAt arcs c >>= _) _
    rw [p2]
    refine (add_roo hw (ha a (List.mem_of_getElem? q1)).2.2).bind fun r hr => ?_
    rw [if_neg (by rw [ht, ← p4, hcT]; simp)]
    refine .pure ?_
    rw [Net.sum_cons, q5, hr.1]; simp [Net.sum]
  | g :: rest, f, here, w, hw, k => by
    have hf := (hi.from_ here f k.1).1
    have hg := hi.from_ _ g k.2.1
    obtain ⟨a, q1, q2, q3, q4, q5⟩ := arc_vec (dir := dir) he hf
    obtain ⟨b, p1, p2, p3, p4, p5⟩ := arc_vec (dir := dir) he hg.1
    show RightOrOverflow (weigh dir arcs w ((f, g) :: (g :: rest).zip (rest ++ [c]))) _
    unfold weigh
    show RightOrOverflow (vecAt arcs f >>= _) _
    rw [q2]
    show RightOrOverflow (vecAt arcs g >>= _) _
    rw [p2]
    refine (add_roo hw (ha a (List.mem_of_getElem? q1)).2.2).bind fun r hr => ?_
    rw [if_neg (by rw [← p4, ← q3, hg.2.1]; simp)]
    refine (weigh_roo ha he hi hc hcT rest g _ r hr.2 k.2).mono fun z hz => ?_
    rw [Net.sum_cons (N := net dir arcs act) f, q5]
    omega

/-- If something was improved in the last round, then there is a cycle that cannot be satisfied. -/
theorem refute_roo (ha : ArcsOK n arcs) (he : ∀ e ∈ act, e < arcs.length) (hlive : Live B n arcs) {r : List Label × Option Nat} (hr : Settled dir B n arcs act V0 r) {v : Nat} (hv : r.2 = some v) :
    RightOrOverflow (refute dir arcs r.1 v) (fun _ => ∃ a es, (∀ e ∈ es, e ∈ act) ∧ (net dir arcs act).Chain a es a ∧ (net dir arcs act).sum es < 0) := by
  obtain ⟨hvn, ⟨e0, he0, hv0⟩, hend⟩ := hr.cycle v hv
  obtain ⟨lv, hB, hn, hlv⟩ := hlive
  have hvl : v ∈ lv := by
    obtain ⟨a, q1, -, -, q4, -⟩ := arc_vec (dir := dir) he he0
    have := hlv a (List.mem_of_getElem? q1)
    rw [hv0, q4]
    cases dir
    · exact this.2
    · exact this.1
  obtain ⟨t, es, e1, e2, e3, e4, e5⟩ := seek_ok ha he hr.labels hr.inv hB hlv hend (n + 1) [] v hvn hvl .nil (by simp) (by simp; omega) ⟨[], rfl, rfl⟩ (by simp)
  obtain ⟨fs, f1, f2, f3⟩ := around_ok ha he hr.labels hr.inv (n + 1) t es e2 e3 (by omega) e4
  unfold refute
  rw [hr.labels.1, e1]
  show RightOrOverflow (around dir arcs r.1 t (n + 1) t >>= _) _
  rw [f1]
  show RightOrOverflow (checkCycle dir arcs fs) _
  have neg := hr.inv.cyc t fs f2 f3
  have good : ∃ a es, (∀ e ∈ es, e ∈ act) ∧ (net dir arcs act).Chain a es a ∧ (net dir arcs act).sum es < 0 := by
    refine ⟨t, fs, ?_, hr.inv.chain f3, neg⟩
    have : ∀ (gs : List Nat) (x : Nat), (net dir arcs act).Chain x gs t → ∀ e ∈ gs, e ∈ act := by
      intro gs
      induction gs with
      | nil => simp
      | cons g gs ih =>
        intro x h e hm
        rcases List.mem_cons.1 hm with rfl | hm
        · exact h.1
        · exact ih _ h.2.2 e hm
    exact this fs t (hr.inv.chain f3)
  cases fs with
  | nil => exact absurd rfl f2
  | cons f rest =>
    have hf := hr.inv.from_ t f f3.1
    unfold checkCycle
    rw [if_neg (by simp)]
    refine (weigh_roo ha he hr.inv hf.1 hf.2.1 rest f t 0 (by decide) f3).bind fun w hw => ?_
    rw [if_neg (by omega)]
    exact .pure good

/-! ## The forest -/

theorem chain_ok (ha : ArcsOK n arcs) (he : ∀ e ∈ act, e < arcs.length) (hs : LabelsOK n st) (hi : (net dir arcs act).Inv V0 (val dir st) (pred st)) :
    ∀ (k : Nat) (done : List Nat) (at_ : Nat), at_ < n → done.Nodup → (∀ x ∈ done, x < n) → n < done.length + k →
      ∃ r, chain dir arcs st k done at_ = .ok r ∧ r.1.Nodup ∧ (∀ x ∈ r.1, x < n) ∧ (∀ x, x ∈ r.1 ↔ x ∈ done ∨ x ∈ r.2) ∧ (∀ x ∈ r.2, x < n ∧ pred st x ≠ none) ∧ (at_ ∈ r.1 ∨ pred st at_ = none)
  | 0, done, at_, _, hn, hm, hk => by
    have := nodup_le n done hn hm
    omega
  | k + 1, done, at_, hat, hn, hm, hk => by
    unfold chain
    by_cases hin : at_ ∈ done
    · rw [if_pos hin]
      exact ⟨_, rfl, hn, hm, by simp, by simp, .inl hin⟩
    · rw [if_neg hin]
      obtain ⟨l, e1, e2⟩ := pred_vec hs hat
      rw [e1]
      cases hl2 : l.2 with
      | none =>
        refine ⟨(done, []), ?_, hn, hm, by simp, by simp, .inr (e2.trans hl2)⟩
        show (match l.2 with | none => _ | some e => _) = _
        rw [hl2]; rfl
      | some e =>
        rw [hl2] at e2
        obtain ⟨a, q1, q2, q3, -, -⟩ := arc_vec (dir := dir) he (hi.from_ at_ e e2).1
        obtain ⟨r, z1, z2, z3, z4, z5, z6⟩ := chain_ok ha he hs hi k (at_ :: done) (dir.tail a) (tail_lt ha q1) (List.nodup_cons.2 ⟨hin, hn⟩)
          (fun x hx => by rcases List.mem_cons.1 hx with rfl | hx; exact hat; exact hm x hx) (by simp; omega)
        refine ⟨(r.1, r.2 ++ [at_]), ?_, z2, z3, fun x => ?_, fun x hx => ?_, .inl ((z4 at_).2 (.inl (by simp)))⟩
        · show (match l.2 with | none => _ | some e => _) = _
          rw [hl2]
          show (vecAt arcs e >>= _) = _
          rw [q2]
          show (chain dir arcs st k (at_ :: done) (dir.tail a) >>= _) = _
          rw [z1]
          rfl
        · rw [z4]; simp only [List.mem_cons, List.mem_append, List.not_mem_nil, or_false]
          constructor
          · rintro ((h | h) | h)
            · exact .inr (.inr h)
            · exact .inl h
            · exact .inr (.inl h)
          · rintro (h | h | h)
            · exact .inl (.inr h)
            · exact .inr h
            · exact .inl (.inl h)
        · rcases List.mem_append.1 hx with hx | hx
          · exact z5 x hx
          · have : x = at_ := by simpa using hx
            subst this
            exact ⟨hat, by rw [e2]; simp⟩

end
end Gcs.Difference
