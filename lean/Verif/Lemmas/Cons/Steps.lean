import Verif.Model.Cons.Steps
import Verif.Lemmas.Posts
import Verif.Props.TestLiteral

/-!
# Rules for the shorthands
-/

namespace Gcs

section
variable {σ μ α β : Type} {J : Job} {T : β → Prop} {Q : β → Doms → Prop} {d : Doms}

theorem ver_pure {v : β} (h : Q v d) : (pure v : Prog σ μ β).Ver J T Q d := h

theorem ver_lift {x : Chk α} {k : α → Prog σ μ β} {P : α → Prop} (ho : J.R .overflow) (h : RightOrOverflow x P) (hk : ∀ v, P v → (k v).Ver J T Q d) : ((Prog.lift x).bind k).Ver J T Q d := by
  rcases h with h | ⟨v, h, hv⟩
  · rw [h]; exact ho
  · rw [h]; exact hk v hv

theorem ver_lift' {x : Chk α} {k : α → Prog σ μ β} (h : ∀ e, x = .error e → J.R e) (hk : ∀ v, x = .ok v → (k v).Ver J T Q d) : ((Prog.lift x).bind k).Ver J T Q d := by
  cases x with
  | error e => exact h e rfl
  | ok v => exact hk v rfl

theorem ver_tell {l : Lit} {k : Unit → Prog σ μ β} (hl : l.Valid J.n) (hs : ∀ a, Within d a → J.C a → l.holds a)
    (hk : ∀ d', DomsOK d' → d'.length = J.n → (∀ b, Within d' b ↔ Within d b ∧ l.holds b) → (k ()).Ver J T Q d') : ((Prog.tell l).bind k).Ver J T Q d :=
  ⟨hl, hs, hk, fun h => nomatch h⟩

theorem ver_tell_last {T : Unit → Prop} {Q : Unit → Doms → Prop} {l : Lit} (hl : l.Valid J.n) (hs : ∀ a, Within d a → J.C a → l.holds a)
    (hk : ∀ d', DomsOK d' → d'.length = J.n → (∀ b, Within d' b ↔ Within d b ∧ l.holds b) → Q () d') : (Prog.tell l : Prog σ μ Unit).Ver J T Q d :=
  ⟨hl, hs, hk, fun h => nomatch h⟩

theorem ver_orStop {T : PState → Prop} {Q : PState → Doms → Prop} {l : Lit} {k : Prog σ μ PState} (hT : T .enable) (hl : l.Valid J.n) (hs : ∀ a, Within d a → J.C a → l.holds a)
    (hk : ∀ d', DomsOK d' → d'.length = J.n → (∀ b, Within d' b ↔ Within d b ∧ l.holds b) → k.Ver J T Q d') : (Prog.orStop l k).Ver J T Q d :=
  ⟨hl, hs, hk, fun _ => hT⟩

/-- A loop, with what holds before each round. -/
theorem ver_forEach {f : α → Prog σ μ Unit} (I : List α → Doms → Prop)
    (step : ∀ x xs d, DomsOK d → d.length = J.n → I (x :: xs) d → (f x).Ver J (fun _ => False) (fun _ d' => I xs d') d) :
    ∀ (xs : List α) (d : Doms), DomsOK d → d.length = J.n → I xs d → (Prog.forEach f xs).Ver J (fun _ => False) (fun _ d' => I [] d') d
  | [], _, _, _, h => h
  | x :: xs, d, h1, h2, h => ver_bind (S := fun _ => False) (fun _ h => h.elim) (f x) d h1 h2 (ver_mono (fun _ d' hi k1 k2 _ => ver_forEach I step xs d' k1 k2 hi) _ _ (step x xs d h1 h2 h))

theorem ver_forEachWith {f : β → α → Prog σ μ β} (I : β → List α → Doms → Prop)
    (step : ∀ b x xs d, DomsOK d → d.length = J.n → I b (x :: xs) d → (f b x).Ver J (fun _ => False) (fun b' d' => I b' xs d') d) :
    ∀ (xs : List α) (b : β) (d : Doms), DomsOK d → d.length = J.n → I b xs d → (Prog.forEachWith f b xs).Ver J (fun _ => False) (fun b' d' => I b' [] d') d
  | [], _, _, _, _, h => h
  | x :: xs, b, d, h1, h2, h => ver_bind (S := fun _ => False) (fun _ h => h.elim) (f b x) d h1 h2
      (ver_mono (fun b' d' hi k1 k2 _ => ver_forEachWith I step xs b' d' k1 k2 hi) _ _ (step b x xs d h1 h2 h))

/-- Inferring several literals. -/
theorem ver_tells {lit : α → Lit} (hd : DomsOK d) (hl : d.length = J.n) (xs : List α) (hv : ∀ x ∈ xs, (lit x).Valid J.n) (hs : ∀ x ∈ xs, ∀ a, Within d a → J.C a → (lit x).holds a) :
    (Prog.forEach (fun x => Prog.tell (lit x)) xs : Prog σ μ Unit).Ver J (fun _ => False) (fun _ d' => ∀ a, Within d' a ↔ Within d a ∧ ∀ x ∈ xs, (lit x).holds a) d := by
  induction xs generalizing d with
  | nil => intro a; simp
  | cons x xs ih =>
    refine ver_tell (hv x List.mem_cons_self) (hs x List.mem_cons_self) fun d' h1 h2 h3 => ?_
    refine ver_mono (fun _ d'' hq a => ?_) _ _ (ih h1 h2 (fun y hy => hv y (List.mem_cons_of_mem _ hy)) fun y hy a ha => hs y (List.mem_cons_of_mem _ hy) a ((h3 a).1 ha).1)
    rw [hq, h3, List.forall_mem_cons, and_assoc]

theorem ver_forGen {f : α → Prog σ μ Unit} {g : IntervalSet.Gen α} {Q' : Unit → Doms → Prop} (hd : DomsOK d) (hl : d.length = J.n) (he : ∀ e, g.2 = some e → J.R e)
    (h : (Prog.forEach f g.1).Ver J (fun _ => False) Q' d) : (Prog.forGen f g).Ver J (fun _ => False) Q' d := by
  refine ver_bind (fun _ h => h.elim) _ d hd hl (ver_mono (fun _ d' hq _ _ _ => ?_) _ _ h)
  cases e : g.2 with
  | none => exact hq
  | some x => exact he x e

/-- Sequencing with a first part that does not use `infer_*_or_stop`. -/
theorem ver_seq {S : α → Prop} {p : Prog σ μ α} {f : α → Prog σ μ β} {Q' : α → Doms → Prop} (hd : DomsOK d) (hl : d.length = J.n) (hS : ∀ v, ¬ S v) (hp : p.Ver J S Q' d)
    (hf : ∀ v d', DomsOK d' → d'.length = J.n → (∀ a, Within d' a → Within d a) → Q' v d' → (f v).Ver J T Q d') : (p.bind f).Ver J T Q d :=
  ver_bind (fun v h => absurd h (hS v)) p d hd hl (ver_mono (fun v d' hq k1 k2 k3 => hf v d' k1 k2 k3 hq) _ _ hp)

/-- Conditions made from a variable and a value. -/
theorem Lit.Valid.eq {n : Nat} {v : VarId} {k : Int} (hv : v.Valid n) (hk : InI64 k) : (Lit.cond (Cond.eq v k)).Valid n := ⟨hv, hk, show InI64 0 by decide⟩
theorem Lit.Valid.ne {n : Nat} {v : VarId} {k : Int} (hv : v.Valid n) (hk : InI64 k) : (Lit.cond (Cond.ne v k)).Valid n := ⟨hv, hk, show InI64 0 by decide⟩
theorem Lit.Valid.lt {n : Nat} {v : VarId} {k : Int} (hv : v.Valid n) (hk : InI64 k) : (Lit.cond (Cond.lt v k)).Valid n := ⟨hv, hk, show InI64 0 by decide⟩
theorem Lit.Valid.ge {n : Nat} {v : VarId} {k : Int} (hv : v.Valid n) (hk : InI64 k) : (Lit.cond (Cond.ge v k)).Valid n := ⟨hv, hk, show InI64 0 by decide⟩

theorem Lit.holds_lt {a : Asg} {v : VarId} {k : Int} : (Lit.cond (Cond.lt v k)).holds a ↔ v.eval a < k := Iff.rfl
theorem Lit.holds_ge {a : Asg} {v : VarId} {k : Int} : (Lit.cond (Cond.ge v k)).holds a ↔ v.eval a ≥ k := Iff.rfl
theorem Lit.holds_eq {a : Asg} {v : VarId} {k : Int} : (Lit.cond (Cond.eq v k)).holds a ↔ v.eval a = k := Iff.rfl
theorem Lit.holds_ne {a : Asg} {v : VarId} {k : Int} : (Lit.cond (Cond.ne v k)).holds a ↔ v.eval a ≠ k := Iff.rfl

end
end Gcs
