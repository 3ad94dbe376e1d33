import Verif.Lemmas.Cons.CircuitInstall

/-!
# Running a sequence of two, and `prevent_small_cycles` on a chain that runs into a cycle
-/

namespace Gcs

section
variable {σ μ α β γ : Type}

theorem Prog.bind_assoc (f : α → Prog σ μ β) (g : β → Prog σ μ γ) : ∀ p : Prog σ μ α, (p.bind f).bind g = p.bind fun x => (f x).bind g
  | .ret _ => rfl
  | .raise _ => rfl
  | .fail => rfl
  | .read k => congrArg Prog.read (funext fun s => Prog.bind_assoc f g (k s))
  | .infer l o k => congrArg (Prog.infer l o) (funext fun b => Prog.bind_assoc f g (k b))
  | .progress k => congrArg Prog.progress (funext fun b => Prog.bind_assoc f g (k b))
  | .watch l p k => congrArg (Prog.watch l p) (Prog.bind_assoc f g k)
  | .clearWatches k => congrArg Prog.clearWatches (Prog.bind_assoc f g k)
  | .setWatchState a b k => congrArg (Prog.setWatchState a b) (Prog.bind_assoc f g k)
  | .setState h v k => congrArg (Prog.setState h v) (Prog.bind_assoc f g k)
  | .setMem m k => congrArg (Prog.setMem m) (Prog.bind_assoc f g k)

/-- If the first part ends with a result, the second one carries on. -/
theorem run_bind {c : Ctx} {f : α → Prog σ μ β} {a : α} {s' : Sys σ μ} : ∀ (p : Prog σ μ α) (s : Sys σ μ), runProg c p s = .ok (.val a, s') → runProg c (p.bind f) s = runProg c (f a) s'
  | .ret _, s, h => by cases h; rfl
  | .raise _, s, h => nomatch h
  | .fail, s, h => nomatch h
  | .read k, s, h => run_bind (k s) s h
  | .infer l o k, s, h => by
    simp only [runProg, Prog.bind] at h ⊢
    split at h
    · rename_i e; rw [if_pos e]; exact run_bind (k false) s h
    · rename_i e
      rw [if_neg e]
      cases hx : s.st.infer l with
      | error e => rw [hx] at h; cases h
      | ok x =>
        rw [hx] at h
        dsimp only at h ⊢
        split at h
        · rename_i e; rw [if_pos e]; exact run_bind (k true) _ h
        · rename_i e
          rw [if_neg e]
          split at h
          · rename_i e; rw [if_pos e]; exact run_bind (k false) _ h
          · cases h
  | .progress k, s, h => run_bind (k _) _ h
  | .watch l p k, s, h => run_bind k _ h
  | .clearWatches k, s, h => by
    simp only [runProg, Prog.bind] at h ⊢
    cases hx : s.w.clear c.owner c.scope with
    | error e => rw [hx] at h; cases h
    | ok x => rw [hx] at h; exact run_bind k _ h
  | .setWatchState a b k, s, h => run_bind k _ h
  | .setState i v k, s, h => by
    simp only [runProg, Prog.bind] at h ⊢
    cases hx : s.st.setConstraintState i v with
    | error e => rw [hx] at h; cases h
    | ok x => rw [hx] at h; exact run_bind k _ h
  | .setMem m k, s, h => run_bind k _ h

end

namespace Circuit
open AllDifferent

section
variable {σ μ α : Type} {B : Kind σ (List VarId)} {h fuel : Nat} {o : Options} {succ : List VarId}

theorem stored_bind {τ β : Type} {B : Kind σ τ} {k : τ → Prog σ μ α} {f : α → Prog σ μ β} : (stored B h k).bind f = stored B h fun t => (k t).bind f := by
  refine congrArg Prog.read (funext fun s => ?_)
  dsimp only
  split
  · rfl
  · split <;> rfl

theorem vcStage_bind {k : Bool → Prog σ μ PState} {f : PState → Prog σ μ PState} : (vcStage B h k).bind f = vcStage B h fun b => (k b).bind f := by
  refine congrArg Prog.read (funext fun s => ?_)
  dsimp only
  split
  · rfl
  · split
    · rfl
    · rw [Prog.bind_assoc]
      congr
      funext r
      cases r <;> rfl

/-- What comes before `prevent_small_cycles`: the variables that are then unassigned. -/
def sccHead (B : Kind σ (List VarId)) (h : Nat) (o : Options) (succ : List VarId) : Prog σ μ (Option (List VarId)) :=
  (vcStage B h fun b => if b then (checkSccs o succ).bind fun _ => .ret .enable else .ret .disableUntilBacktrack).bind fun p =>
    if p = .enable then stored B h fun u => (Prog.ask fun d => gather d (u.length + 1) 0 u []).bind fun r => .setState h (B.put r.1) (.ret (some r.1)) else .ret none

theorem sccProp_split : sccProp (μ := μ) B h fuel o succ = (sccHead B h o succ).bind fun | none => .ret .enable | some u => (preventSmallCycles fuel succ u).bind fun _ => .ret .enable := by
  rw [sccHead, Prog.bind_assoc, vcStage_bind, sccProp]
  congr
  funext b
  cases b with
  | false => rfl
  | true =>
    simp only [if_true]
    rw [Prog.bind_assoc]
    congr
    funext x
    simp only [Prog.bind, if_true]
    rw [stored_bind]
    unfold sccTail
    congr
    funext u
    rw [Prog.bind_assoc]
    rfl

theorem preventSmallCycles_diverges {c : Ctx} {s : Sys σ μ} {u : List VarId} {f : Unit → Prog σ μ PState} (h : chains fuel s.doms succ [] u = .error .diverge) :
    runProg c ((preventSmallCycles fuel succ u).bind f) s = .error .diverge := by
  show runProg c (((Prog.ask (chains fuel · succ [] u)).bind _).bind f) s = _
  simp only [Prog.ask, Prog.bind, runProg, h]

end

/-! A chain that leads into a cycle: 4 goes to 5, which goes to 6, which goes to 5. -/
namespace Hang

def succ : List VarId := (List.range 7).map .simple
def root : Doms := [[(1, 1), (3, 3)], [(0, 0), (2, 2)], [(0, 1)], [(1, 2), (4, 4)], [(0, 0), (5, 5)], [(6, 6)], [(0, 0), (5, 5)]]
def pruned : Doms := [[(3, 3)], [(0, 0), (2, 2)], [(0, 1)], [(1, 2), (4, 4)], [(5, 5)], [(6, 6)], [(5, 5)]]

theorem step4 (f len : Nat) : follow pruned succ 4 (f + 1) 4 len = follow pruned succ 4 f 5 (len + 1) := rfl
theorem step5 (f len : Nat) : follow pruned succ 4 (f + 1) 5 len = follow pruned succ 4 f 6 (len + 1) := rfl
theorem step6 (f len : Nat) : follow pruned succ 4 (f + 1) 6 len = follow pruned succ 4 f 5 (len + 1) := rfl

theorem round : ∀ (f len : Nat), follow pruned succ 4 f 5 len = .error .diverge ∧ follow pruned succ 4 f 6 len = .error .diverge
  | 0, _ => ⟨rfl, rfl⟩
  | f + 1, len => by rw [step5, step6]; exact (round f (len + 1)).symm

theorem chains_diverge (f : Nat) : chains f pruned succ [] [.simple 3, .simple 1, .simple 2] = .error .diverge := by
  have h : follow pruned succ 4 f 4 0 = .error .diverge := by
    cases f with
    | zero => rfl
    | succ f => rw [step4]; exact (round f 1).1
  have e : chainsFrom f pruned succ [] 4 = (follow pruned succ 4 f 4 0 >>= fun | none => pure none | some r => pure (some (⟨4, r.1, r.2⟩ :: []))) := rfl
  rw [h] at e
  have e2 : chainsOver f pruned succ [] [1, 2, 4] = (chainsFrom f pruned succ [] 4 >>= fun | none => pure none | some k => chainsOver f pruned succ k []) := rfl
  rw [e] at e2
  have e3 : eachValue pruned (.simple 3) = .ok ([1, 2, 4], none) := by decide +kernel
  rw [chains, e3]
  show (chainsOver f pruned succ [] [1, 2, 4] >>= _) = _
  rw [e2]; rfl

end Hang
end Circuit
end Gcs
