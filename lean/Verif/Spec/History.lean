import Verif.Model.State

/-!
# Histories of `State` operations

Specification: what a client of `State` may do between taking a timestamp and backtracking to it. Timestamps taken in the meantime can be used for nested
backtracks as long as they have not been backtracked past.
-/

namespace Gcs

/-- One operation. `backtrack k` uses the `k`-th most recent timestamp still open. -/
inductive Op (σ κ : Type) where
  | infer (l : Lit)
  | guess (l : Lit)
  | allocate (lo hi : Int)
  | addExtra (l : Lit)
  | onBacktrack (k : κ)
  | addConstraintState (c : σ)
  | setConstraintState (h : Nat) (c : σ)
  | newEpoch (subsearch : Bool)
  | backtrack (k : Nat)

/-- State, open timestamps (newest first), callbacks registered so far and callbacks run so far. -/
structure Hist (σ κ : Type) where
  st : State σ κ
  openTs : List Timestamp
  registered : List κ
  ran : List κ

variable {σ κ : Type}

def Hist.step (h : Hist σ κ) : Op σ κ → Chk (Hist σ κ)
  | .infer l => do return { h with st := (← h.st.infer l).2 }
  | .guess l => do return { h with st := ← h.st.guess l }
  | .allocate lo hi => do return { h with st := (← h.st.allocate lo hi).2 }
  | .addExtra l => .ok { h with st := h.st.addExtra l }
  | .onBacktrack k => do return { h with st := ← h.st.onBacktrack k, registered := h.registered ++ [k] }
  | .addConstraintState c => do return { h with st := (← h.st.addConstraintState c).2 }
  | .setConstraintState i c => do return { h with st := ← h.st.setConstraintState i c }
  | .newEpoch sub => do
    let r ← h.st.newEpoch sub
    return { h with st := r.2, openTs := r.1 :: h.openTs }
  | .backtrack k =>
    match h.openTs.drop k with
    | [] => .ok h
    | t :: rest => do
      let r ← h.st.backtrack t
      return { h with st := r.1, openTs := rest, ran := h.ran ++ r.2 }

def Hist.run (h : Hist σ κ) : List (Op σ κ) → Chk (Hist σ κ)
  | [] => .ok h
  | o :: os => do (← h.step o).run os

end Gcs
