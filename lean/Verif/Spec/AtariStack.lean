import Verif.Model.Wrappers
import Mathlib.Algebra.BigOperators.Group.List.Basic
set_option autoImplicit false

/-!
# Specification: what the emulated game goes through

An observer at the emulator writes down every reset and every frame with its action and its outcome.
-/

namespace Verif.AtariStack
open Train (StepOut)
open Wrappers (Gym Op Out ends)
variable {S O A K T : Type}

/-- What the observer sees. -/
inductive Raw (O A K : Type) where
  | reset
  | frame (a : A) (out : StepOut O K)

/-- The game with an observer. -/
def logged (g : Gym S O A K) : Gym (S × List (Raw O A K)) O A K where
  reset w := (((g.reset w.1).1, w.2 ++ [.reset]), (g.reset w.1).2)
  step w a := (((g.step w.1 a).1, w.2 ++ [.frame a (g.step w.1 a).2]), (g.step w.1 a).2)

/-- A game is going on: these frames have been played since the last reset and none of them ended it; with a limit it has not been reached. -/
def Running (m : Nat) (log : List (Raw O A K)) (fs : List (A × StepOut O K)) : Prop :=
  (∃ older, log = older ++ .reset :: fs.map fun f => .frame f.1 f.2) ∧ (∀ f ∈ fs, ends f.2 = false) ∧ (m ≠ 0 → fs.length < m)

/-- The game that was played last is over, or the limit has been reached. -/
def Finished (m : Nat) (log : List (Raw O A K)) : Prop :=
  ∃ (older : List (Raw O A K)) (fs : List (A × StepOut O K)) (f : A × StepOut O K),
    log = older ++ .reset :: (fs ++ [f]).map (fun f => .frame f.1 f.2) ∧ (ends f.2 = true ∨ m ≠ 0 ∧ (fs ++ [f]).length = m)

/-- Every frame belongs to a game that has been started and is not over, and no game has more than `m` frames (`m = 0`: no limit). -/
def Legal (m : Nat) (log : List (Raw O A K)) : Prop :=
  ∀ (before after : List (Raw O A K)) (a : A) (out : StepOut O K), log = before ++ .frame a out :: after → ∃ fs, Running m before fs

/-- The game that was played last came to its end (or reached the limit) in a frame with the action `a₀`, and whatever frames followed. -/
def EndedIdle (m : Nat) (a₀ : A) (log : List (Raw O A K)) : Prop :=
  ∃ (before : List (Raw O A K)) (fs : List (A × StepOut O K)) (out : StepOut O K) (rest : List (A × StepOut O K)),
    log = before ++ .frame a₀ out :: rest.map (fun f => .frame f.1 f.2) ∧ Running m before fs ∧ (ends out = true ∨ m ≠ 0 ∧ fs.length + 1 = m)

/-- As `Legal`, but frames may also be played in a game that ended in a frame with the action `a₀`. -/
def LegalBut (m : Nat) (a₀ : A) (log : List (Raw O A K)) : Prop :=
  ∀ (before after : List (Raw O A K)) (a : A) (out : StepOut O K), log = before ++ .frame a out :: after →
    (∃ fs, Running m before fs) ∨ EndedIdle m a₀ before

/-- The caller resets at the start and whenever an episode has ended. -/
def Proper (call : T → Op A → T × Out O K) : T → Bool → List (Op A) → Prop
  | _, _, [] => True
  | t, _, .reset :: ops => Proper call (call t .reset).1 true ops
  | t, playing, .step a :: ops =>
    playing = true ∧
      Proper call (call t (.step a)).1 (match (call t (.step a)).2 with | .step out => !ends out | _ => false) ops

/-- The frames of one step of the agent: between 1 and 4, all with the agent's action; only the last one can end the game. -/
def Played (a : A) (fs : List (StepOut O K)) : Prop :=
  1 ≤ fs.length ∧ fs.length ≤ 4 ∧ (∀ f ∈ fs.dropLast, ends f = false)

end Verif.AtariStack
