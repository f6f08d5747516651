import Verif.Model.TrainBatchCalls
import Verif.Spec.TrainBatchDQN
import Verif.Spec.A2C
set_option autoImplicit false

/-!
# Specification for C124: an agent's calls as rounds

A round is one decision for each environment and its outcome (`DQN.EnvRound` for each
environment); the record of an environment is that of `Spec/TrainBatchDQN.lean`.
-/

namespace Verif.TrainBatchCalls
open DQN (EnvStep EnvRound)
variable {θ O A R S K : Type}

/-- The calls of a round. -/
def roundCalls (r : List (EnvRound θ O A R)) : List (Call O A R) :=
  [.act (r.map (·.obs)) (r.map (·.action)), .observe (r.map (·.nextObs)) (r.map (·.reward)) (r.map (·.done)) (r.map (·.reset))]

/-- Whole rounds, followed perhaps by a decision whose outcome is not known yet. -/
def history (rounds : List (List (EnvRound θ O A R))) (pending : Option (List O × List A)) : List (Call O A R) :=
  rounds.flatMap roundCalls ++ (pending.map fun p => Call.act p.1 p.2).toList

/-- What environment `i` did in the rounds. -/
def column (i : Nat) (rounds : List (List (EnvRound θ O A R))) : List (EnvRound θ O A R) := rounds.filterMap (·[i]?)

/-- The environment step of a round. -/
def step (e : EnvRound θ O A R) : EnvStep O A R := ⟨e.obs, e.action, e.reward, e.nextObs, e.done⟩

/-- The episodes of one environment: the finished ones, which end where `done` or `reset` is set, and the current one. -/
def episodes (l : List (EnvRound θ O A R)) : List (List (EnvStep O A R)) × List (EnvStep O A R) :=
  l.foldl (fun x e => if e.done = true ∨ e.reset = true then (x.1 ++ [x.2 ++ [step e]], []) else (x.1, x.2 ++ [step e])) ([], [])

/-- The actions chosen in a run. -/
def chosen (evs : List (TrainBatch.Ev O A R S)) : List A :=
  evs.flatMap fun
    | .act _ a => a
    | _ => []

/-- A round of one environment as A2C sees it; `value k o` is the value of observation `o` in round `k`. -/
def a2cSteps (value : Nat → O → K) : Nat → List (EnvRound θ O A K) → List (A2C.Step K)
  | _, [] => []
  | k, e :: l => ⟨value k e.obs, e.reward, e.done, e.reset, value k e.nextObs⟩ :: a2cSteps value (k + 1) l

/-- The first `m * n` items, cut into `m` pieces of `n`. -/
def chunks {α : Type} (n : Nat) (l : List α) : List (List α) := (List.range (l.length / n)).map fun j => (l.drop (j * n)).take n

end Verif.TrainBatchCalls
