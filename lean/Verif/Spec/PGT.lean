import Verif.Model.PGT
import Verif.Spec.ActorCritic
import Verif.Spec.Targets
set_option autoImplicit false

/-! # Specification: how PGT is driven (C105) -/

namespace Verif.PGT
open ActorCritic
variable {O A R K : Type}

/-- Training is a sequence of episodes and evaluations; an evaluation is a sequence of
evaluation episodes, each given by the Q-values of its actions. -/
inductive Phase (O A R K : Type) where
  | episode (e : DQN.Episode K O A R)
  | evaluation (runs : List (List K))

/-- A decision of a training episode. -/
def turnCall (t : DQN.Turn K O A R) : Call O A R K := .actAndTrain t.obs t.reward t.params t.action

/-- The calls of `train_agent` and of the evaluator. -/
def Phase.calls : Phase O A R K → List (Call O A R K)
  | .episode e => e.turns.map turnCall ++ [.stopAndTrain e.finalObs e.finalReward e.done]
  | .evaluation runs => runs.flatMap fun qs => qs.map .act ++ [.stop]

/-- What the replay buffer is told: the environment's steps and the end of the episode; during an
evaluation only the (empty) end of an episode. -/
def Phase.told : Phase O A R K → List (DQN.BufCall O A R)
  | .episode e => e.steps.map (.append 0) ++ [.stop 0]
  | .evaluation runs => runs.map fun _ => .stop 0

/-- The actions of the training episodes. -/
def Phase.actions : Phase O A R K → List A
  | .episode e => e.turns.map (·.action)
  | .evaluation _ => []

/-- The number of training decisions among calls. -/
def decisions (l : List (Call O A R K)) : Nat := l.countP fun | .actAndTrain .. => true | _ => false

/-- The Q-values of all actions, of training and evaluation. -/
def qValues (l : List (Call O A R K)) : List K :=
  l.filterMap fun | .actAndTrain _ _ q _ => some q | .act q => some q | _ => none

end Verif.PGT
