import Mathlib.Algebra.Order.Field.Basic
import Verif.Model.TrainAgent
import Verif.Model.TrainAgentBatch
import Verif.Model.TrainAgentAsync
set_option autoImplicit false

/-!
# Specification for C164: a straight line from the first step to the last
-/

namespace Verif.DecayHooks
variable {K V O A R S : Type} [Field K] [LinearOrder K]

/-- The value at step `n` on the straight line from `start` at step 1 to `stop` at step `T`;
`stop` from then on. -/
def ramp (T : Nat) (start stop : K) (n : Nat) : K :=
  if T ≤ n then stop else start + (stop - start) * (((n : K) - 1) / ((T : K) - 1))

/-- The points of `train_agent` at which the agent learns: `act_and_train` and
`stop_episode_and_train`. -/
def learnsTrain : Train.Ev O A R S → Bool
  | .act .. | .stop .. => true
  | _ => false

/-- The points of `train_agent_batch` at which the agent acts or learns. -/
def learnsBatch : TrainBatch.Ev O A R S → Bool
  | .act .. | .observe .. => true
  | _ => false

/-- Completed iterations of `train_agent_batch`. -/
def observes : TrainBatch.Ev O A R S → Bool
  | .observe .. => true
  | _ => false

/-- The points of one process of `train_agent_async` at which its agent learns. -/
def learnsAsync : TrainAsync.Ev O A R → Bool
  | .act .. | .stop .. => true
  | _ => false

/-- The global number of the last step of a process. -/
def lastNumber (evs : List (TrainAsync.Ev O A R)) : Option Nat :=
  (evs.filterMap fun | .count n => some n | _ => none).getLast?

end Verif.DecayHooks
