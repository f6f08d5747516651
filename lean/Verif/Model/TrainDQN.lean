import Verif.Model.TrainAgent
import Verif.Model.DQN
import Verif.Model.ReplayBuffer
set_option autoImplicit false

/-!
# A training run as a whole: `train_agent`, a `DQN` and its `ReplayBuffer`

The three models are put together: the calls that `train_agent`
(`experiments/train_agent.py:22-84`) makes go to the methods of the agent
(`agents/dqn.py:376-428`, `529-561`), and the calls that the agent makes go to
its replay buffer (`replay_buffers/replay_buffer.py:28-62`).

Inputs from outside are, as in the parts, the environment's answers, the
chosen actions (both in the events of the run) and the parameters `params k`
that the `k`-th call of `update_if_necessary` leaves.
-/

namespace Verif.TrainDQN
variable {θ O A R S H : Type}

/-- What the agent does in a training run whose calls are given
(`train_agent.py:34-35` sets `agent.t`, `:43` calls `act_and_train` and `:53`
`stop_episode_and_train`; all other calls do not concern the agent).  Evaluation
is left out: it leaves the training state of the agent alone (C110).
`k` counts the calls of `act_and_train`. -/
def drive (c : DQN.Cfg θ O H) (params : Nat → θ) : Nat → DQN.St θ O A H → List (Train.Ev O A R S) →
    Py (DQN.St θ O A H × List (DQN.Ev θ O A R H))
  | _, s, [] => pure (s, [])
  | k, s, .setT t :: es => drive c params k { s with t := t } es
  | k, s, .act o r a :: es => do
    let (s, e1) ← c.call s (.act o r (params k) a)
    let (s, e2) ← drive c params (k + 1) s es
    pure (s, e1 ++ e2)
  | k, s, .stop o r d :: es => do
    let (s, e1) ← c.call s (.stop o r d)
    let (s, e2) ← drive c params k s es
    pure (s, e1 ++ e2)
  | k, s, .reset _ :: es => drive c params k s es
  | k, s, .step .. :: es => drive c params k s es
  | k, s, .hook .. :: es => drive c params k s es
  | k, s, .evaluate .. :: es => drive c params k s es
  | k, s, .save .. :: es => drive c params k s es

/-- The calls of the replay buffer (`dqn.py:398`, `558-559`). -/
def bufOps (l : List (DQN.Ev θ O A R H)) : List (NStep.Op Nat (DQN.Rec O A R H)) :=
  l.filterMap fun
    | .append i tr => some (.append i tr)
    | .stopEpisode i => some (.stop i)
    | _ => none

/-- The agent's replay buffer after its events: `ReplayBuffer(capacity, num_steps)`
(replay_buffers/replay_buffer.py:20-62). -/
def buffer (cap : Option Nat) (n : Nat) (l : List (DQN.Ev θ O A R H)) : ReplayBuffer Nat (DQN.Rec O A R H) :=
  (ReplayBuffer.init cap n).run (·.terminal) (bufOps l)

end Verif.TrainDQN
