import Verif.Model.TrainAgentBatch
import Verif.Model.TrainDQN
set_option autoImplicit false

/-!
# A vectorised training run as a whole: `train_agent_batch`, a `DQN` and its `ReplayBuffer`

As `Model/TrainDQN.lean`, for `experiments/train_agent_batch.py:12-133`,
`agents/dqn.py:444-515` and `replay_buffers/replay_buffer.py:28-62`.
`params k i` are the parameters after the update for environment `i` in the
`k`-th call of `batch_observe_and_train`.
-/

namespace Verif.TrainBatchDQN
variable {θ O A R S H : Type}

/-- The calls of the agent among the calls of a run: `train_agent_batch.py:52-53`
sets `agent.t`, `:58` calls `batch_act_and_train` and `:73` `batch_observe_and_train`.
The state is the number of `batch_observe_and_train` calls, the agent and its
events so far. -/
def driveStep (c : DQN.Cfg θ O H) (params : Nat → Nat → θ) (x : Nat × DQN.St θ O A H × List (DQN.Ev θ O A R H)) :
    TrainBatch.Ev O A R S → Py (Nat × DQN.St θ O A H × List (DQN.Ev θ O A R H))
  | .setT t => .ok (x.1, { x.2.1 with t := t }, x.2.2)
  | .act obss actions => do
    let r ← c.call x.2.1 (.batchAct obss actions)
    pure (x.1, r.1, x.2.2 ++ r.2)
  | .observe obss rs dones resets => do
    let r ← c.call x.2.1 (.batchObserve ⟨obss, rs, dones, resets, (List.range obss.length).map (params x.1)⟩)
    pure (x.1 + 1, r.1, x.2.2 ++ r.2)
  | _ => .ok x

/-- What the agent does in a run whose calls are given (train_agent_batch.py:51-72). -/
def drive (c : DQN.Cfg θ O H) (params : Nat → Nat → θ) (s : DQN.St θ O A H) (evs : List (TrainBatch.Ev O A R S)) :
    Py (Nat × DQN.St θ O A H × List (DQN.Ev θ O A R H)) :=
  evs.foldlM (driveStep c params) (0, s, [])

end Verif.TrainBatchDQN
