import Verif.Model.TrainAgentBatch
import Verif.Model.TrainCalls
import Verif.Model.A2C
set_option autoImplicit false

/-!
# The calls that `train_agent_batch` makes to its agent

`experiments/train_agent_batch.py:12-133` put together with the models of the agents
that can be trained with it: DDPG, TD3 and SoftActorCritic with a `ReplayBuffer`
(`replay_buffers/replay_buffer.py:28-62`), PPO (and TRPO, whose book-keeping is the same
code) and A2C.  (`DQN` is in `Model/TrainBatchDQN.lean`.)

Inputs from outside are the answers of the vector environment and the chosen actions
(both in the events of the run).  Evaluations are left out: they leave the training
state of the agent alone (C110).
-/

namespace Verif.TrainBatchCalls
variable {O A R S K : Type}

/-- A call of a training method (train_agent_batch.py:58, 72). -/
inductive Call (O A R : Type) where
  | act (obss : List O) (actions : List A)
  | observe (obss : List O) (rewards : List R) (dones resets : List Bool)

/-- The calls of `batch_act_and_train` (`train_agent_batch.py:58`), with the actions
returned, and of `batch_observe_and_train` (`:73`) among the calls of a run. -/
def calls (evs : List (TrainBatch.Ev O A R S)) : List (Call O A R) :=
  evs.filterMap fun
    | .act o a => some (.act o a)
    | .observe o r d z => some (.observe o r d z)
    | _ => none

/-! ## DDPG, TD3, SoftActorCritic -/

/-- The calls as the agents of `Model/ActorCritic.lean` get them: `cands k i` are the
actions that the burn-in function and the policy would choose for environment `i` in
the `k`-th round (train_agent_batch.py:58, 72). -/
def acCalls (cands : Nat → Nat → Bool → A) : Nat → List (Call O A R) → List (ActorCritic.Call O A R)
  | _, [] => []
  | k, .act o _ :: l => .batchAct o ((List.range o.length).map (cands k)) :: acCalls cands k l
  | k, .observe o r d z :: l => .batchObserve ⟨o, r, d, z⟩ :: acCalls cands (k + 1) l

/-- The agent, whose `t` is set to `step_offset` before the first of these calls
(`train_agent_batch.py:52-53`), and its buffer `ReplayBuffer(cap, n)` after a part of a run. -/
def driveAC (c : ActorCritic.Args) (cap : Option Nat) (n offset : Nat) (cands : Nat → Nat → Bool → A) (evs : List (TrainBatch.Ev O A R S)) :
    Py (ActorCritic.St (ReplayBuffer Nat (Transition O A R)) O A × List (ActorCritic.Ev O A R)) :=
  c.run TrainCalls.replayBuf { ActorCritic.init (ReplayBuffer.init cap n) with t := offset } (acCalls cands 0 (calls evs))

/-! ## PPO and TRPO -/

/-- The calls as PPO gets them; it goes through the lists with `zip` (`agents/ppo.py:714-745`, `:758-807`). -/
def ppoCalls (l : List (Call O A R)) : List (PPOData.Call O A R) :=
  l.map fun
    | .act o a => .batchAct (o.zip a)
    | .observe o r d z => .batchObserve (o.zip (r.zip (d.zip z)))

/-- PPO with `update_interval = interval`: its state and the datasets of its updates (train_agent_batch.py:51-72). -/
def drivePPO (interval : Nat) (evs : List (TrainBatch.Ev O A R S)) : Py (PPOData.St O A R × List (PPOData.Dataset O A R)) :=
  PPOData.run interval PPOData.St.init (ppoCalls (calls evs))

/-! ## A2C -/

/-- The calls as the storage of A2C gets them, in the column of environment `i`
(`agents/a2c.py:208-272`): `value k o` is the value that the model gives to observation
`o` in the `k`-th round.  The second value of a call of `batch_act_and_train` is for an
update in this call (`:231-232`), which uses the same observation (`:229`). -/
def a2cCalls (i : Nat) (value : Nat → O → K) : Nat → List (Call O A K) → List (A2C.Call K)
  | _, [] => []
  | k, .act o _ :: l =>
    (match o[i]? with
      | some x => [.act (value k x) (value k x)]
      | none => []) ++ a2cCalls i value k l
  | k, .observe o r d z :: l =>
    (match o[i]?, r[i]?, d[i]?, z[i]? with
      | some x, some r, some d, some z => [.observe r d z (value k x)]
      | _, _, _, _ => []) ++ a2cCalls i value (k + 1) l

/-- A2C with `update_steps = n`, column of environment `i`: its state and the returns
of its updates.  `train_agent_batch.py:52-53` sets `t` to `step_offset` before the
first call. -/
def driveA2C [Ring K] (gamma : K) (tau : Option K) (n offset i : Nat) (value : Nat → O → K) (evs : List (TrainBatch.Ev O A K S)) :
    Py (A2C.St K × List (List K)) :=
  A2C.run gamma tau n { A2C.St.init with t := offset } (a2cCalls i value 0 (calls evs))

end Verif.TrainBatchCalls
