import Verif.Model.TrainAgent
import Verif.Model.ActorCritic
import Verif.Model.ReplayBuffer
import Verif.Model.PPOData
import Verif.Model.Reinforce
set_option autoImplicit false

/-!
# The calls that `train_agent` makes to its agent

`experiments/train_agent.py:22-84` put together with the models of the agents that are
trained with it: DDPG, TD3 and SoftActorCritic with a `ReplayBuffer`
(`replay_buffers/replay_buffer.py:28-62`), PPO (and TRPO, whose book-keeping is the same
code) and REINFORCE.

As in `Model/TrainDQN.lean`, inputs from outside are the environment's answers and the
chosen actions (both in the events of the run), and evaluations are left out: they leave
the training state of the agent alone (C110).
-/

namespace Verif.TrainCalls
variable {O A R S K : Type}

/-- A call of a training method (train_agent.py:44, 57). -/
inductive Call (O A R : Type) where
  | act (obs : O) (reward : R) (action : A)
  | stop (obs : O) (reward : R) (done : Bool)

/-- The calls of `act_and_train` (`train_agent.py:43`), with the action returned, and of
`stop_episode_and_train` (`:53`) among the calls of a run. -/
def calls (evs : List (Train.Ev O A R S)) : List (Call O A R) :=
  evs.filterMap fun
    | .act o r a => some (.act o r a)
    | .stop o r d => some (.stop o r d)
    | _ => none

/-! ## DDPG, TD3, SoftActorCritic -/

/-- `ReplayBuffer` for these agents (replay_buffers/replay_buffer.py:28-68). -/
def replayBuf : ActorCritic.Buf (ReplayBuffer Nat (Transition O A R)) O A R where
  append b e x := NStep.append RAQ.append (·.terminal) b e x
  stop b e := NStep.stop RAQ.append b e
  len b := b.len

/-- The calls as the agents of `Model/ActorCritic.lean` get them: `cands k` are the
actions that the burn-in function and the policy would choose in the `k`-th call (train_agent.py:44, 57). -/
def acCalls (cands : Nat → Bool → A) : Nat → List (Call O A R) → List (ActorCritic.Call O A R)
  | _, [] => []
  | k, .act o r _ :: l => .act o r (cands k) :: acCalls cands (k + 1) l
  | k, .stop o r d :: l => .stop o r d :: acCalls cands k l

/-- The agent, whose `t` is set to `step_offset` before the first of these calls
(`train_agent.py:34-35`), and its buffer `ReplayBuffer(cap, n)` after a part of a run. -/
def driveAC (c : ActorCritic.Args) (cap : Option Nat) (n offset : Nat) (cands : Nat → Bool → A) (evs : List (Train.Ev O A R S)) :
    Py (ActorCritic.St (ReplayBuffer Nat (Transition O A R)) O A × List (ActorCritic.Ev O A R)) :=
  c.run replayBuf { ActorCritic.init (ReplayBuffer.init cap n) with t := offset } (acCalls cands 0 (calls evs))

/-! ## PPO and TRPO -/

/-- The calls as PPO gets them (train_agent.py:44, 57). -/
def ppoCalls (l : List (Call O A R)) : List (PPOData.Call O A R) :=
  l.map fun
    | .act o r a => .act o r a
    | .stop o r d => .stop o r d

/-- PPO with `update_interval = interval`: its state and the datasets of its updates (train_agent.py:41-57). -/
def drivePPO (interval : Nat) (evs : List (Train.Ev O A R S)) : Py (PPOData.St O A R × List (PPOData.Dataset O A R)) :=
  PPOData.run interval PPOData.St.init (ppoCalls (calls evs))

/-! ## REINFORCE -/

/-- The calls as REINFORCE gets them: `logp k` and `ent k` are the log probability of
the action chosen in the `k`-th call and the entropy of the policy (train_agent.py:44, 57). -/
def reinforceCalls (logp ent : Nat → K) : Nat → List (Call O A K) → List (Reinforce.Call K)
  | _, [] => []
  | k, .act _ r _ :: l => .act r (logp k) (ent k) :: reinforceCalls logp ent (k + 1) l
  | k, .stop _ r d :: l => .stop r d :: reinforceCalls logp ent k l

/-- REINFORCE: its state and the losses of its updates (train_agent.py:41-57). -/
def driveReinforce [Field K] (c : Reinforce.Cfg K) (logp ent : Nat → K) (evs : List (Train.Ev O A K S)) : Py (Reinforce.St K × List K) :=
  Reinforce.run c Reinforce.St.init (reinforceCalls logp ent 0 (calls evs))

end Verif.TrainCalls
