import Verif.Model.ActorCritic
import Verif.Model.BatchRunEval
import Verif.Model.NStep
import Verif.Model.Py
import Verif.Model.ReplayBuffer
import Verif.Model.VectorEnv
set_option autoImplicit false

/-!
# Model of the evaluation methods of the agents, between calls of the training methods

`act`, `batch_act`, `batch_observe` and `stop_episode` of `chainerrl/agents/dqn.py`, `ppo.py`,
`trpo.py`, `ddpg.py`, `td3.py`, `soft_actor_critic.py`, `pgt.py`, `a3c.py`, `nsq.py`, `pcl.py`,
`acer.py`, `reinforce.py`, and the choice of the evaluation environment in
`chainerrl/experiments/train_agent_batch.py`.

The network is a function of the parameters, the row of recurrent state and the observation
of one environment (see C80 for why rows do not mix); what it returns is the row `Y` of
action values or of the action distribution.  The draw of an action from `Y` uses numpy's
global random numbers, which are not part of the model.
-/

namespace Verif.EvalCalls

/-! ## Agents with separate recurrent states for evaluation: DQN and its subclasses, PPO, TRPO -/

/-- A call of an evaluation method
(`act`, `stop_episode`, `batch_act`, `batch_observe`: agent.py:34-41, 52-59, 171-181, 195-212). -/
inductive ECall (O : Type) where
  | act (obs : O)
  | batchAct (obss : List O)
  | batchObserve (dones resets : List Bool)
  | stopEpisode

/-- An agent: `recurrent` is the constructor argument, `params` gives the parameters that
`model` (and `obs_normalizer`) have in a training state, `net` is the model on one row, `zero` the initial row of the recurrent
state.  The training methods are arbitrary functions of the training state (all attributes
except the test recurrent state and the averages that are only reported); `clears` tells which
of them call `stop_episode` (`ppo.py:686`, `trpo.py:745`). -/
structure Agent (T Q C B P O Y H : Type) where
  recurrent : Bool
  params : T → P
  net : P → H → O → H × Y
  zero : H
  train : T → C → Py (T × B)
  clears : C → Bool
  trainStats : T → C → Q → Q
  actStats : Y → Q → Q

/-- The attributes: training state, reported averages, `test_recurrent_states` (as in dqn.py:195-203). -/
structure St (T Q H : Type) where
  train : T
  stats : Q
  test : Option (List H)

variable {T Q C B P O Y H : Type}

/-- `self.model(batch_xs, self.test_recurrent_states)` with a recurrent model: `None` stands for
initial rows, and the number of rows has to be that of the batch (`stateless_recurrent_chainer_links`
and `dqn.py:434-436`). -/
def forward (net : H → O → H × Y) (zero : H) (rs : Option (List H)) (obss : List O) :
    Py (List Y × List H) :=
  let rows := rs.getD (List.replicate obss.length zero)
  if rows.length = obss.length then
    .ok ((List.zipWith net rows obss).map (·.2), (List.zipWith net rows obss).map (·.1))
  else .error .valueError

/-- `_evaluate_model_and_update_recurrent_states(batch_obs, test=True)` (`dqn.py:431-443`);
`ppo.py:642-652`, `694-705`; `trpo.py:701-711`, `754-764`. -/
def Agent.evaluate (c : Agent T Q C B P O Y H) (s : St T Q H) (obss : List O) :
    Py (List Y × Option (List H)) :=
  if c.recurrent then do
    let r ← forward (c.net (c.params s.train)) c.zero s.test obss
    pure (r.1, some r.2)
  else pure (obss.map fun o => (c.net (c.params s.train) c.zero o).2, s.test)

/-- `_batch_reset_recurrent_states_when_episodes_end` (`dqn.py:75-95`) and
`mask_recurrent_state_at`: the rows of the environments whose episode ended are initial again. -/
def mask (zero : H) (ends : List Bool) (rs : Option (List H)) : Option (List H) :=
  rs.map fun rows => rows.mapIdx fun i r => if ends[i]? = some true then zero else r

/-- The evaluation methods: `act` (`dqn.py:361-374`, `ppo.py:640-660`), `batch_act`
(`dqn.py:469-474`, `ppo.py:693-712`), `batch_observe` (`dqn.py:517-527`, `ppo.py:747-756`, `trpo.py:806-815`),
`stop_episode` (`dqn.py:563-565`, `ppo.py:690-691`, `trpo.py:749-750`, which does not test `recurrent`; without
recurrence the attribute is `None` anyway). -/
def Agent.evalCall (c : Agent T Q C B P O Y H) (s : St T Q H) : ECall O → Py (St T Q H × List Y)
  | .act obs => do
    let r ← c.evaluate s [obs]
    pure (⟨s.train, r.1.foldl (fun q y => c.actStats y q) s.stats, r.2⟩, r.1)
  | .batchAct obss => do
    let r ← c.evaluate s obss
    pure (⟨s.train, s.stats, r.2⟩, r.1)
  | .batchObserve dones resets =>
    if c.recurrent then
      pure (⟨s.train, s.stats, mask c.zero (List.zipWith (· || ·) dones resets) s.test⟩, [])
    else pure (s, [])
  | .stopEpisode => pure (if c.recurrent then ⟨s.train, s.stats, none⟩ else s, [])

/-- A call of any method (agent.py:25-59, 171-230). -/
inductive Call (C O : Type) where
  | train (c : C)
  | eval (c : ECall O)

/-- What a call returns (agent.py:25-41, 171-193). -/
inductive Res (B Y : Type) where
  | train (b : B)
  | eval (ys : List Y)

/-- One call (agent.py:25-59, 171-230). -/
def Agent.call (c : Agent T Q C B P O Y H) (s : St T Q H) : Call C O → Py (St T Q H × Res B Y)
  | .train x => do
    let r ← c.train s.train x
    pure (⟨r.1, c.trainStats s.train x s.stats, if c.clears x then none else s.test⟩, .train r.2)
  | .eval x => do
    let r ← c.evalCall s x
    pure (r.1, .eval r.2)

/-- A history of calls (iterates agent.py:25-59, 171-230). -/
def Agent.run (c : Agent T Q C B P O Y H) : St T Q H → List (Call C O) → Py (St T Q H × List (Res B Y))
  | s, [] => pure (s, [])
  | s, x :: xs => do
    let r ← c.call s x
    let r' ← c.run r.1 xs
    pure (r'.1, r.2 :: r'.2)

/-! ## The calls that the evaluators make -/

/-- The calls on the agent in a run of `run_evaluation_episodes` (`evaluator.py:53-77`). -/
def ofSingle {A K : Type} : RunEval.Ev O A K → Option (ECall O)
  | .act obs _ => some (.act obs)
  | .stop => some .stopEpisode
  | _ => none

/-- The calls on the agent in a run of `batch_run_evaluation_episodes` (`evaluator.py:131-209`). -/
def ofBatch {A K : Type} : BatchRunEval.Ev O A K → Option (ECall O)
  | .act obss _ => some (.batchAct obss)
  | .observe _ _ dones resets => some (.batchObserve dones resets)
  | _ => none

/-! ## Agents without separate states: DDPG, TD3, SoftActorCritic -/

/-- `stop_episode()` of DDPG, TD3 and SoftActorCritic (`ddpg.py:457-462`, `td3.py:355-358`,
`soft_actor_critic.py:403-406`; `pgt.py:267-272` is in `Model/PGT.lean`); `stop_current_episode()` has the default `env_id=0`.  The
recurrent state of DDPG's model is in `Rnn` below. -/
def acStop {Bf R A : Type} (b : ActorCritic.Buf Bf O A R) (s : ActorCritic.St Bf O A) :
    ActorCritic.St Bf O A :=
  { s with lastState := none, lastAction := none, buf := b.stop s.buf 0 }

/-- One evaluation call: `act` (`ddpg.py:333-348`, `td3.py:275-285`,
`soft_actor_critic.py:332-338`) changes only the reported averages; `batch_act` likewise and
`batch_observe` is `pass` (`ddpg.py:437-439`, `td3.py:335-337`, `soft_actor_critic.py:383-385`). -/
def acEval {Bf R A : Type} (b : ActorCritic.Buf Bf O A R) (s : ActorCritic.St Bf O A) :
    ECall O → ActorCritic.St Bf O A
  | .stopEpisode => acStop b s
  | _ => s

/-! ## Agents with one stateful recurrent model: A3C, ACER, NSQ, PCL, REINFORCE -/

/-- `self.model` keeps its recurrent state itself; `rest` are the other attributes (as in a3c.py:269-292). -/
structure Rnn (H S : Type) where
  hidden : H
  rest : S

/-- `act(obs)` advances the recurrent state (`a3c.py:269-277`, `acer.py:651-659`,
`nsq.py:159-163`, `pcl.py:431-440`, `reinforce.py:95-103`), and `stop_episode()` calls
`reset_state` (`a3c.py:290-292`, `acer.py:694-697`, `nsq.py:178-182`, `pcl.py:474-476`,
`reinforce.py:173-175`).  These agents have no batch methods. -/
def rnnEval {S : Type} (next : H → O → H) (zero : H) (s : Rnn H S) : ECall O → Rnn H S
  | .act obs => { s with hidden := next s.hidden obs }
  | .stopEpisode => { s with hidden := zero }
  | _ => s

/-! ## The environment used for evaluation -/

/-- `train_agent_batch.py:189-190` `train_agent_batch_with_evaluation`: whether the evaluator
works on the training environment itself. -/
def sharedEnv {E : Type} (evalEnv : Option E) : Bool := evalEnv.isNone

/-- The training environment in one pass of `train_agent_batch` (`train_agent_batch.py:57-122`):
`env.step(actions)`, the calls of an evaluation if it works on the same environment, and
`env.reset(not_end)`.  Returned: what the agent is told in `batch_observe_and_train` and what it is
given in the next `batch_act_and_train`. -/
def envPass {S A I : Type} (dyn : VectorEnv.Env S O A I) (v : VectorEnv.Serial S O) (actions : List A)
    (evaluation : List (VectorEnv.Op A)) (shared : Bool) (ends : List Bool) :
    List (Option O) × List (Option O) :=
  let v1 := (v.step dyn actions).1
  let v2 := if shared then (VectorEnv.Serial.run dyn v1 evaluation).1 else v1
  let v3 := (v2.reset dyn (some (ends.map not))).1
  (v1.last, v3.last)

end Verif.EvalCalls
