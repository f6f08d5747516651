import Verif.Model.TrainDQN
import Verif.Model.NStep
import Verif.Model.OnlineReplay
import Verif.Model.A2C
import Verif.Model.CopyParam
import Verif.Model.TrainPrioritized
import Verif.Model.TrainCalls
set_option autoImplicit false

/-!
# Continuing a training run: a new agent that loads a snapshot, and `step_offset`

A snapshot holds the attributes named in `saved_attributes` (`agent.py:92-151`, C31).  To continue at step `T`, a new agent is made, `load` is
called, and the training function is called with `step_offset=T`, which sets `agent.t = T` if the agent has an attribute `t`
(`train_agent.py:34-37`, `train_agent_batch.py:51-53`).  Everything else is as in a new agent.
-/

namespace Verif.Resume

/-- A new `DQN` after `load`: `saved_attributes = ('model', 'target_model', 'optimizer')` (`dqn.py:133`).  (The state of the optimizer is
not part of the model of `DQN`: the parameters after each update are inputs.) -/
def dqn {θ O A H : Type} (model target : θ) : DQN.St θ O A H := { DQN.init model with target := target }

/-- A new `A3C` or `NSQ` (`a3c.py:133-139`, `nsq.py:65-69`) whose `t` the training function has set; `load` (`a3c.py:294-297`,
`nsq.py:184-187`) changes networks and optimizer only. -/
def nstep {X K : Type} (T : Nat) : NStepAgent.St X K := { NStepAgent.St.init with t := T }

/-- A new `ACER` or `PCL` (`acer.py:329-351`, `pcl.py:153-171`) whose `t` the training function has set; `load` (`acer.py:699-702`,
`pcl.py:478-482`) changes networks and optimizer only. -/
def onlineReplay {B O A D R : Type} (T : Nat) (buf : Option B) : OnlineReplay.St B O A D R := { OnlineReplay.St.init buf with t := T }

/-- A new `A2C` (`a2c.py:128-129`) whose `t` the training function has set (`train_agent_batch.py:52-53`). -/
def a2c {K : Type} (T : Nat) : A2C.St K := { A2C.St.init with t := T }

/-- A new `DDPG`, `TD3` or `SoftActorCritic` after `load`, with the replay buffer `b`: among the saved attributes (`ddpg.py:75-78`, `td3.py:71-81`,
`soft_actor_critic.py:83-94`) are the optimizers, whose files hold their counter `t` (`chainer.Optimizer.serialize`, trusted).  (Networks and the other parts of the
optimizers are not part of the model of these agents.) -/
def actorCritic {B O A : Type} (qT polT : Nat) (b : B) : ActorCritic.St B O A := { ActorCritic.init b with qT := qT, polT := polT }

/-- A new `PPO` (`ppo.py:344-355`) or `TRPO` after `load`: `saved_attributes` are networks, optimizer and `obs_normalizer` (`ppo.py:289`, `trpo.py:157`). -/
def ppo {O A R : Type} : PPOData.St O A R := PPOData.St.init

/-- A new `REINFORCE` (`reinforce.py:63-67`) after `load`: `saved_attributes = ['model', 'optimizer']` (`reinforce.py:36`). -/
def reinforce {K : Type} [Field K] : Reinforce.St K := Reinforce.St.init

/-- A new `PrioritizedReplayBuffer` (`prioritized.py:94-102`), `p` from its constructor, that loads a saved one: a file holds only `memory`
(`replay_buffer.py:71-81`, inherited).  The report of updates starts anew. -/
def prioritized {T : Type} (p : PWE) (saved : PBuf (List T) ℝ) : TrainPrioritized.Mem T := ⟨saved, p, []⟩

/-! ## The models of ACER -/

/-- `acer.py:295-302`: the shared model, the average model of the trust region, the process's model, each as one parameter, and the state of the
optimizer. -/
structure AcerNets (K Op : Type) where
  shared : K
  average : K
  model : K
  optimizer : Op

variable {K Op : Type} [Field K]

/-- `acer.py:295-304` `__init__`: two copies of the model. -/
def AcerNets.init (model : K) (optimizer : Op) : AcerNets K Op := ⟨model, model, model, optimizer⟩

/-- `acer.py:476-509` `update`, which leaves the shared model with the parameter `p` and the optimizer with the state `o`, and
`acer.py:353-358` `sync_parameters`. -/
def AcerNets.update (alpha : K) (a : AcerNets K Op) (p : K) (o : Op) : AcerNets K Op :=
  ⟨p, CopyParam.soft (1 - alpha) a.average p, p, o⟩

/-- The attributes in a snapshot: `acer.py:273`. -/
def AcerNets.saved (a : AcerNets K Op) : K × Op := (a.model, a.optimizer)

/-- `acer.py:699-702` `load`. -/
def AcerNets.load (a : AcerNets K Op) (f : K × Op) : AcerNets K Op :=
  let a := { a with model := f.1, optimizer := f.2 }
  { a with shared := a.model }

/-- Some updates (acer.py:353-511). -/
def AcerNets.updates (alpha : K) (a : AcerNets K Op) (l : List (K × Op)) : AcerNets K Op := l.foldl (fun a u => a.update alpha u.1 u.2) a

end Verif.Resume
