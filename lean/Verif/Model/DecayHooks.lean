import Verif.Model.NumericFns
import Verif.Model.TrainAgent
import Verif.Model.TrainAgentBatch
import Verif.Model.TrainAgentAsync
set_option autoImplicit false

/-!
# Model: the attribute that a `LinearInterpolationHook` sets during training

Source: `chainerrl/experiments/hooks.py:28-58`, the setters of
`examples/mujoco/train_ppo_gym.py:179-190`, `examples/mujoco/train_ppo_batch_gym.py:178-182`,
`examples/atari/train_ppo_ale.py:217-222`, `examples/atari/train_a3c_ale.py:173-177`,
`examples/atari/train_nsq_ale.py:140-144`, `examples/atari/train_acer_ale.py:154-158` and
`examples/atari/reproduction/a3c/train_a3c.py:155-159`.

Simplification: nothing but the hook assigns the attribute during training (true of the
learning rate and the clipping parameter in these scripts), so its value is a function of
the calls that the training loop makes.
-/

namespace Verif.DecayHooks
variable {O A K S : Type}

/-- The hook: its total number of steps, start value, stop value, and its position in
`step_hooks` (hooks.py:48-52). -/
structure Hook (K : Type) where
  totalSteps : Nat
  start : K
  stop : K
  index : Nat

/-- `LinearInterpolationHook.__call__` with the step number `t`: the setter gets the
interpolated value (hooks.py:54-58). -/
def Hook.fire {V : Type} [Field K] [LinearOrder K] (h : Hook K) (setter : K → V) (t : Nat) : V :=
  setter (Numeric.hookValue h.totalSteps h.start h.stop t)

/-- `lr_setter` (train_ppo_gym.py:179-180, train_a3c_ale.py:173-174 and the other scripts):
`agent.optimizer.lr = value` (`alpha` for Adam). -/
def lrSetter (v : K) : K := v

/-- `clip_eps_setter` (train_ppo_gym.py:186-187): `agent.clip_eps = max(value, 1e-8)`. -/
def clipSetter [Field K] [LinearOrder K] (v : K) : K := max v (1 / 100000000)

/-- The attribute after one call of `train_agent` (train_agent.py:51-52, `hook(env, agent, t)`):
only the call of this hook changes it. -/
def onTrain {V : Type} [Field K] [LinearOrder K] {R : Type} (h : Hook K) (setter : K → V) (v : V) :
    Train.Ev O A R S → V
  | .hook i t => if i = h.index then h.fire setter t else v
  | _ => v

/-- The attribute after one call of `train_agent_batch` (train_agent_batch.py:94-95). -/
def onBatch {V : Type} [Field K] [LinearOrder K] {R : Type} (h : Hook K) (setter : K → V) (v : V) :
    TrainBatch.Ev O A R S → V
  | .hook i t => if i = h.index then h.fire setter t else v
  | _ => v

/-- The attribute of the agent of one process after one call of that process in
`train_agent_async` (train_agent_async.py:48-49); every process has its own agent and its own
optimizer object (train_agent_async.py:209-214), so calls of other processes do not count. -/
def onAsync {V : Type} [Field K] [LinearOrder K] {R : Type} (h : Hook K) (setter : K → V) (v : V) :
    TrainAsync.Ev O A R → V
  | .hook i t => if i = h.index then h.fire setter t else v
  | _ => v

end Verif.DecayHooks
