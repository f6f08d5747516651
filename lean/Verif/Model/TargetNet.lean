import Mathlib.Data.Real.Sqrt
set_option autoImplicit false

/-!
# Model of target networks: mode of evaluation and synchronisation

`chainerrl/agents/dqn.py` (with its subclasses), `ddpg.py`, `pgt.py`, `td3.py` and `soft_actor_critic.py`.  When they synchronise is the
subject of C43, C71, C78 and C105; here it is any moment.  All target networks of an agent are taken together as one network.

A network has parameters (`ι → ℝ`) and persistent statistics (`κ → ℝ`, the running means and variances of batch normalisation).
Applied to a batch it returns a row per input; in training mode it may also change its statistics.
-/

namespace Verif.TargetNet

variable {ι κ X Y : Type}

/-- A network's class: its forward computation with `chainer.config.train`, parameters, statistics and a batch
(the models of dqn.py:135, ddpg.py:29-33). -/
structure Net (ι κ X Y : Type) where
  forward : Bool → (ι → ℝ) → (κ → ℝ) → List X → (κ → ℝ) × List Y

/-- A network object.  `wrapped`: `__call__` was assigned to the object (dqn.py:213-223, ddpg.py:19-26). -/
structure Obj (ι κ : Type) where
  params : ι → ℝ
  stats : κ → ℝ
  wrapped : Bool

/-- `disable_train(chain)` (ddpg.py:19-26, also pgt.py) and dqn.py:217-223: assign a function that switches `train` off to the
attribute `__call__` of the object. -/
def disableTrain (o : Obj ι κ) : Obj ι κ := { o with wrapped := true }

/-- `o(xs)` when `chainer.config.train` is `train`.  Python looks up `__call__` for a call on the type of the object and not on the object
(Language Reference, 3.3.12), so that `wrapped` makes no difference (as in dqn.py:296, ddpg.py:181-189). -/
def call (net : Net ι κ X Y) (train : Bool) (o : Obj ι κ) (xs : List X) : Obj ι κ × List Y :=
  let r := net.forward train o.params o.stats xs
  ({ o with stats := r.1 }, r.2)

/-- dqn.py:213-229, ddpg.py:152-158, pgt.py:124-130, td3.py:159-178, soft_actor_critic.py:192-205. -/
inductive Kind where
  | dqn
  | ddpg
  | pgt
  | td3
  | sac
deriving DecidableEq

/-- The target network's values for the next states of a minibatch, when the program runs in mode `train` (by default training).
DQN (dqn.py:296, 325-328), DDPG (ddpg.py:181-189) and PGT (pgt.py:155-158) only switch off backpropagation;
TD3 (td3.py:190-194) and SAC (soft_actor_critic.py:217-226) also switch to test mode. -/
def targetValues (k : Kind) (net : Net ι κ X Y) (train : Bool) (o : Obj ι κ) (xs : List X) : Obj ι κ × List Y :=
  match k with
  | .dqn | .ddpg | .pgt => call net train o xs
  | .td3 | .sac => call net false o xs

/-- `target_update_method` and `soft_update_tau`; TD3 and SAC always use `soft` (dqn.py:225-229, ddpg.py:152-158). -/
inductive Method where
  | hard
  | soft (tau : ℝ)

/-- `copy_param` and `soft_copy_param` of one array (copy_param.py:14, 35-36), also for statistics (21-22, 43-46). -/
def blend {α : Type} (m : Method) (target online : α → ℝ) : α → ℝ :=
  match m with
  | .hard => online
  | .soft tau => fun i => target i * (1 - tau) + tau * online i

/-- `sync_target_network` (dqn.py:213-229, ddpg.py:152-158, pgt.py:124-130, td3.py:159-178, soft_actor_critic.py:192-205). -/
def sync (m : Method) (target online : Obj ι κ) : Obj ι κ :=
  { target with params := blend m target.params online.params, stats := blend m target.stats online.stats }

/-- dqn.py:213-229, ddpg.py:137-158. -/
structure State (ι κ : Type) where
  online : Obj ι κ
  target : Obj ι κ

/-- `__init__`: the target is a deep copy (dqn.py:216, ddpg.py:137-139, td3.py:148-150, soft_actor_critic.py:174-175), wrapped in DQN, DDPG
and PGT; their first `sync_target_network` (ddpg.py:150, pgt.py:122) does not change it. -/
def init (k : Kind) (params : ι → ℝ) (stats : κ → ℝ) : State ι κ :=
  let o : Obj ι κ := ⟨params, stats, false⟩
  ⟨o, match k with | .dqn | .ddpg | .pgt => disableTrain o | .td3 | .sac => o⟩

/-- What happens: an update from a minibatch with next states `xs`, after which the online network has some new parameters and
statistics; or a synchronisation (dqn.py:231-271, ddpg.py:253-258). -/
inductive Event (ι κ X : Type) where
  | update (xs : List X) (params : ι → ℝ) (stats : κ → ℝ)
  | sync

/-- One event, with the target values it used (dqn.py:213-271, ddpg.py:152-258). -/
def step (k : Kind) (m : Method) (net : Net ι κ X Y) (train : Bool) (s : State ι κ) : Event ι κ X → State ι κ × List Y
  | .update xs params stats =>
    let r := targetValues k net train s.target xs
    (⟨{ s.online with params := params, stats := stats }, r.1⟩, r.2)
  | .sync => (⟨s.online, sync m s.target s.online⟩, [])

/-- A history (iterates dqn.py:213-271, ddpg.py:152-258). -/
def run (k : Kind) (m : Method) (net : Net ι κ X Y) (train : Bool) : State ι κ → List (Event ι κ X) → State ι κ
  | s, [] => s
  | s, e :: l => run k m net train (step k m net train s e).1 l

/-! ## Batch normalisation -/

/-- The mean of a batch (in a batch normalization of the copied models, copy_param.py:4-46). -/
noncomputable def mean (xs : List ℝ) : ℝ := xs.sum / xs.length

/-- The (biased) variance of a batch (in a batch normalization of the copied models, copy_param.py:4-46). -/
noncomputable def variance (xs : List ℝ) : ℝ := (xs.map fun x => (x - mean xs) ^ 2).sum / xs.length

/-- `chainer.links.BatchNormalization` of one number with decay `decay`, as published (chainer v7): in training mode it
normalises with the statistics of the batch and moves the running ones (index `false`: mean, `true`: variance) towards them; in test mode it
normalises with the running ones.  Parameters: `true` is gamma, `false` is beta.  (The factor n/(n-1) of the running variance is left
out.) (in the models copied by copy_param.py:4-46). -/
noncomputable def batchNorm (decay eps : ℝ) : Net Bool Bool ℝ ℝ where
  forward train p st xs :=
    if train then
      (fun b => decay * st b + (1 - decay) * (if b then variance xs else mean xs),
        xs.map fun x => p true * ((x - mean xs) / Real.sqrt (variance xs + eps)) + p false)
    else (st, xs.map fun x => p true * ((x - st false) / Real.sqrt (st true + eps)) + p false)

end Verif.TargetNet
