import Mathlib.Analysis.SpecialFunctions.Log.Basic
set_option autoImplicit false

/-! # Model: the losses of SoftActorCritic and TD3

`chainerrl/agents/soft_actor_critic.py` and `chainerrl/agents/td3.py`, over the reals.  The
targets `target_q` are in `Model/Targets.lean`, the order of the updates in
`Model/ActorCritic.lean`.  Arrays are given row by row.  Not modelled: optimizers, records. -/

namespace Verif.SAC

/-- `F.mean` of a non-empty array (called in soft_actor_critic.py:247, 265, td3.py:224). -/
noncomputable def mean (xs : List ℝ) : ℝ := xs.sum / xs.length

/-- `TemperatureHolder.__call__` (soft_actor_critic.py:36-38). -/
noncomputable def holderCall (logTemperature : ℝ) : ℝ := Real.exp logTemperature

/-- `initial_log_temperature` (soft_actor_critic.py:155-156; 30-34). -/
noncomputable def initialLogTemperature (initialTemperature : ℝ) : ℝ := Real.log initialTemperature

/-- The property `temperature` (soft_actor_critic.py:184-190). -/
noncomputable def temperature (entropyTarget : Option ℝ) (initialTemperature logTemperature : ℝ) : ℝ :=
  match entropyTarget with
  | none => initialTemperature
  | some _ => holderCall logTemperature

/-- The loss of `update_temperature(log_prob)` (soft_actor_critic.py:245-250). -/
noncomputable def temperatureLoss (logProbs : List ℝ) (entropyTarget logTemperature : ℝ) : ℝ :=
  -mean (logProbs.map fun lp => holderCall logTemperature * (lp + entropyTarget))

/-- One row of the policy loss: log probability and the two Q-values of the sampled action
(soft_actor_critic.py:252-265). -/
structure Row where
  logProb : ℝ
  q1 : ℝ
  q2 : ℝ

/-- The loss of `update_policy_and_temperature(batch)` (soft_actor_critic.py:257-265). -/
noncomputable def policyLoss (temp : ℝ) (rows : List Row) : ℝ :=
  mean (rows.map fun r => temp * r.logProb - min r.q1 r.q2)

/-- `F.mean_squared_error` of non-empty arrays (called in soft_actor_critic.py:233-234, td3.py:203-204). -/
noncomputable def mse (xs ys : List ℝ) : ℝ := mean (List.zipWith (fun x y => (x - y) ^ 2) xs ys)

/-- `loss1`, `loss2` of SoftActorCritic (soft_actor_critic.py:230-234). -/
noncomputable def qLoss (targets predictions : List ℝ) : ℝ := 0.5 * mse targets predictions

/-- `loss1`, `loss2` of TD3 (td3.py:200-204). -/
noncomputable def td3QLoss (targets predictions : List ℝ) : ℝ := mse targets predictions

/-- The policy loss of TD3 (td3.py:215-224); also that of DDPG, the sum of the Q-values divided by the batch size (ddpg.py:225-245). -/
noncomputable def td3PolicyLoss (q1s : List ℝ) : ℝ := -mean q1s

/-- `xp.clip` (called in td3.py:26-29). -/
noncomputable def clip (x lo hi : ℝ) : ℝ := min (max x lo) hi

/-- `default_target_policy_smoothing_func` (td3.py:23-29) on one entry, with the normal random
number it draws. -/
noncomputable def smooth (action normal : ℝ) : ℝ := clip (action + clip (0.2 * normal) (-0.5) 0.5) (-1) 1

end Verif.SAC
