import Mathlib.Data.Real.Basic
import Mathlib.Algebra.BigOperators.Fin
import Mathlib.Analysis.SpecialFunctions.Log.Basic
import Verif.Model.Reinforce
import Verif.Model.NStep
import Verif.Model.A2C
set_option autoImplicit false

/-! # Model: the policy losses of A3C, A2C and PGT

Real arithmetic.  What is only a number in the code (`float(advantage.array)`,
`advantages.array`, `chainer.Variable(advantage.array)`) is a number here; log probabilities
and entropies are functions of the parameters, which the caller fills in.  REINFORCE's loss
is in `Model/Reinforce.lean`, the returns in `Model/NStep.lean` and `Model/A2C.lean`.  Not
modelled: the loss of the value function, whose gradient is added (a3c.py:188, 209;
a2c.py:193, 199), and `use_average_reward=True`. -/

namespace Verif.PolicyGradient

/-- `past_action_log_prob[i]`, `past_action_entropy[i]`, `past_values[i]` (a3c.py:250-253). -/
structure Out where
  logp : ℝ
  ent : ℝ
  v : ℝ

/-- The parameters of the policy loss (a3c.py:94-99). -/
structure A3CCfg where
  beta : ℝ
  piLossCoef : ℝ
  keepLossScaleSame : Bool
  normalizeGradByTMax : Bool
  tMax : Nat

/-- The loop (a3c.py:166-186) over the steps with their returns, as `Model/NStep.lean` lists
them. -/
noncomputable def a3cLoop (beta : ℝ) (items : List (Out × ℝ)) : ℝ :=
  items.foldl (fun acc x => acc - x.1.logp * (x.2 - x.1.v) - beta * x.1.ent) 0

/-- `pi_loss` (a3c.py:166-204). -/
noncomputable def a3cPiLoss (c : A3CCfg) (items : List (Out × ℝ)) : ℝ :=
  let l := a3cLoop c.beta items
  let l := if c.piLossCoef ≠ 1 then l * c.piLossCoef else l
  let l := if c.keepLossScaleSame && decide (items.length < c.tMax) then l * (c.tMax / items.length) else l
  if c.normalizeGradByTMax then l / items.length else l

/-- The parameters of A2C's loss (a2c.py:91-97). -/
structure A2CCfg where
  piLossCoef : ℝ
  entropyCoeff : ℝ

/-- `F.mean` over an array with the given columns (called in a2c.py:160-206). -/
noncomputable def mean2 (cols : List (List ℝ)) : ℝ :=
  (cols.map List.sum).sum / (cols.map List.length).sum

/-- `- F.mean(advantages.array * action_log_probs)` (a2c.py:190-195); one list of steps with
`returns[:-1]` for each process. -/
noncomputable def a2cActionLoss (cols : List (List (Out × ℝ))) : ℝ :=
  -mean2 (cols.map fun col => col.map fun x => (x.2 - x.1.v) * x.1.logp)

/-- The part of the loss that belongs to the policy (a2c.py:186, 199-201). -/
noncomputable def a2cPolicyLoss (c : A2CCfg) (cols : List (List (Out × ℝ))) : ℝ :=
  a2cActionLoss cols * c.piLossCoef - mean2 (cols.map fun col => col.map fun x => x.1.ent) * c.entropyCoeff

/-- `compute_actor_loss()` of PGT (pgt.py:179-191) for the sampled actions `acts`; `q` is the
Q-function, `mostProbable` is `pout.most_probable`. -/
noncomputable def pgtActorLoss {S A : Type} {n : Nat} (q : S → A → ℝ) (mostProbable : S → A) (beta : ℝ)
    (states : Fin n → S) (acts : Fin n → A) (logProb : S → A → ℝ) (entropy : S → ℝ) : ℝ :=
  -(∑ i, ((q (states i) (acts i) - q (states i) (mostProbable (states i))) * logProb (states i) (acts i) +
      beta * entropy (states i))) / n

end Verif.PolicyGradient
