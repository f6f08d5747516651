import Mathlib.Analysis.SpecialFunctions.ExpDeriv
import Mathlib.Data.Real.Sqrt
import Verif.Model.Py

/-!
Model of the loss of PPO, `/repo/chainerrl/agents/ppo.py` (lines 559-591), and of the
standardisation of advantages (441-444, 456-457 and, recurrent, 481, 500-501, 545-551), over the real
numbers.  What the neural network computes for a transition is part of the row.
-/

set_option autoImplicit false

namespace Verif.PPOLoss
open Real

/-- What `_lossfun` gets for one transition (ppo.py:559-591). -/
structure Row where
  entropy : ℝ
  vPred : ℝ
  logProb : ℝ
  vPredOld : ℝ
  logProbOld : ℝ
  adv : ℝ
  vTeacher : ℝ

/-- `F.clip` with constant bounds, and `_elementwise_clip` (ppo.py:19-24). -/
noncomputable def clip (x lo hi : ℝ) : ℝ := min (max x lo) hi

/-- `F.mean` of a non-empty array (called in ppo.py:566-580). -/
noncomputable def mean (xs : List ℝ) : ℝ := xs.sum / xs.length

/-- The argument of the mean in the policy loss, for one transition (ppo.py:564-568). -/
noncomputable def surrogate (eps logProb logProbOld adv : ℝ) : ℝ :=
  let probRatio := exp (logProb - logProbOld)
  min (probRatio * adv) (clip probRatio (1 - eps) (1 + eps) * adv)

/-- The value loss of one transition (ppo.py:570-579). -/
noncomputable def valueLoss (epsVf : Option ℝ) (v vOld teacher : ℝ) : ℝ :=
  match epsVf with
  | none => (v - teacher) ^ 2
  | some e => max ((v - teacher) ^ 2) ((clip v (vOld - e) (vOld + e) - teacher) ^ 2)

/-- The attributes of the agent (ppo.py:331-342). -/
structure Args where
  clipEps : ℝ
  clipEpsVf : Option ℝ
  valueCoef : ℝ
  entropyCoef : ℝ

/-- `_lossfun` (ppo.py:559-591). -/
noncomputable def lossfun (c : Args) (rows : List Row) : ℝ :=
  let lossPolicy := -mean (rows.map fun r => surrogate c.clipEps r.logProb r.logProbOld r.adv)
  let lossValue := mean (rows.map fun r => valueLoss c.clipEpsVf r.vPred r.vPredOld r.vTeacher)
  let lossEntropy := -mean (rows.map Row.entropy)
  lossPolicy + c.valueCoef * lossValue + c.entropyCoef * lossEntropy

/-- `xp.std` (called in ppo.py:427-476). -/
noncomputable def std (xs : List ℝ) : ℝ := sqrt (mean (xs.map fun x => (x - mean xs) ^ 2))

/-- Standardised advantages of a dataset (ppo.py:441-444, 456-457; the same in 500-501). -/
noncomputable def standardize (xs : List ℝ) : List ℝ := xs.map fun x => (x - mean xs) / (std xs + 1e-8)

open Classical in
/-- The advantages an update of a recurrent model uses, with the assertion of ppo.py:481. -/
noncomputable def recurrentAdvs (standardized : Bool) (xs : List ℝ) : Py (List ℝ) :=
  if standardized then
    if 0 < std xs then .ok (standardize xs) else .error .assertionError
  else .ok xs

/-- The advantages an update of any other model uses (ppo.py:456-457). -/
noncomputable def plainAdvs (standardized : Bool) (xs : List ℝ) : Py (List ℝ) :=
  if standardized then .ok (standardize xs) else .ok xs

end Verif.PPOLoss
