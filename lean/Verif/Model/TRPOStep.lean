import Mathlib.Analysis.SpecialFunctions.ExpDeriv
import Mathlib.Analysis.SpecialFunctions.Sqrt
import Verif.Model.TRPO

/-!
Model of the step of TRPO before the line search: `_compute_gain` and `_compute_kl_constrained_step` of
`/repo/chainerrl/agents/trpo.py` (lines 388-393 and 507-553).

Numbers are real.  The gradient of the gain and the product with the Hessian of the KL divergence, which Chainer
computes by backpropagation, are given.
-/

set_option autoImplicit false

namespace Verif.TRPO

/-- `fisher_vector_product_func` (trpo.py:529-531): the product with the Hessian and the
damping. -/
def fisherVectorProduct {n : Nat} (hessian : (Fin n → ℝ) → Fin n → ℝ) (damping : ℝ) (v : Fin n → ℝ) : Fin n → ℝ :=
  hessian v + damping • v

/-- `_compute_kl_constrained_step` (trpo.py:507-553) from the flattened gradient of the gain; the tolerance is the
default of `conjugate_gradient`.  `none`: the result is not a vector of real numbers (NaN, or complex, from the
power `0.5` of a negative number). -/
noncomputable def klStep {n : Nat} (hessian : (Fin n → ℝ) → Fin n → ℝ) (damping maxKl : ℝ) (maxIter : Nat)
    (gainGrad : Fin n → ℝ) : Option (Fin n → ℝ) :=
  match conjugateGradient (fisherVectorProduct hessian damping) gainGrad (1 / 10 ^ 10) maxIter with
  | none => none
  | some direction =>
    let dId := direction ⬝ᵥ fisherVectorProduct hessian damping direction
    if dId + 1 / 10 ^ 8 = 0 ∨ 2 * maxKl / (dId + 1 / 10 ^ 8) < 0 then none
    else some (Real.sqrt (2 * maxKl / (dId + 1 / 10 ^ 8)) • direction)

/-- One transition in `_compute_gain`: new and old log probability of the action, entropy of
the new policy, advantage (trpo.py:388-393). -/
structure GainRow where
  logProb : ℝ
  logProbOld : ℝ
  entropy : ℝ
  adv : ℝ

/-- `F.mean` (called in trpo.py:391-392). -/
noncomputable def mean (xs : List ℝ) : ℝ := xs.sum / xs.length

/-- `_compute_gain` (trpo.py:388-393). -/
noncomputable def computeGain (entropyCoef : ℝ) (rows : List GainRow) : ℝ :=
  mean (rows.map fun r => Real.exp (r.logProb - r.logProbOld) * r.adv) +
    entropyCoef * mean (rows.map GainRow.entropy)

end Verif.TRPO
