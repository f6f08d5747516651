import Mathlib.Analysis.SpecialFunctions.Log.Basic
import Mathlib.Data.EReal.Basic
import Mathlib.Data.List.FinRange
set_option autoImplicit false

/-!
# Model of sampling from distributions (`chainerrl/distribution.py`)

Real numbers; the random numbers are arguments: numbers in the open unit interval for numpy's `gumbel`, standard normal
numbers for Chainer's `gaussian`.
-/

namespace Verif.Sampling

noncomputable section

/-- `xp.random.gumbel()` from a number in (0, 1): line 38 (numpy computes `-log(-log(u))`). -/
def gumbel (u : ℝ) : ℝ := -Real.log (-Real.log u)

/-- Line 38: `xp.log(p) + gumbel`, minus infinity for `p = 0` (distribution.py:38). -/
def score (p g : ℝ) : EReal := if p = 0 then ⊥ else ((Real.log p + g : ℝ) : EReal)

/-- Line 37: numpy's `argmax` of a row, the first of the greatest (distribution.py:37). -/
def argmax {n : Nat} (s : Fin (n + 1) → EReal) : Fin (n + 1) :=
  (List.finRange (n + 1)).foldl (fun b j => if s b < s j then j else b) 0

/-- A row of `sample_discrete_actions(batch_probs)`: lines 28-39. -/
def sampleRow {n : Nat} (p : Fin (n + 1) → ℝ) (u : Fin (n + 1) → ℝ) : Fin (n + 1) :=
  argmax fun j => score (p j) (gumbel (u j))

/-- `sample_discrete_actions(batch_probs)`: lines 28-39; also `CategoricalDistribution.sample` (lines 146-147). -/
def sampleDiscrete {m n : Nat} (p : Fin m → Fin (n + 1) → ℝ) (u : Fin m → Fin (n + 1) → ℝ) : Fin m → Fin (n + 1) :=
  fun k => sampleRow (p k) (u k)

/-- `F.gaussian(mean, ln_var)` with the standard normal number `z`: Chainer computes `mean + exp(ln_var / 2) * z`
(called in distribution.py:291-292, 355-368). -/
def gaussian (mean lnVar z : ℝ) : ℝ := mean + Real.exp (lnVar / 2) * z

/-- `GaussianDistribution.sample` (lines 280-282, 291-292), one component. -/
def sampleGaussian (mean var z : ℝ) : ℝ := gaussian mean (Real.log var) z

/-- `ContinuousDeterministicDistribution.sample` (lines 411-413, 422-423). -/
def sampleDeterministic {α : Type} (x : α) : α := x

end

end Verif.Sampling
