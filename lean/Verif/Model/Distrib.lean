import Mathlib.Analysis.SpecialFunctions.Artanh
import Mathlib.Analysis.SpecialFunctions.Log.Basic
import Mathlib.Analysis.SpecialFunctions.Trigonometric.Basic
import Verif.Model.Py
set_option autoImplicit false

/-! # Model: distributions over actions

`chainerrl/distribution.py`, `chainerrl/functions/mellowmax.py`,
`chainerrl/functions/arctanh.py`, `chainerrl/functions/bound_by_tanh.py`, one batch element at
a time, in exact real arithmetic (no rounding or overflow). -/

namespace Verif.Distrib

open Real

noncomputable section

variable {n : Nat}

/-- `F.softmax` (called in distribution.py:190-197). -/
def softmax (x : Fin n → ℝ) (i : Fin n) : ℝ := exp (x i) / ∑ j, exp (x j)

/-- `F.log_softmax` (called in distribution.py:199-205). -/
def logSoftmax (x : Fin n → ℝ) (i : Fin n) : ℝ := x i - log (∑ j, exp (x j))

/-- A categorical distribution as its subclasses present it: `all_prob`, `all_log_prob`
(distribution.py:133-165). -/
structure Categorical (n : Nat) where
  allProb : Fin n → ℝ
  allLogProb : Fin n → ℝ

/-- `CategoricalDistribution.entropy` (distribution.py:136-139). -/
def Categorical.entropy (d : Categorical n) : ℝ := -∑ i, d.allProb i * d.allLogProb i

/-- `CategoricalDistribution.kl` (distribution.py:163-165). -/
def Categorical.kl (d e : Categorical n) : ℝ := ∑ i, d.allProb i * (d.allLogProb i - e.allLogProb i)

/-- `SoftmaxDistribution.all_prob` (distribution.py:190-197). -/
def softmaxProb (logits : Fin n → ℝ) (beta minProb : ℝ) (i : Fin n) : ℝ :=
  if 0 < minProb then softmax (fun j => beta * logits j) i * (1 - minProb * n) + minProb
  else softmax (fun j => beta * logits j) i

/-- `SoftmaxDistribution.all_log_prob` (distribution.py:199-205). -/
def softmaxLogProb (logits : Fin n → ℝ) (beta minProb : ℝ) (i : Fin n) : ℝ :=
  if 0 < minProb then log (softmaxProb logits beta minProb i)
  else logSoftmax (fun j => beta * logits j) i

/-- `SoftmaxDistribution(logits, beta, min_prob)` (distribution.py:179-184). -/
def softmaxDist (logits : Fin n → ℝ) (beta minProb : ℝ) : Py (Categorical n) :=
  if minProb * n ≤ 1 then .ok ⟨softmaxProb logits beta minProb, softmaxLogProb logits beta minProb⟩
  else .error .assertionError

/-- `mellowmax` (mellowmax.py:7-26). -/
def mellowmax (values : Fin n → ℝ) (omega : ℝ) : ℝ :=
  (log (∑ i, exp (omega * values i)) - log n) / omega

/-- The function whose root is sought (mellowmax.py:59-60). -/
def rootFn (adv : Fin n → ℝ) (y : ℝ) : ℝ := ∑ i, exp (y * adv i) * adv i

/-- Brent's algorithm `scipy.optimize.brentq(f, a, b)`: a root or `ValueError`.  A parameter
of the model; see `BrentOk` in the specification (called in mellowmax.py:62-70). -/
abbrev Brent := (ℝ → ℝ) → ℝ → ℝ → Option ℝ

/-- `beta` of `maximum_entropy_mellowmax` (mellowmax.py:50-70).  As in the code, mellowmax
is computed with its default `omega` whatever `omega` was given (mellowmax.py:50). -/
def maxEntBeta (brent : Brent) (values : Fin n → ℝ) (_omega betaMin betaMax : ℝ) : ℝ :=
  (brent (rootFn fun i => values i - mellowmax values 1) betaMin betaMax).getD 0

/-- `maximum_entropy_mellowmax(values, omega, beta_min, beta_max)` (mellowmax.py:29-72). -/
def maxEnt (brent : Brent) (values : Fin n → ℝ) (omega betaMin betaMax : ℝ) (i : Fin n) : ℝ :=
  softmax (fun j => maxEntBeta brent values omega betaMin betaMax * values j) i

/-- `MellowmaxDistribution(values, omega)` (distribution.py:221-246): `omega` is stored but
not passed on (distribution.py:241). -/
def mellowmaxDist (brent : Brent) (values : Fin n → ℝ) (_omega : ℝ) : Categorical n :=
  ⟨maxEnt brent values 1 (-10) 10, fun i => log (maxEnt brent values 1 (-10) 10 i)⟩

/-- `_eltwise_gaussian_log_likelihood` (distribution.py:267-272). -/
def gaussianLogLikelihood (x mean var lnVar : ℝ) : ℝ :=
  -0.5 * log (2 * π) - 0.5 * lnVar - (x - mean) ^ 2 / (2 * var)

/-- `GaussianDistribution`: mean and variance (distribution.py:278-281). -/
structure Gaussian (n : Nat) where
  mean : Fin n → ℝ
  var : Fin n → ℝ

/-- `ln_var` (distribution.py:281). -/
def Gaussian.lnVar (d : Gaussian n) (i : Fin n) : ℝ := log (d.var i)

/-- `GaussianDistribution.log_prob` (distribution.py:297-300). -/
def Gaussian.logProb (d : Gaussian n) (x : Fin n → ℝ) : ℝ :=
  ∑ i, gaussianLogLikelihood (x i) (d.mean i) (d.var i) (d.lnVar i)

/-- `GaussianDistribution.prob` (distribution.py:294-295). -/
def Gaussian.prob (d : Gaussian n) (x : Fin n → ℝ) : ℝ := exp (d.logProb x)

/-- `GaussianDistribution.entropy` (distribution.py:302-309). -/
def Gaussian.entropy (d : Gaussian n) : ℝ := 0.5 * n * (log (2 * π) + 1) + 0.5 * ∑ i, d.lnVar i

/-- `GaussianDistribution.kl` (distribution.py:315-319). -/
def Gaussian.kl (p q : Gaussian n) : ℝ :=
  0.5 * ∑ i, (q.lnVar i - p.lnVar i + (p.var i + (p.mean i - q.mean i) ^ 2) / q.var i - 1)

/-- `F.softplus` (called in distribution.py:329-333). -/
def softplus (x : ℝ) : ℝ := log (1 + exp x)

/-- `_tanh_forward_log_det_jacobian` (distribution.py:329-333). -/
def tanhLogDet (x : ℝ) : ℝ := 2 * (log 2 - x - softplus (-2 * x))

/-- `SquashedGaussianDistribution.sample_with_log_prob` given the Gaussian draw `x`
(distribution.py:355-361). -/
def squashedSample (d : Gaussian n) (x : Fin n → ℝ) : (Fin n → ℝ) × ℝ :=
  (fun i => tanh (x i),
   ∑ i, (gaussianLogLikelihood (x i) (d.mean i) (d.var i) (d.lnVar i) - tanhLogDet (x i)))

/-- `SquashedGaussianDistribution.log_prob` (distribution.py:373-382). -/
def squashedLogProb (d : Gaussian n) (x : Fin n → ℝ) : ℝ :=
  ∑ i, (gaussianLogLikelihood (artanh (x i)) (d.mean i) (d.var i) (d.lnVar i) - tanhLogDet (artanh (x i)))

/-- `bound_by_tanh` (bound_by_tanh.py:6-23). -/
def boundByTanh (x low high : Fin n → ℝ) (i : Fin n) : ℝ :=
  tanh (x i) * ((high i - low i) / 2) + (high i + low i) / 2

end

end Verif.Distrib
