import Mathlib.Analysis.SpecialFunctions.Pow.NNReal
import Mathlib.Data.Real.Sqrt

/-!
Model of the optimizer and the optimizer hook of ChainerRL, `/repo/chainerrl/optimizers/`, over the
real numbers.  Arrays are functions from an index type.  The CPU versions are here, the
GPU kernels in `Model/Gpu.lean`.  Chainer's own loop over the parameters of a model is not modelled: a
function here is called with one parameter, as Chainer does.
-/

set_option autoImplicit false

namespace Verif.Optimizers
open Real

/-- A parameter with its update rule's state (rmsprop_async.py:24-38). -/
structure Param (ι : Type) where
  name : String
  array : ι → ℝ
  grad : Option (ι → ℝ)
  ms : ι → ℝ

/-- The hyperparameters (rmsprop_async.py:6-9, 61-66). -/
structure Hyper where
  lr : ℝ
  alpha : ℝ
  eps : ℝ

variable {ι : Type}

/-- `RMSpropAsyncRule.init_state` (rmsprop_async.py:24-27). -/
def initState (name : String) (array : ι → ℝ) (grad : Option (ι → ℝ)) : Param ι := ⟨name, array, grad, fun _ => 0⟩

/-- `RMSpropAsyncRule.update_core_cpu` (rmsprop_async.py:29-38). -/
noncomputable def updateCore (hp : Hyper) (p : Param ι) : Param ι :=
  match p.grad with
  | none => p
  | some g =>
    let ms := fun i => p.ms i * hp.alpha
    let ms := fun i => ms i + (1 - hp.alpha) * g i * g i
    { p with ms := ms, array := fun i => p.array i - hp.lr * g i / sqrt (ms i + hp.eps) }

/-- `NonbiasWeightDecay.__call__` (nonbias_weight_decay.py:22-34).  An array that is not yet
initialised is not modelled. -/
def weightDecay (rate : ℝ) (p : Param ι) : Param ι :=
  if p.name = "b" then p
  else match p.grad with
    | none => p
    | some g => { p with grad := some fun i => g i + rate * p.array i }

end Verif.Optimizers
