import Mathlib.Analysis.SpecialFunctions.Artanh

/-!
Model of the differentiable functions that ChainerRL defines with their own gradients: `arctanh.py`, `mul_add.py`,
`sum_arrays.py`, `weighted_sum_arrays.py` and `scale_grad.py` in `/repo/chainerrl/functions`, and of the gradient of
`/repo/chainerrl/agents/residual_dqn.py`.

All of them work element by element: one element of each array is modelled.  Numbers are real.
`forward` computes the value, `backward` turns the gradient `gy` of the output into the gradients
of the inputs.  The GPU kernels of the same functions are in `Model/Gpu.lean`.
-/

set_option autoImplicit false

namespace Verif.Functions

/-- `Arctanh.forward` (arctanh.py:19-24). -/
noncomputable def arctanhForward (x : ℝ) : ℝ := Real.artanh x

/-- `Arctanh.backward` (arctanh.py:26-30). -/
noncomputable def arctanhBackward (x gy : ℝ) : ℝ := 1 / (1 - x ^ 2) * gy

/-- `MulAdd.forward_cpu` (mul_add.py:11-14). -/
noncomputable def muladdForward (x y z : ℝ) : ℝ := x * y + z

/-- `MulAdd.backward_cpu` (mul_add.py:16-23). -/
noncomputable def muladdBackward (x y _z gw : ℝ) : ℝ × ℝ × ℝ := (y * gw, x * gw, gw)

/-- `SumArrays.forward_cpu` (sum_arrays.py:15-17). -/
noncomputable def sumArraysForward (xs : List ℝ) : ℝ := xs.foldl (· + ·) 0

/-- `SumArrays.backward` (sum_arrays.py:19-20). -/
def sumArraysBackward (xs : List ℝ) (gy : ℝ) : List ℝ := List.replicate xs.length gy

/-- `WeightedSumArrays.forward_cpu` (weighted_sum_arrays.py:18-20); `zip` stops at the shorter list. -/
noncomputable def weightedSumForward (weights xs : List ℝ) : ℝ :=
  (List.zipWith (fun w x => w * x) weights xs).foldl (· + ·) 0

/-- `WeightedSumArrays.backward` (weighted_sum_arrays.py:22-23). -/
noncomputable def weightedSumBackward (weights : List ℝ) (gy : ℝ) : List ℝ := weights.map fun w => w * gy

/-- `ScaleGrad.forward` (scale_grad.py:18-19). -/
def scaleGradForward (x : ℝ) : ℝ := x

/-- `ScaleGrad.backward` (scale_grad.py:21-22). -/
noncomputable def scaleGradBackward (scale gy : ℝ) : ℝ := gy * scale

/-- The gradient, along one parameter, of the loss of one transition of `ResidualDQN`
(residual_dqn.py:36-52, dqn.py:332-359): the loss has gradient `g` with respect to the
prediction and `-g` with respect to the target, the gradient of the target passes `scale_grad`, and
then both are backpropagated through the model, where the slopes are `dy` and `dt`. -/
noncomputable def residualGradient (gradScale g dy dt : ℝ) : ℝ :=
  g * dy + scaleGradBackward gradScale (-g) * dt

end Verif.Functions
