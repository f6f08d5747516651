import Mathlib.Data.Real.Basic
import Verif.Model.Py

/-!
Model of the losses of DQN: `compute_value_loss`, `compute_weighted_value_loss` and `_compute_loss` of
`/repo/chainerrl/agents/dqn.py` (lines 16-72 and 332-359).

Numbers are real.  Batches are lists, one number for each transition.
-/

set_option autoImplicit false

namespace Verif.ValueLoss

/-- One term of `F.huber_loss(y, t, delta)` of Chainer: quadratic up to `delta`, linear beyond (called in dqn.py:16-72). -/
noncomputable def huber (delta e : ℝ) : ℝ :=
  if delta < |e| then delta * (|e| - delta / 2) else e ^ 2 / 2

/-- `y` and `t` must have the same shape (Chainer's functions raise `InvalidType`, modelled as a `TypeError`,
otherwise); the differences (dqn.py:16-72). -/
noncomputable def differences (y t : List ℝ) : Py (List ℝ) :=
  if y.length = t.length then .ok (List.zipWith (fun a b => a - b) y t) else .error .typeError

/-- `compute_value_loss(y, t, clip_delta, batch_accumulator)` (dqn.py:16-43); `batchAccumulator` is the string. -/
noncomputable def computeValueLoss (y t : List ℝ) (clipDelta : Bool) (batchAccumulator : String) : Py ℝ :=
  pyAssert (batchAccumulator == "mean" || batchAccumulator == "sum") <| do
    let es ← differences y t
    if clipDelta then
      let lossSum := (es.map (huber 1)).sum
      .ok (if batchAccumulator == "mean" then lossSum / y.length else lossSum)
    else
      let lossMean : ℝ := (es.map fun e : ℝ => (e ^ 2 : ℝ)).sum / es.length / 2
      .ok (if batchAccumulator == "mean" then lossMean else lossMean * y.length)

/-- `compute_weighted_value_loss(y, t, weights, clip_delta, batch_accumulator)` (dqn.py:46-72); weights of another
length than the batch cannot be multiplied. -/
noncomputable def computeWeightedValueLoss (y t weights : List ℝ) (clipDelta : Bool) (batchAccumulator : String) :
    Py ℝ :=
  pyAssert (batchAccumulator == "mean" || batchAccumulator == "sum") <| do
    let es ← differences y t
    let losses := if clipDelta then es.map (huber 1) else es.map (fun e => e ^ 2 / 2)
    if losses.length = weights.length then
      let lossSum := (List.zipWith (fun l w => l * w) losses weights).sum
      .ok (if batchAccumulator == "mean" then lossSum / y.length else lossSum)
    else .error .typeError

/-- `_compute_loss` (dqn.py:332-359) after `y` and `t` have been computed: the new content of `errors_out` and
the loss.  `weights` is `exp_batch['weights']`, if there. -/
noncomputable def computeLoss (y t : List ℝ) (weights : Option (List ℝ)) (clipDelta : Bool)
    (batchAccumulator : String) : Py (List ℝ × ℝ) := do
  let es ← differences y t
  let errors := es.map fun e => |e|
  let loss ← (match weights with
    | some w => computeWeightedValueLoss y t w clipDelta batchAccumulator
    | none => computeValueLoss y t clipDelta batchAccumulator)
  .ok (errors, loss)

end Verif.ValueLoss
