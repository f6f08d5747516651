import Mathlib.Analysis.SpecialFunctions.Log.Basic
import Verif.Model.Categorical
import Verif.Model.Targets
set_option autoImplicit false

/-! # Model: the update of CategoricalDQN and CategoricalDoubleDQN

`chainerrl/agents/categorical_dqn.py` lines 69-199 and `categorical_double_dqn.py` lines 12-45, over the reals; arrays are
lists of rows, networks functions from a state to one row of atom probabilities per action.  Not modelled: recurrent
models.  An action without a row gives an empty row instead of an `IndexError`. -/

namespace Verif.CategoricalLoss
open ActionValue

/-- `evaluate_actions_as_distribution` for one row (action_value.py:145-156). -/
def atAction (dist : List (List ℝ)) (a : Nat) : List ℝ := (dist[a]?).getD []

/-- `_compute_target_values(exp_batch)` (categorical_dqn.py:121-148; with `double`, categorical_double_dqn.py:12-45). -/
noncomputable def targetValues {F A : Type} (z : List ℝ) (model targetModel : F → List (List ℝ)) (double : Bool)
    (b : ExpBatch F A ℝ) : Py (List (List ℝ)) :=
  let next := b.nextState.map fun s =>
    if double then atAction (targetModel s) (greedy (distQ z (model s))) else maxAsDistribution z (targetModel s)
  Categorical.project (Targets.categoricalAtoms z b) next z

/-- `batch_q` of `_compute_y_and_t(exp_batch)` (categorical_dqn.py:150-170). -/
def predictions {F : Type} (model : F → List (List ℝ)) (b : ExpBatch F Nat ℝ) : List (List ℝ) :=
  List.zipWith (fun s a => atAction (model s) a) b.state b.action

/-- `F.clip(y, 1e-10, 1.)` (categorical_dqn.py:182). -/
noncomputable def clip (y : ℝ) : ℝ := min (max y 1e-10) 1

/-- `eltwise_loss` (categorical_dqn.py:182). -/
noncomputable def eltwiseLoss (y t : List (List ℝ)) : List (List ℝ) :=
  List.zipWith (fun tr yr => List.zipWith (fun ti yi => -ti * Real.log (clip yi)) tr yr) t y

/-- `compute_value_loss(eltwise_loss, batch_accumulator)` (categorical_dqn.py:69-86). -/
noncomputable def computeValueLoss (eltwise : List (List ℝ)) (batchAccumulator : String) : Py ℝ :=
  pyAssert (batchAccumulator == "mean" || batchAccumulator == "sum") <|
    if batchAccumulator == "sum" then .ok eltwise.flatten.sum
    else .ok ((eltwise.map List.sum).sum / eltwise.length)

/-- `compute_weighted_value_loss(eltwise_loss, batch_size, weights, batch_accumulator)` (categorical_dqn.py:89-111); weights
of another length than the batch cannot be multiplied. -/
noncomputable def computeWeightedValueLoss (eltwise : List (List ℝ)) (batchSize : Nat) (weights : List ℝ)
    (batchAccumulator : String) : Py ℝ :=
  pyAssert (batchAccumulator == "mean" || batchAccumulator == "sum") <|
    if eltwise.length = weights.length then
      let lossSum := (List.zipWith (· * ·) (eltwise.map List.sum) weights).sum
      .ok (if batchAccumulator == "mean" then lossSum / batchSize else lossSum)
    else .error .typeError

/-- `_compute_loss(exp_batch, errors_out)` (categorical_dqn.py:177-199) after `y` and `t` have been computed: the new content
of `errors_out` and the loss.  `weights` is `exp_batch['weights']`, if there. -/
noncomputable def computeLoss (y t : List (List ℝ)) (weights : Option (List ℝ)) (batchAccumulator : String) :
    Py (List ℝ × ℝ) := do
  let e := eltwiseLoss y t
  let errors := e.map List.sum
  let loss ← (match weights with
    | some w => computeWeightedValueLoss e y.length w batchAccumulator
    | none => computeValueLoss e batchAccumulator)
  .ok (errors, loss)

end Verif.CategoricalLoss
