import Verif.Model.Targets
import Verif.Model.ValueLoss
import Verif.Model.Functions

/-!
# Model of one update of ResidualDQN for a network that is a table

As in the model of DQN on a table (Model/TabularDQN.lean), but targets are computed with the network itself and gradients flow through them
(`/repo/chainerrl/agents/residual_dqn.py`).  The branches for recurrent networks are not modelled.
-/

set_option autoImplicit false

namespace Verif.ResidualDQN
open ActionValue Targets Functions

variable {S : Type}

/-- The loss of `update(experiences)` of `ResidualDQN` (`_compute_target_values` residual_dqn.py:15-32, `_compute_y_and_t` 34-51; `update` and `_compute_loss` are
those of DQN, dqn.py:250-263 and 332-359), for the table `q`. -/
noncomputable def residualLoss (gamma : ℝ) (clipDelta : Bool) (batchAccumulator : String) (q : S → List ℝ) (exps : List (List (Transition S Nat ℝ)))
    (weights : Option (List ℝ)) : Py ℝ := do
  let b ← batchExperiences id gamma exps
  let y := List.zipWith (fun s a => evaluate (q s) a) b.state b.action
  let t := (residualDqn q b).map scaleGradForward
  let (_, loss) ← ValueLoss.computeLoss y t weights clipDelta batchAccumulator
  .ok loss

/-- What Chainer's backpropagation of the losses (dqn.py:16-72) hands to the prediction of one transition with the error `e` and the weight `w`, in a batch of
`n` transitions: `F.huber_loss` cuts the error to `[-1, 1]`, `F.mean_squared_error / 2` and `F.square / 2` do not; the mean divides by the number of transitions. -/
noncomputable def lossBackward (clipDelta : Bool) (batchAccumulator : String) (n : Nat) (w e : ℝ) : ℝ :=
  let g := w * if clipDelta then max (-1) (min 1 e) else e
  if batchAccumulator == "mean" then g / n else g

/-- The gradient of that loss that backpropagation computes for the entry `(s, a)` of the table.  Predictions and maxima are picked with `F.select_item`
(action_value.py:65-70), so they hand their gradients to the entry picked; the gradient of the target passes `scale_grad` (residual_dqn.py:51). -/
noncomputable def residualBackward [DecidableEq S] (gamma gradScale : ℝ) (clipDelta : Bool) (batchAccumulator : String) (q : S → List ℝ)
    (exps : List (List (Transition S Nat ℝ))) (weights : Option (List ℝ)) (s : S) (a : Nat) : Py ℝ := do
  let b ← batchExperiences id gamma exps
  let y := List.zipWith (fun s a => evaluate (q s) a) b.state b.action
  let t := (residualDqn q b).map scaleGradForward
  let es := List.zipWith (fun y t => y - t) y t
  let gs := List.zipWith (fun w e => lossBackward clipDelta batchAccumulator y.length w e) (weights.getD (List.replicate y.length 1)) es
  let dys := List.zipWith (fun s' a' => if s' = s ∧ a' = a then (1 : ℝ) else 0) b.state b.action
  let dts := List.zipWith (fun x y => x * y) (List.zipWith (fun x y => x * y) b.discount (b.terminal.map (1 - ·)))
    (b.nextState.map fun s' => if s' = s ∧ greedy (q s') = a then (1 : ℝ) else 0)
  .ok (List.zipWith (fun g d => residualGradient gradScale g d.1 d.2) gs (dys.zip dts)).sum

end Verif.ResidualDQN
