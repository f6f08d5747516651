import Verif.Model.Targets
import Verif.Model.ValueLoss

/-!
# Model of the loss of one update of DQN for a network that is a table

The network is a table with a row of action values for each state; `phi` leaves states as they are.  The rest is as in the models
of the targets, the batches and the losses.
-/

set_option autoImplicit false

namespace Verif.TabularDQN
open ActionValue Targets

variable {S : Type}

/-- The loss of `update(experiences)` of DQN (dqn.py:250-263, with `_compute_target_values` 280-304, `_compute_y_and_t` 306-330 and
`_compute_loss` 332-359), for the table `q` and the table `qt` of the target network.  `weights` holds the entries `weight` of the first
transitions, if there. -/
noncomputable def tableLoss (gamma : ℝ) (clipDelta : Bool) (batchAccumulator : String) (q qt : S → List ℝ) (exps : List (List (Transition S Nat ℝ)))
    (weights : Option (List ℝ)) : Py ℝ := do
  let b ← batchExperiences id gamma exps
  let y := List.zipWith (fun s a => evaluate (q s) a) b.state b.action
  let t := dqn qt b
  let (_, loss) ← ValueLoss.computeLoss y t weights clipDelta batchAccumulator
  .ok loss

end Verif.TabularDQN
