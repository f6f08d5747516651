import Verif.Model.Targets
import Verif.Model.ValueLoss

/-!
# Model of the loss of one update of SARSA for a network that is a table

As in the model for DQN: a table with a row of action values for each state; `phi` leaves states as they are.
-/

set_option autoImplicit false

namespace Verif.TabularSarsa
open ActionValue Targets

variable {S : Type}

/-- The loss of `update(experiences)` of SARSA (dqn.py:250-263 with `_compute_y_and_t` 306-330 and `_compute_loss` 332-359, and the target values of sarsa.py:13-37), for the table `q`
and the table `qt` of the target network.  `acts` are the actions that the explorer selects for the next states, `weights` holds the entries `weight` of the first transitions, if there. -/
noncomputable def sarsaLoss (gamma : ℝ) (clipDelta : Bool) (batchAccumulator : String) (q qt : S → List ℝ) (acts : List Nat) (exps : List (List (Transition S Nat ℝ)))
    (weights : Option (List ℝ)) : Py ℝ := do
  let b ← batchExperiences id gamma exps
  let y := List.zipWith (fun s a => evaluate (q s) a) b.state b.action
  let t := sarsa qt acts b
  let (_, loss) ← ValueLoss.computeLoss y t weights clipDelta batchAccumulator
  .ok loss

end Verif.TabularSarsa
