import Mathlib.Data.Real.Sqrt
import Verif.Model.PPOData
import Verif.Model.PPODataset
set_option autoImplicit false

/-!
# Model of the updates of PPO, and of TRPO's value function, with recurrent networks

`PPO._update_recurrent` (`chainerrl/agents/ppo.py:533-558`) with the first lines of `_update_once_recurrent`
(`ppo.py:482-485`), and `TRPO._update_vf_recurrent` (`chainerrl/agents/trpo.py:320-326`): which minibatches are used, and
with which exception the update ends.  What is done with a minibatch is in `Model/PPODataset.lean`, `Model/PPOLoss.lean` and
`Model/ValueLoss.lean`; it is taken not to raise.  `random.shuffle` is a function of the number of the epoch and the list.
-/

namespace Verif.RecurrentEpochs
open PPOData (yieldSubsets limitSequenceLength)
variable {α : Type}

/-- The loop over the epochs (ppo.py:553-558 and trpo.py:322-326), for `k` more epochs, the next of which is number `i`:
the minibatches used and the exception, if any.  `ok` tells whether the assertion at the beginning of
`_update_once_recurrent` (ppo.py:485) holds; TRPO has none.  The list is shuffled in place. -/
def epochs (n : Nat) (ok : Bool) (shuffle : Nat → List (List α) → List (List α)) :
    Nat → Nat → List (List α) → List (List (List α)) × Option PyErr
  | 0, _, _ => ([], none)
  | k + 1, i, dataset =>
    let dataset := shuffle i dataset
    let r := yieldSubsets dataset n
    if !ok && !r.1.isEmpty then ([], some .assertionError)
    else match r.2 with
      | some e => (r.1, some e)
      | none =>
        let rest := epochs n ok shuffle k (i + 1) dataset
        (r.1 ++ rest.1, rest.2)

/-- `std_advs is None or std_advs > 0` (ppo.py:485, 545-551); `xp.std` of the advantages. -/
noncomputable def stdOk (standardize : Bool) (advs : List ℝ) : Bool :=
  open Classical in !standardize || decide (0 < Real.sqrt (PPODataset.var advs))

/-- The last lines of `_make_dataset_recurrent` (ppo.py:205-211). -/
def cut (maxLen : Option Nat) (episodes : List (List α)) : Py (List (List α)) :=
  match maxLen with
  | some m => limitSequenceLength episodes m
  | none => .ok episodes

/-- `PPO._update_recurrent(dataset)` (ppo.py:533-558) with the dataset as `_make_dataset_recurrent` cuts it
(ppo.py:205-211). -/
noncomputable def ppo (adv : α → ℝ) (standardize : Bool) (n k : Nat) (shuffle : Nat → List (List α) → List (List α))
    (maxLen : Option Nat) (episodes : List (List α)) : List (List (List α)) × Option PyErr :=
  match cut maxLen episodes with
  | .error e => ([], some e)
  | .ok dataset => epochs n (stdOk standardize (dataset.flatten.map adv)) shuffle k 0 dataset

/-- `TRPO._update_vf_recurrent(dataset)` (trpo.py:320-326), with the dataset as cut by `_make_dataset_recurrent` (trpo.py:265-274). -/
def trpo (n k : Nat) (shuffle : Nat → List (List α) → List (List α)) (maxLen : Option Nat) (episodes : List (List α)) :
    List (List (List α)) × Option PyErr :=
  match cut maxLen episodes with
  | .error e => ([], some e)
  | .ok dataset => epochs n true shuffle k 0 dataset

end Verif.RecurrentEpochs
