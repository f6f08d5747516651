import Verif.Model.TrainAgentBatch
import Verif.Spec.TrainDQN
set_option autoImplicit false

/-!
# Specification for C122: the record of one environment of a vectorised run

Someone watches environment `i` only and writes down its episodes, and what had
been written down when the agent was last told about the results.
-/

namespace Verif.TrainBatchDQN
open DQN (EnvStep)
variable {O A R S : Type}

/-- What the watcher has written down. -/
structure Record (O A R : Type) where
  finished : List (List (EnvStep O A R)) := []
  current : List (EnvStep O A R) := []
  obs : Option O := none
  /-- finished episodes and unfinished episode as far as the agent knows -/
  told : List (List (EnvStep O A R)) × List (EnvStep O A R) := ([], [])

/-- A reset without mask or with mask `False` begins a new episode; a step adds
to the current one; `batch_observe_and_train` tells the agent everything, and
that the episode is over if it is done or will be reset. -/
def Record.watch (i : Nat) (w : Record O A R) : TrainBatch.Ev O A R S → Record O A R
  | .reset mask obss =>
    if mask.bind (·[i]?) = some true then { w with obs := obss[i]? }
    else { w with finished := if w.current.isEmpty then w.finished else w.finished ++ [w.current], current := [], obs := obss[i]? }
  | .step actions outs =>
    match w.obs, actions[i]?, outs[i]? with
    | some o, some a, some out => { w with current := w.current ++ [⟨o, a, out.r, out.obs, out.done⟩], obs := some out.obs }
    | _, _, _ => w
  | .observe _ _ dones resets =>
    { w with told := if dones[i]? = some true ∨ resets[i]? = some true then (w.finished ++ [w.current], []) else (w.finished, w.current) }
  | _ => w

/-- The record of environment `i` in a run. -/
def record (i : Nat) (evs : List (TrainBatch.Ev O A R S)) : Record O A R := evs.foldl (Record.watch i) {}

/-- The vector environment and the agent answer with `n` values, as `env.num_envs` promises. -/
def Sized (n : Nat) : TrainBatch.Ev O A R S → Prop
  | .reset _ obss => obss.length = n
  | .act _ actions => actions.length = n
  | .step _ outs => outs.length = n
  | _ => True

end Verif.TrainBatchDQN
