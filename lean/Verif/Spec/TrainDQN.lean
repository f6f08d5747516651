import Verif.Spec.TrainProtocol
import Verif.Spec.DQN
import Verif.Spec.Episodes
import Verif.Spec.BoundedList
set_option autoImplicit false

/-!
# Specification for C121: the environment's record of a training run

Someone who watches only the environment writes down the episodes; only the last
call of the agent says how much of this it has been told.
-/

namespace Verif.TrainDQN
open DQN (EnvStep)
variable {O A R S : Type}

/-- What the watcher has written down: finished episodes, the steps of the
current one and the observation the environment is in. -/
structure Record (O A R : Type) where
  finished : List (List (EnvStep O A R)) := []
  current : List (EnvStep O A R) := []
  obs : Option O := none

/-- A reset begins a new episode; a step adds to the current one. -/
def Record.watch (w : Record O A R) : Train.Ev O A R S → Record O A R
  | .reset o => ⟨if w.current.isEmpty then w.finished else w.finished ++ [w.current], [], some o⟩
  | .step a out =>
    match w.obs with
    | none => w
    | some o => ⟨w.finished, w.current ++ [⟨o, a, out.r, out.obs, out.done⟩], some out.obs⟩
  | _ => w

/-- The record of a whole run. -/
def record (evs : List (Train.Ev O A R S)) : Record O A R := evs.foldl Record.watch {}

/-- What the agent knows: finished episodes and the steps of an unfinished one.
If the last call was `env.step`, its result has not reached the agent; if it was
`stop_episode_and_train`, the agent knows that the episode is over. -/
def known (evs : List (Train.Ev O A R S)) : List (List (EnvStep O A R)) × List (EnvStep O A R) :=
  match (evs.filter Train.Ev.isProtocol).getLast? with
  | some (.stop ..) => ((record evs).finished ++ [(record evs).current], [])
  | some (.step ..) => ((record evs).finished, (record evs).current.dropLast)
  | _ => ((record evs).finished, (record evs).current)

/-- The replay entries that belong to these episodes: for each step of a finished
episode the slice of at most `n` steps that begins with it, and the complete
slices of the unfinished episode. -/
def entriesOf (n : Nat) (k : List (List (EnvStep O A R)) × List (EnvStep O A R)) : List (List (EnvStep O A R)) :=
  k.1.flatMap (Episodes.slices n) ++ Episodes.fullSlices n k.2

/-- The environment step in a stored transition. -/
def stepOf {H : Type} (x : DQN.Rec O A R H) : EnvStep O A R := ⟨x.state, x.action, x.reward, x.nextState, x.terminal⟩

end Verif.TrainDQN
