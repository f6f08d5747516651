import Verif.Model.Wrappers
import Verif.Spec.TrainDQN
set_option autoImplicit false

/-!
# Specification for C169: what the environment itself did in a training run

The calls of a training run are read as calls of the environment that was given to
it.  `asIf` answers the same calls with another environment: the one inside a wrapper.
-/

namespace Verif.StepLimits
open DQN (EnvStep)
open TrainDQN (Record)
variable {O A K S E T : Type}

/-- The calls of the environment in a run. -/
def envOps : List (Train.Ev O A K S) → List (Wrappers.Op A)
  | [] => []
  | .reset _ :: es => .reset :: envOps es
  | .step a _ :: es => .step a :: envOps es
  | _ :: es => envOps es

/-- What they returned. -/
def envOuts : List (Train.Ev O A K S) → List (Wrappers.Out O K)
  | [] => []
  | .reset o :: es => .obs o :: envOuts es
  | .step _ out :: es => .step out :: envOuts es
  | _ :: es => envOuts es

/-- The run used the environment `call`, which was in state `t` at first. -/
def Served (call : T → Wrappers.Op A → T × Wrappers.Out O K) (t : T) (evs : List (Train.Ev O A K S)) : Prop :=
  (Wrappers.run call t (envOps evs)).2 = envOuts evs

/-- The same calls as answered by the environment `g` in state `s`. -/
def asIf (g : Wrappers.Gym E O A K) : E → List (Train.Ev O A K S) → List (Train.Ev O A K S)
  | _, [] => []
  | s, .reset _ :: es => .reset (g.reset s).2 :: asIf g (g.reset s).1 es
  | s, .step a _ :: es => .step a (g.step s a).2 :: asIf g (g.step s a).1 es
  | s, e :: es => e :: asIf g s es

/-- An episode in which the `n`-th step and those after it count as terminal. -/
def cut (n : Nat) (ep : List (EnvStep O A K)) : List (EnvStep O A K) :=
  ep.mapIdx fun i x => { x with terminal := x.terminal || decide (n ≤ i + 1) }

/-- All episodes of a run: finished ones and the last. -/
def episodes (evs : List (Train.Ev O A K S)) : List (List (EnvStep O A K)) :=
  (TrainDQN.record evs).finished ++ [(TrainDQN.record evs).current]

end Verif.StepLimits
