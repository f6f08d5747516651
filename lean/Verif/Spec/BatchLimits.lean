import Verif.Spec.StepLimits
import Verif.Spec.TrainBatchDQN
set_option autoImplicit false

/-!
# Specification for C170: what one environment of a vectorised run did itself

Of the calls of a vectorised run, those of environment `i` are read as calls of that
environment alone: a reset with mask `True` does not reach it.  `asIf` answers them with
another environment, the one inside a wrapper, and changes nothing else of the run.
-/

namespace Verif.BatchLimits
open DQN (EnvStep)
variable {O A K S E T : Type}

/-- The call of environment `i`, if there is one. -/
def ofEnv (i : Nat) : TrainBatch.Ev O A K S → Option (Train.Ev O A K S)
  | .reset mask obss => if mask.bind (·[i]?) = some true then none else obss[i]?.map .reset
  | .step actions outs =>
    match actions[i]?, outs[i]? with
    | some a, some out => some (.step a out)
    | _, _ => none
  | _ => none

/-- The run used `call`, which was in state `t` at first, as environment `i`. -/
def Served (i : Nat) (call : T → Wrappers.Op A → T × Wrappers.Out O K) (t : T) (evs : List (TrainBatch.Ev O A K S)) : Prop :=
  StepLimits.Served call t (evs.filterMap (ofEnv i))

/-- The same call with another answer of environment `i`. -/
def put (i : Nat) : TrainBatch.Ev O A K S → Train.Ev O A K S → TrainBatch.Ev O A K S
  | .reset mask obss, .reset o => .reset mask (obss.set i o)
  | .step actions outs, .step _ out => .step actions (outs.set i out)
  | e, _ => e

/-- The same run in which the calls of environment `i` are answered by `g` in state `s`. -/
def asIf (i : Nat) (g : Wrappers.Gym E O A K) : E → List (TrainBatch.Ev O A K S) → List (TrainBatch.Ev O A K S)
  | _, [] => []
  | s, e :: es =>
    match ofEnv i e with
    | some (.reset _) => put i e (.reset (g.reset s).2) :: asIf i g (g.reset s).1 es
    | some (.step a _) => put i e (.step a (g.step s a).2) :: asIf i g (g.step s a).1 es
    | _ => e :: asIf i g s es

/-- All episodes of environment `i`: finished ones and the last. -/
def episodes (i : Nat) (evs : List (TrainBatch.Ev O A K S)) : List (List (EnvStep O A K)) :=
  (TrainBatchDQN.record i evs).finished ++ [(TrainBatchDQN.record i evs).current]

/-- How environment `i` is limited to `n` steps per episode: by the argument `max_episode_len` of
`train_agent_batch`, by `ContinuingTimeLimit` or by `make_timestep_limited`. -/
def Limited (n : Nat) (c : TrainBatch.Cfg S) (i : Nat) (g : Wrappers.Gym E O A K) (s : E) (evs : List (TrainBatch.Ev O A K S)) : Prop :=
  (c.maxEpisodeLen = some n ∧ Served i g.call s evs) ∨ Served i (Wrappers.timeLimit g n) (none, s) evs ∨
    Served i (Wrappers.stepLimited g n) (1, s) evs

end Verif.BatchLimits
