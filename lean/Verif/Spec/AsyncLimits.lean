import Verif.Spec.StepLimits
import Verif.Spec.TrainAsyncCalls
set_option autoImplicit false

/-!
# Specification for C174: what the environment of one process of an asynchronous run did itself

The calls of one process are read as calls of the environment that was made for it.  `asIf` answers
them with another environment, the one inside a wrapper, and changes nothing else.
-/

namespace Verif.AsyncLimits
variable {O A K S E T : Type}

/-- The call of the environment, if it is one. -/
def ofEnv : TrainAsync.Ev O A K → Option (Train.Ev O A K Unit)
  | .reset o => some (.reset o)
  | .step a out => some (.step a out)
  | _ => none

/-- The process used the environment `call`, which was in state `t` at first. -/
def Served (call : T → Wrappers.Op A → T × Wrappers.Out O K) (t : T) (evs : List (TrainAsync.Ev O A K)) : Prop :=
  StepLimits.Served call t (evs.filterMap ofEnv)

/-- The same calls as answered by the environment `g` in state `s`. -/
def asIf (g : Wrappers.Gym E O A K) : E → List (TrainAsync.Ev O A K) → List (TrainAsync.Ev O A K)
  | _, [] => []
  | s, .reset _ :: es => .reset (g.reset s).2 :: asIf g (g.reset s).1 es
  | s, .step a _ :: es => .step a (g.step s a).2 :: asIf g (g.step s a).1 es
  | s, e :: es => e :: asIf g s es

/-- All episodes of the process: finished ones and the last. -/
def episodes (evs : List (TrainAsync.Ev O A K)) : List (List (DQN.EnvStep O A K)) :=
  (TrainAsyncCalls.record evs).finished ++ [(TrainAsyncCalls.record evs).current]

/-- How a process is limited to `n` steps per episode: by the argument `max_episode_len` of `train_agent_async`, or by a wrapper that
`make_env` puts around its environment, `ContinuingTimeLimit` or `make_timestep_limited`. -/
def Limited (n : Nat) (c : TrainAsync.Cfg S) (g : Wrappers.Gym E O A K) (s : E) (evs : List (TrainAsync.Ev O A K)) : Prop :=
  (c.maxEpisodeLen = some n ∧ Served g.call s evs) ∨ Served (Wrappers.timeLimit g n) (none, s) evs ∨ Served (Wrappers.stepLimited g n) (1, s) evs

end Verif.AsyncLimits
