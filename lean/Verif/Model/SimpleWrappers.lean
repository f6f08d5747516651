import Mathlib.Data.Real.Basic
import Verif.Model.Py
import Verif.Model.TrainAgent
import Verif.Model.AtariPipeline
set_option autoImplicit false

/-!
# Models of the wrappers that render, scale, cast, seed and delegate

`chainerrl/wrappers/render.py`, `scale_reward.py`, `cast_observation.py`, `randomize_action.py` (`seed`),
`vector_frame_stack.py` (VectorEnvWrapper) and `chainerrl/misc/env_modifiers.py` (make_rendered, make_reward_clipped).

An environment is a function from its state and a call to its next state and what the call returns or raises.
gym's `Wrapper`, `RewardWrapper` and `ObservationWrapper` (not part of the repository) hand every other call on.
`reset` has no keyword arguments; `W` are the arguments of `render`, `V` what `render` and `seed` return.
Rewards are real numbers.
-/

namespace Verif.SimpleWrappers
open Verif.Train (StepOut)
open Verif.AtariPipeline (Rng)

variable {S O O' A W V : Type}

/-- The calls of an environment (as in render.py:16-24, env_modifiers.py:8-18). -/
inductive Call (A W : Type) where
  | reset
  | step (a : A)
  | render (w : W)
  | close
  | seed (z : Nat)
  deriving DecidableEq

/-- What a call returns (as in render.py:16-24, env_modifiers.py:8-18). -/
inductive Ret (O V : Type) where
  | obs (o : O)
  | step (out : StepOut O ℝ)
  | value (v : V)
  /-- Python's `None` -/
  | none

/-- The environments wrapped in render.py:12-14, env_modifiers.py:4-18. -/
abbrev Env (S O A W V : Type) := S → Call A W → S × Py (Ret O V)

/-- `first(); second()`, returning what `first` returned: an exception of either ends the function
(as in render.py:16-24, env_modifiers.py:8-18). -/
def andThen (f : Env S O A W V) (s : S) (first second : Call A W) : S × Py (Ret O V) :=
  match f s first with
  | (s', .error e) => (s', .error e)
  | (s', .ok r) =>
    match f s' second with
    | (s'', .error e) => (s'', .error e)
    | (s'', .ok _) => (s'', .ok r)

/-- render.py lines 16-24: `Render`. -/
def render (kw : W) (f : Env S O A W V) : Env S O A W V := fun s c =>
  match c with
  | .reset => andThen f s .reset (.render kw)
  | .step a => andThen f s (.step a) (.render kw)
  | c => f s c

/-- env_modifiers.py lines 4-18: `make_rendered`.  `closing` are the arguments of line 14, with `close=True` added.
`env.render` is the environment's own method: the modifier replaces `step` and `close` only.  `close` returns `None`. -/
def makeRendered (args closing : W) (f : Env S O A W V) : Env S O A W V := fun s c =>
  match c with
  | .step a => andThen f s (.step a) (.render args)
  | .close =>
    match f s (.render closing) with
    | (s', .error e) => (s', .error e)
    | (s', .ok _) =>
      match f s' .close with
      | (s'', .error e) => (s'', .error e)
      | (s'', .ok _) => (s'', .ok .none)
  | c => f s c

/-- scale_reward.py lines 16-23: `ScaleReward`.  The wrapper's state is its `original_reward`. -/
noncomputable def scaleReward (scale : ℝ) (f : Env S O A W V) : Env (Option ℝ × S) O A W V := fun w c =>
  match c with
  | .step a =>
    match f w.2 (.step a) with
    | (s, .ok (.step out)) => ((some out.r, s), .ok (.step { out with r := scale * out.r }))
    | (s, r) => ((w.1, s), r)
  | c => ((w.1, (f w.2 c).1), (f w.2 c).2)

/-- cast_observation.py lines 16-22: `CastObservation`.  `cast` is `astype`; the wrapper's state is its
`original_observation` (no attribute before the first observation). -/
def castObservation (cast : O → O') (f : Env S O A W V) : Env (Option O × S) O' A W V := fun w c =>
  match f w.2 c with
  | (s, .ok (.obs o)) => ((some o, s), .ok (.obs (cast o)))
  | (s, .ok (.step out)) => ((some out.obs, s), .ok (.step ⟨cast out.obs, out.r, out.done, out.needsReset⟩))
  | (s, .ok (.value v)) => ((w.1, s), .ok (.value v))
  | (s, .ok .none) => ((w.1, s), .ok .none)
  | (s, .error e) => ((w.1, s), .error e)

/-- `np.clip(x, low, high)`: numpy's `minimum(maximum(x, low), high)` (called in env_modifiers.py:61-62). -/
noncomputable def clip (low high x : ℝ) : ℝ := min (max x low) high

/-- env_modifiers.py lines 50-62: `make_reward_filtered` with line 62's filter, `make_reward_clipped`. -/
noncomputable def rewardClipped (low high : ℝ) (f : Env S O A W V) : Env S O A W V := fun s c =>
  match c with
  | .step a =>
    match f s (.step a) with
    | (s, .ok (.step out)) => (s, .ok (.step { out with r := clip low high out.r }))
    | r => r
  | c => f s c

/-- randomize_action.py lines 31-39: `RandomizeAction` on `n` actions.  Line 38 hands the seed on and drops what comes
back, line 39 seeds the wrapper's own generator. -/
noncomputable def randomizeAction {R : Type} (g : Rng R) (fraction : ℝ) (n : Nat) (f : Env S O Nat W V) :
    Env (R × S) O Nat W V := fun w c =>
  match c with
  | .step a =>
    let d := AtariPipeline.randomized g fraction n w.1 a
    ((d.1, (f w.2 (.step d.2)).1), (f w.2 (.step d.2)).2)
  | .seed z =>
    match f w.2 (.seed z) with
    | (s, .error e) => ((w.1, s), .error e)
    | (s, .ok _) => ((g.seed z, s), .ok .none)
  | c => ((w.1, (f w.2 c).1), (f w.2 c).2)

/-- The calls of a history one after the other: the state afterwards and what each returned or raised
(of an environment wrapped as in render.py:4-24). -/
def run (f : Env S O A W V) : S → List (Call A W) → S × List (Py (Ret O V))
  | s, [] => (s, [])
  | s, c :: cs =>
    let r := f s c
    let rs := run f r.1 cs
    (rs.1, r.2 :: rs.2)

/-- An environment that also writes down the calls that reach it (an environment wrapped as in render.py:4-24). -/
def logged (f : Env S O A W V) : Env (List (Call A W) × S) O A W V := fun w c =>
  ((w.1 ++ [c], (f w.2 c).1), (f w.2 c).2)

/-! ## VectorEnvWrapper -/

/-- What an attribute access finds on a vector environment: a plain one has its own attributes, a `VectorEnvWrapper`
its own and those of `self.env` (vector_frame_stack.py:13-22). -/
inductive Obj (V : Type) where
  | plain (attrs : String → Option V)
  | wrapper (own : String → Option V) (env : Obj V)

/-- vector_frame_stack.py lines 18-22: `__getattr__` runs when the ordinary lookup fails. -/
def getattr : Obj V → String → Py V
  | .plain attrs, name => match attrs name with
    | some v => .ok v
    | none => .error .attributeError
  | .wrapper own env, name => match own name with
    | some v => .ok v
    | none => if name.startsWith "_" then .error .attributeError else getattr env name

/-- Lines 13-16: `VectorEnvWrapper.__init__` copies the two spaces. `cls` are the attributes of the wrapper's class and
of a subclass's `__init__`. -/
def wrap (cls : String → Option V) (env : Obj V) : Py (Obj V) :=
  match getattr env "action_space", getattr env "observation_space" with
  | .ok a, .ok o => .ok (.wrapper (fun name =>
      if name = "action_space" then some a else if name = "observation_space" then some o else cls name) env)
  | .error e, _ => .error e
  | _, .error e => .error e

end Verif.SimpleWrappers
