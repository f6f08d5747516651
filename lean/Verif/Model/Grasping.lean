import Verif.Model.Py
set_option autoImplicit false

/-!
# Model of the wrappers of the grasping example

`examples/grasping/train_dqn_batch_grasping.py`: `CastAction`, `TransposeObservation`, `ObserveElapsedSteps`, `RecordMovie`
and the choice of the embedding in `GraspingQFunction`.  The environment below is any function that may raise.
-/

namespace Verif.Grasping

/-- What a call of `step` returns (train_dqn_batch_grasping.py:69-74). -/
structure Result (O : Type) where
  obs : O
  reward : Int
  done : Bool
deriving DecidableEq

/-- An environment: its state after `reset` and `step`, and what they return or raise.  All random numbers are in its state.
(Rewards are integers here; the wrappers hand them through.)
(the environment wrapped in train_dqn_batch_grasping.py:21-91). -/
structure Env (S A O : Type) where
  reset : S → S × Py O
  step : S → A → S × Py (Result O)

variable {S A B O : Type}

/-- `CastAction.action` (train_dqn_batch_grasping.py:21-29) under `gym.ActionWrapper`: `step` casts the action first; a cast
that raises is an error before the environment sees anything. -/
def castAction (cast : B → Py A) (env : Env S A O) : Env S B O where
  reset := env.reset
  step s b := match cast b with
    | .error e => (s, .error e)
    | .ok a => env.step s a

/-- An array: its shape, and its entry at an index (the observations of train_dqn_batch_grasping.py:32-46). -/
structure Array' (α : Type) where
  shape : List Nat
  entry : List Nat → α

/-- `a.transpose(*axes)` of NumPy: axis `k` of the result is axis `axes[k]` of `a` (train_dqn_batch_grasping.py:45-46). -/
def transpose {α : Type} (axes : List Nat) (a : Array' α) : Array' α where
  shape := axes.map fun k => a.shape.getD k 0
  entry idx := a.entry ((List.range a.shape.length).map fun d => idx.getD (axes.idxOf d) 0)

/-- A box of `gym.spaces` without its type: the bounds of every entry (train_dqn_batch_grasping.py:35-43, 56-63). -/
structure Box where
  low : Array' Int
  high : Array' Int

/-- The space of `TransposeObservation` (lines 36-43). -/
def transposeSpace (axes : List Nat) (b : Box) : Box := ⟨transpose axes b.low, transpose axes b.high⟩

/-- `TransposeObservation` (lines 31-46) under `gym.ObservationWrapper`: `reset` and `step` transpose what they return. -/
def transposeObs {α : Type} (axes : List Nat) (env : Env S A (Array' α)) : Env S A (Array' α) where
  reset s := match env.reset s with
    | (s', .error e) => (s', .error e)
    | (s', .ok o) => (s', .ok (transpose axes o))
  step s a := match env.step s a with
    | (s', .error e) => (s', .error e)
    | (s', .ok r) => (s', .ok ⟨transpose axes r.obs, r.reward, r.done⟩)

/-- `ObserveElapsedSteps` (lines 49-73).  The state is that of the environment below and `_elapsed_steps`; the count goes up
before the assertion, and only when the environment below did not raise. -/
def observeElapsed (maxSteps : Nat) (env : Env S A O) : Env (S × Nat) A (O × Nat) where
  reset s := match env.reset s.1 with
    | (s', .error e) => ((s', 0), .error e)
    | (s', .ok o) => ((s', 0), .ok (o, 0))
  step s a := match env.step s.1 a with
    | (s', .error e) => ((s', s.2), .error e)
    | (s', .ok r) =>
      if s.2 + 1 ≤ maxSteps then ((s', s.2 + 1), .ok ⟨(r.obs, s.2 + 1), r.reward, r.done⟩)
      else ((s', s.2 + 1), .error .assertionError)

/-- `RecordMovie` (lines 76-91): the state is that of the environment below, `_episode_idx`, and the numbers of the files that
`pybullet.startStateLogging` was called with. -/
def recordMovie (env : Env S A O) : Env (S × Int × List Int) A O where
  reset s := match env.reset s.1 with
    | (s', .error e) => ((s', s.2), .error e)
    | (s', .ok o) => ((s', s.2.1 + 1, s.2.2 ++ [s.2.1 + 1]), .ok o)
  step s a := match env.step s.1 a with
    | (s', r) => ((s', s.2), r)

/-- What the user calls (train_dqn_batch_grasping.py:65-74). -/
inductive Op (A : Type) where
  | reset
  | step (a : A)
deriving DecidableEq

/-- What a call gave (train_dqn_batch_grasping.py:65-74). -/
inductive Seen (O : Type) where
  | reset (o : O)
  | step (r : Result O)
  | raised (e : PyErr)
deriving DecidableEq

/-- The calls of a user, one after the other; an exception does not keep the user from calling again
(iterates train_dqn_batch_grasping.py:65-74). -/
def run (env : Env S A O) : S → List (Op A) → S × List (Seen O)
  | s, [] => (s, [])
  | s, .reset :: l =>
    let r := env.reset s
    let rest := run env r.1 l
    (rest.1, (match r.2 with | .ok o => .reset o | .error e => .raised e) :: rest.2)
  | s, .step a :: l =>
    let r := env.step s a
    let rest := run env r.1 l
    (rest.1, (match r.2 with | .ok o => .step o | .error e => .raised e) :: rest.2)

/-- The environment that `make_env` builds (lines 213-217): transposed, with the count, with cast actions. -/
def graspingEnv {α : Type} (cast : B → Py A) (maxSteps : Nat) (env : Env S A (Array' α)) : Env (S × Nat) B (Array' α × Nat) :=
  castAction cast (observeElapsed maxSteps (transposeObs [2, 0, 1] env))

/-- `self.embed(steps)` of `GraspingQFunction.__call__` (lines 103, 120-123): the row of the table with `max_episode_steps + 1`
rows; other numbers are an error. -/
def embedRow {α : Type} (maxSteps : Nat) (table : List α) (steps : Nat) : Py α :=
  if steps < maxSteps + 1 then
    match table[steps]? with
    | some r => .ok r
    | none => .error .indexError
  else .error .indexError

end Verif.Grasping
