import Verif.Model.TrainAgent
set_option autoImplicit false

/-!
# Models of environment wrappers

`chainerrl/wrappers/continuing_time_limit.py`, `chainerrl/wrappers/atari_wrappers.py`
(NoopResetEnv, FireResetEnv, EpisodicLifeEnv, MaxAndSkipEnv),
`chainerrl/misc/env_modifiers.py`.

A wrapped environment is a deterministic machine (its random numbers are in its
state); of `info` only `needs_reset` is modelled.  Each wrapper is written as a
function of the wrapper's and the environment's state.  Exceptions raised by the
wrapped environment are not modelled.
-/

namespace Verif.Wrappers
open Train (StepOut)

/-- The environments wrapped in continuing_time_limit.py:21-25, env_modifiers.py:21-80. -/
structure Gym (S O A K : Type) where
  reset : S → S × O
  step : S → A → S × StepOut O K

variable {S O A K : Type}

/-- `reset` and `step` of an environment, continuing_time_limit.py:27-40. -/
inductive Op (A : Type) where
  | reset
  | step (a : A)
  deriving DecidableEq

/-- What a call returns (continuing_time_limit.py:27-40). -/
inductive Out (O K : Type) where
  | obs (o : O)
  | step (out : StepOut O K)
  /-- an `AssertionError` -/
  | error
  deriving DecidableEq

/-- The environment itself (called in continuing_time_limit.py:27-40). -/
def Gym.call (g : Gym S O A K) (s : S) : Op A → S × Out O K
  | .reset => ((g.reset s).1, .obs (g.reset s).2)
  | .step a => ((g.step s a).1, .step (g.step s a).2)

/-- A sequence of calls: the state afterwards and what was returned
(of an environment wrapped as in continuing_time_limit.py:27-40). -/
def run {T : Type} (call : T → Op A → T × Out O K) : T → List (Op A) → T × List (Out O K)
  | t, [] => (t, [])
  | t, op :: ops =>
    let r := call t op
    let rs := run call r.1 ops
    (rs.1, r.2 :: rs.2)

/-- `done or info.get('needs_reset', False)` (atari_wrappers.py:47, 65, 68). -/
def ends (out : StepOut O K) : Bool := out.done || out.needsReset

/-! ## ContinuingTimeLimit -/

/-- continuing_time_limit.py line 33-34. -/
def limitOut (maxSteps elapsed : Nat) (out : StepOut O K) : StepOut O K :=
  if maxSteps ≤ elapsed then { out with needsReset := true } else out

/-- continuing_time_limit.py lines 27-40; the state is `_elapsed_steps` and the
environment. -/
def timeLimit (g : Gym S O A K) (maxSteps : Nat) (w : Option Nat × S) : Op A → (Option Nat × S) × Out O K
  | .reset => ((some 0, (g.reset w.2).1), .obs (g.reset w.2).2)
  | .step a =>
    match w.1 with
    | none => (w, .error)
    | some e =>
      let r := g.step w.2 a
      ((some (e + 1), r.1), .step (limitOut maxSteps (e + 1) r.2))

/-! ## make_timestep_limited and make_action_repeated -/

/-- env_modifiers.py lines 28-29: `done = True` at the limit. -/
def doneOut (limit t : Nat) (out : StepOut O K) : StepOut O K :=
  if limit ≤ t then { out with done := true } else out

/-- env_modifiers.py lines 21-38; the state is `t[0]` (initially 1) and the environment. -/
def stepLimited (g : Gym S O A K) (limit : Nat) (w : Nat × S) : Op A → (Nat × S) × Out O K
  | .reset => ((1, (g.reset w.2).1), .obs (g.reset w.2).2)
  | .step a =>
    let r := g.step w.2 a
    ((w.1 + 1, r.1), .step (doneOut limit w.1 r.2))

/-- env_modifiers.py lines 75-79: the loop after `total` so far; the last output is
`last` (`none`: the loop body has not run). -/
def repeatLoop [Add K] (g : Gym S O A K) (a : A) : Nat → K → Option (StepOut O K) → S → S × K × Option (StepOut O K)
  | 0, total, last, s => (s, total, last)
  | n + 1, total, _, s =>
    let r := g.step s a
    if r.2.done then (r.1, total + r.2.r, some r.2)
    else repeatLoop g a n (total + r.2.r) (some r.2) r.1

/-- env_modifiers.py lines 73-80 (`none`: UnboundLocalError). -/
def actionRepeated [Add K] [Zero K] (g : Gym S O A K) (n : Nat) (s : S) (a : A) : S × Option (StepOut O K) :=
  let r := repeatLoop g a n 0 none s
  (r.1, r.2.2.map fun out => { out with r := r.2.1 })

/-- env_modifiers.py lines 41-47. -/
def actionFiltered (g : Gym S O A K) (f : A → A) (s : S) (a : A) : S × StepOut O K := g.step s (f a)

/-- env_modifiers.py lines 50-58. -/
def rewardFiltered (g : Gym S O A K) (f : K → K) (s : S) (a : A) : S × StepOut O K :=
  ((g.step s a).1, { (g.step s a).2 with r := f (g.step s a).2.r })

/-! ## EpisodicLifeEnv -/

/-- atari_wrappers.py lines 83-84. -/
structure Life where
  lives : Nat
  needsRealReset : Bool

/-- Lines 92-97. -/
def lifeOut (before after : Nat) (out : StepOut O K) : StepOut O K :=
  if after < before ∧ 0 < after then { out with done := true } else out

/-- Lines 107-111: the wrapped environment's call in `reset`. -/
def lifeReset (g : Gym S O A K) (noop : A) (real : Bool) (s : S) : S × O :=
  if real then g.reset s else ((g.step s noop).1, (g.step s noop).2.obs)

/-- Lines 86-113; `lives` reads `env.unwrapped.ale.lives()`. -/
def episodicLife (g : Gym S O A K) (lives : S → Nat) (noop : A) (w : Life × S) : Op A → (Life × S) × Out O K
  | .reset =>
    let r := lifeReset g noop w.1.needsRealReset w.2
    ((⟨lives r.1, w.1.needsRealReset⟩, r.1), .obs r.2)
  | .step a =>
    let r := g.step w.2 a
    ((⟨lives r.1, ends r.2⟩, r.1), .step (lifeOut w.1.lives (lives r.1) r.2))

/-- Lines 83-84. -/
def Life.init : Life := ⟨0, true⟩

/-! ## MaxAndSkipEnv -/

/-- `_obs_buffer` with frames `P → Nat` (line 121). -/
structure Buffer (P : Type) where
  b0 : P → Nat
  b1 : P → Nat

/-- Lines 131-134. -/
def Buffer.put {P : Type} (b : Buffer P) (skip i : Nat) (obs : P → Nat) : Buffer P :=
  let b := if i + 2 = skip then { b with b0 := obs } else b
  if i + 1 = skip then { b with b1 := obs } else b

/-- Line 140 (atari_wrappers.py:140). -/
def Buffer.max {P : Type} (b : Buffer P) : P → Nat := fun p => Nat.max (b.b0 p) (b.b1 p)

/-- Lines 129-137: iterations `i, i+1, …` (`fuel` of them). -/
def skipLoop {P : Type} [Add K] (g : Gym S (P → Nat) A K) (skip : Nat) (a : A) :
    Nat → Nat → K → Option (StepOut (P → Nat) K) → Buffer P × S → (Buffer P × S) × K × Option (StepOut (P → Nat) K)
  | 0, _, total, last, w => (w, total, last)
  | fuel + 1, i, total, _, w =>
    let r := g.step w.2 a
    let b := w.1.put skip i r.2.obs
    if ends r.2 then ((b, r.1), total + r.2.r, some r.2)
    else skipLoop g skip a fuel (i + 1) (total + r.2.r) (some r.2) (b, r.1)

/-- Lines 125-142 (`none`: `info` is unbound). -/
def maxAndSkip {P : Type} [Add K] [Zero K] (g : Gym S (P → Nat) A K) (skip : Nat) (w : Buffer P × S) (a : A) :
    (Buffer P × S) × Option (StepOut (P → Nat) K) :=
  let r := skipLoop g skip a skip 0 0 none w
  (r.1, r.2.2.map fun out => { out with obs := r.1.1.max, r := r.2.1 })

/-! ## NoopResetEnv and FireResetEnv -/

/-- A call on the wrapped environment (what continuing_time_limit.py:27-40 and atari_wrappers.py:35-146 call). -/
inductive Base (O A : Type) where
  | reset (obs : O)
  | step (a : A) (obs : O) (ends : Bool)
  deriving DecidableEq

/-- `obs, _, done, info = self.env.step(a)` followed by `if done or …: self.env.reset()`:
the state, the step's observation, the observation of the reset if there is one,
and the calls (atari_wrappers.py lines 46-48, 64-66, 67-69). -/
def stepReset (g : Gym S O A K) (a : A) (s : S) : S × O × Option O × List (Base O A) :=
  let r := g.step s a
  if ends r.2 then
    let q := g.reset r.1
    (q.1, r.2.obs, some q.2, [.step a r.2.obs true, .reset q.2])
  else (r.1, r.2.obs, none, [.step a r.2.obs false])

/-- atari_wrappers.py lines 44-48; `obs` is the reset's if there was one (line 48). -/
def noopLoop (g : Gym S O A K) (noop : A) : Nat → S → Option O → List (Base O A) → S × Option O × List (Base O A)
  | 0, s, obs, tr => (s, obs, tr)
  | n + 1, s, _, tr =>
    let r := stepReset g noop s
    noopLoop g noop n r.1 (some (r.2.2.1.getD r.2.1)) (tr ++ r.2.2.2)

/-- atari_wrappers.py lines 35-49 with `noops` drawn; the observation (`none`: an
AssertionError for `noops = 0`) and the calls. -/
def noopReset (g : Gym S O A K) (noop : A) (noops : Nat) (s : S) : S × Option O × List (Base O A) :=
  let r := g.reset s
  noopLoop g noop noops r.1 none [.reset r.2]

/-- atari_wrappers.py lines 62-70: the observations of the resets after the two
steps are dropped. -/
def fireReset (g : Gym S O A K) (one two : A) (s : S) : S × O × List (Base O A) :=
  let r := g.reset s
  let r1 := stepReset g one r.1
  let r2 := stepReset g two r1.1
  (r2.1, r2.2.1, .reset r.2 :: (r1.2.2.2 ++ r2.2.2.2))

end Verif.Wrappers
