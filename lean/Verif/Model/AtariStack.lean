import Verif.Model.Wrappers
import Verif.Model.AtariPipeline
set_option autoImplicit false

/-!
# The whole stack of `make_atari` and `wrap_deepmind`

Puts together, in the order of `chainerrl/wrappers/atari_wrappers.py` lines 281-314, the wrappers modelled in Model/Wrappers.lean and
Model/AtariPipeline.lean.  Each wrapper is an environment again.  `ContinuingTimeLimit` raises AssertionError when `step` is called before the
first `reset`; here histories begin with `reset`, and the counter is a number from the start.  Frames are `P → Nat` (pixels), the wrapped game
is a deterministic machine with its random numbers in its state.
-/

namespace Verif.AtariStack
open Train (StepOut)
open Wrappers (Gym Op Out ends limitOut noopLoop Buffer maxAndSkip fireReset Life lifeReset lifeOut)
open AtariPipeline (Frame Config wrapDeepmind)
variable {S O A K P : Type}

/-- `if max_frames: env = ContinuingTimeLimit(env, max_episode_steps=max_frames)` (atari_wrappers.py:287-289,
continuing_time_limit.py:27-40). -/
def limit (maxFrames : Nat) (g : Gym S O A K) : Gym (Nat × S) O A K where
  reset w := let r := g.reset w.2; ((0, r.1), r.2)
  step w a := let r := g.step w.2 a; ((w.1 + 1, r.1), if maxFrames = 0 then r.2 else limitOut maxFrames (w.1 + 1) r.2)

/-- `NoopResetEnv(env, noop_max=30)`: `draw` is the `randint` of line 42 (atari_wrappers.py:35-52, 290).  The observation of the reset is not
used, since at least one no-op is drawn. -/
def noop (draw : S → S × Nat) (a₀ : A) (g : Gym S O A K) : Gym S O A K where
  reset s :=
    let r := g.reset s
    let d := draw r.1
    let q := noopLoop g a₀ d.2 d.1 none []
    (q.1, q.2.1.getD r.2)
  step := g.step

/-- `MaxAndSkipEnv(env, skip)` (atari_wrappers.py:115-145, 291); for `skip ≥ 1` its step always has a result. -/
def skipped [Add K] [Zero K] (skip : Nat) (g : Gym S (P → Nat) A K) : Gym (Buffer P × S) (P → Nat) A K where
  reset w := let r := g.reset w.2; ((w.1, r.1), r.2)
  step w a := let r := maxAndSkip g skip w a; (r.1, r.2.getD (g.step w.2 a).2)

/-- `make_atari` after `gym.make` (atari_wrappers.py:281-292). -/
def makeAtari [Add K] [Zero K] (maxFrames : Nat) (draw : S → S × Nat) (a₀ : A) (g : Gym S (P → Nat) A K) :
    Gym (Buffer P × (Nat × S)) (P → Nat) A K :=
  skipped 4 (noop (fun w => let d := draw w.2; ((w.1, d.1), d.2)) a₀ (limit maxFrames g))

/-- `if episode_life: env = EpisodicLifeEnv(env)` (atari_wrappers.py:75-112, 301-302). -/
def lives (episodeLife : Bool) (count : S → Nat) (a₀ : A) (g : Gym S O A K) : Gym (Life × S) O A K where
  reset w :=
    if episodeLife then
      let r := lifeReset g a₀ w.1.needsRealReset w.2
      ((⟨count r.1, w.1.needsRealReset⟩, r.1), r.2)
    else let r := g.reset w.2; ((w.1, r.1), r.2)
  step w a :=
    let r := g.step w.2 a
    if episodeLife then ((⟨count r.1, ends r.2⟩, r.1), lifeOut w.1.lives (count r.1) r.2) else ((w.1, r.1), r.2)

/-- `if fire_reset and 'FIRE' in ...: env = FireResetEnv(env)` (atari_wrappers.py:55-72, 303-304). -/
def fire (fireNow : Bool) (a₁ a₂ : A) (g : Gym S O A K) : Gym S O A K where
  reset s := if fireNow then let r := fireReset g a₁ a₂ s; (r.1, r.2.1) else g.reset s
  step := g.step

/-- The parameters of the two functions and the actions 0, 1 and 2 (atari_wrappers.py:281, 295-299). -/
structure Options (A : Type) where
  maxFrames : Nat
  episodeLife : Bool
  fireReset : Bool
  a₀ : A
  a₁ : A
  a₂ : A
  obs : Config

/-- The environment inside WarpFrame (atari_wrappers.py:281-304); `count` is `ale.lives()`. -/
def inner [Add K] [Zero K] (o : Options A) (draw : S → S × Nat) (count : S → Nat) (g : Gym S (P → Nat) A K) :
    Gym (Life × (Buffer P × (Nat × S))) (P → Nat) A K :=
  fire o.fireReset o.a₁ o.a₂ (lives o.episodeLife (fun w => count w.2.2) o.a₀ (makeAtari o.maxFrames draw o.a₀ g))

/-- `wrap_deepmind(make_atari(...), ..., frame_stack=True)` (atari_wrappers.py:281-314); `rand` is the draw of FlickerFrame. -/
noncomputable def atari (o : Options A) (draw : S → S × Nat) (rand : S → S × ℝ) (count : S → Nat) (warp : (P → Nat) → Frame)
    (g : Gym S (P → Nat) A ℝ) :=
  wrapDeepmind o.obs (fun w : Life × (Buffer P × (Nat × S)) => let d := rand w.2.2.2; ((w.1, (w.2.1, (w.2.2.1, d.1))), d.2)) warp
    (inner o draw count g).call

end Verif.AtariStack
