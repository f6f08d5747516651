import Mathlib.Data.Real.Basic
import Verif.Model.Wrappers
import Verif.Model.FrameStack
set_option autoImplicit false

/-!
# Models of the observation, reward and action wrappers

`chainerrl/wrappers/atari_wrappers.py` (ClipRewardEnv, WarpFrame, FrameStack, ScaledFloatFrame, LazyFrames,
FlickerFrame, wrap_deepmind) and `chainerrl/wrappers/randomize_action.py`.

The wrapped environment is a function of its state and the call (`Wrappers.Op`); gym's `ObservationWrapper`,
`RewardWrapper` and `ActionWrapper` (not part of the repository) apply their method to what passes through.
Numbers are real; a frame is a list of lists of lists.  The conversion by OpenCV in WarpFrame is an arbitrary
function.  A random generator is a state with functions that draw from it.
-/

namespace Verif.AtariPipeline
open Verif.Wrappers (Op Out)
open Verif.Train (StepOut)

variable {T X Y A : Type}

/-- An array with three axes (the observations of atari_wrappers.py:157-278). -/
abbrev Frame := List (List (List ℝ))

/-- gym's `ObservationWrapper` (the base class in atari_wrappers.py:157, 219, 268). -/
def observationWrapper (f : X → Y) (call : T → Op A → T × Out X ℝ) (t : T) (op : Op A) : T × Out Y ℝ :=
  let r := call t op
  (r.1, match r.2 with
    | .obs o => .obs (f o)
    | .step out => .step ⟨f out.obs, out.r, out.done, out.needsReset⟩
    | .error => .error)

/-- gym's `RewardWrapper` (the base class in atari_wrappers.py:148). -/
def rewardWrapper (f : ℝ → ℝ) (call : T → Op A → T × Out X ℝ) (t : T) (op : Op A) : T × Out X ℝ :=
  let r := call t op
  (r.1, match r.2 with
    | .obs o => .obs o
    | .step out => .step ⟨out.obs, f out.r, out.done, out.needsReset⟩
    | .error => .error)

/-- atari_wrappers.py lines 152-154: `np.sign`. -/
noncomputable def clipReward (r : ℝ) : ℝ := if 0 < r then 1 else if r < 0 then -1 else 0

/-- Lines 238-241: `np.array(observation).astype(np.float32) / self.scale`. -/
noncomputable def scaled (frame : Frame) : Frame := frame.map (·.map (·.map (· / 255)))

/-- `np.zeros_like` of line 276. -/
def zerosLike (frame : Frame) : Frame := frame.map (·.map (·.map fun _ => 0))

/-- Lines 268-278.  `draw` is `self.unwrapped.np_random.rand()`: the generator belongs to the wrapped environment.
Nothing is drawn when the call fails. -/
noncomputable def flickerFrame (draw : T → T × ℝ) (call : T → Op A → T × Out Frame ℝ) (t : T) (op : Op A) : T × Out Frame ℝ :=
  let r := call t op
  match r.2 with
  | .obs o =>
    let d := draw r.1
    (d.1, .obs (if d.2 < 1 / 2 then zerosLike o else o))
  | .step out =>
    let d := draw r.1
    (d.1, .step ⟨if d.2 < 1 / 2 then zerosLike out.obs else out.obs, out.r, out.done, out.needsReset⟩)
  | .error => (r.1, .error)

/-- Lines 203-216; the deque is `FrameStack.push`. A stacked observation (`LazyFrames`) is its list of frames:
line 216 copies the deque into a list.  A step before the first reset fails at line 215. -/
def frameStack (k : Nat) (call : T → Op A → T × Out X ℝ) (w : T × List X) (op : Op A) : (T × List X) × Out (List X) ℝ :=
  let r := call w.1 op
  match r.2 with
  | .obs o =>
    let q := FrameStack.pushN k o k w.2
    ((r.1, q), if q.length = k then .obs q else .error)
  | .step out =>
    let q := FrameStack.push k w.2 out.obs
    ((r.1, q), if q.length = k then .step ⟨q, out.r, out.done, out.needsReset⟩ else .error)
  | .error => ((r.1, w.2), .error)

/-- `np.concatenate` of two arrays along an axis (atari_wrappers.py:261-265). -/
def concat2 : Nat → Frame → Frame → Frame
  | 0, a, b => a ++ b
  | 1, a, b => List.zipWith (· ++ ·) a b
  | _, a, b => List.zipWith (List.zipWith (· ++ ·)) a b

/-- Lines 261-265, `LazyFrames.__array__` (`none`: ValueError, nothing to concatenate). -/
def lazyArray (axis : Nat) : List Frame → Option Frame
  | [] => none
  | f :: fs => some (fs.foldl (concat2 axis) f)

/-- Line 196 (atari_wrappers.py:184-196). -/
inductive ChannelOrder where
  | hwc | chw

/-- Line 196 (atari_wrappers.py:184-196). -/
def ChannelOrder.axis : ChannelOrder → Nat
  | .hwc => 2
  | .chw => 0

/-- The keyword arguments of `wrap_deepmind` (lines 295-299) that concern observations and rewards. -/
structure Config where
  clipRewards : Bool
  scale : Bool
  flicker : Bool

/-- Lines 305-311: WarpFrame, ScaledFloatFrame, ClipRewardEnv, FlickerFrame, in this order, around an environment
(the EpisodicLifeEnv and FireResetEnv of lines 301-304 belong to `call`). -/
noncomputable def preprocess (cfg : Config) (draw : T → T × ℝ) (warp : X → Frame) (call : T → Op A → T × Out X ℝ) :
    T → Op A → T × Out Frame ℝ :=
  let env := observationWrapper warp call
  let env := if cfg.scale then observationWrapper scaled env else env
  let env := if cfg.clipRewards then rewardWrapper clipReward env else env
  if cfg.flicker then flickerFrame draw env else env

/-- Lines 295-314 with `frame_stack=True`. -/
noncomputable def wrapDeepmind (cfg : Config) (draw : T → T × ℝ) (warp : X → Frame) (call : T → Op A → T × Out X ℝ) :
    T × List Frame → Op A → (T × List Frame) × Out (List Frame) ℝ :=
  frameStack 4 (preprocess cfg draw warp call)

/-! ## RandomizeAction -/

/-- numpy's `RandomState` as used by randomize_action.py. -/
structure Rng (R : Type) where
  seed : Nat → R
  rand : R → R × ℝ
  randint : R → Nat → R × Nat

/-- randomize_action.py lines 31-35. -/
noncomputable def randomized {R : Type} (g : Rng R) (fraction : ℝ) (n : Nat) (rng : R) (action : Nat) : R × Nat :=
  let d := g.rand rng
  if d.2 < fraction then g.randint d.1 n else (d.1, action)

/-- gym's `ActionWrapper` with lines 31-35: the agent's calls become calls of the wrapped environment. -/
noncomputable def randomizeCall {R : Type} (g : Rng R) (fraction : ℝ) (n : Nat) (rng : R) : Op Nat → R × Op Nat
  | .reset => (rng, .reset)
  | .step a => ((randomized g fraction n rng a).1, .step (randomized g fraction n rng a).2)

/-- The calls that reach the wrapped environment in a history (iterates randomize_action.py:31-35). -/
noncomputable def randomizeAll {R : Type} (g : Rng R) (fraction : ℝ) (n : Nat) : R → List (Op Nat) → R × List (Op Nat)
  | rng, [] => (rng, [])
  | rng, op :: ops =>
    let r := randomizeCall g fraction n rng op
    let rs := randomizeAll g fraction n r.1 ops
    (rs.1, r.2 :: rs.2)

end Verif.AtariPipeline
