import Mathlib.Logic.Function.Basic
import Verif.Model.RandomAccessQueue
import Verif.Model.SampleNK
set_option autoImplicit false

/-!
# Model of `chainerrl/replay_buffers/replay_buffer.py`

Transitions are an arbitrary type `T` with the field `is_state_terminal` read by
`term`.  The memory is abstract (`M` with its `append`), because
`PrioritizedReplayBuffer` inherits the same code with a `PrioritizedBuffer` as
memory.
-/

namespace Verif

/-- `collections.deque.append` of a deque with `maxlen=n`
(`replay_buffer.py:26`, `40`). -/
def dequeAppend {T : Type _} (n : Nat) (d : List T) (x : T) : List T :=
  if d.length + 1 > n then (d ++ [x]).tail else d ++ [x]

/-- `replay_buffer.py:20-26`.  `last` is the `defaultdict` of windows. -/
structure NStep (M E T : Type _) where
  numSteps : Nat
  memory : M
  last : E → List T

namespace NStep
variable {M E T : Type _} [DecidableEq E]

/-- `replay_buffer.py:42-44` and `59-61`: store the window and drop its first
transition until nothing is left. -/
def flush (push : M → List T → M) : List T → M → M
  | [], m => m
  | x :: t, m => flush push t (push m (x :: t))

/-- `replay_buffer.py:28-48` `append`. -/
def append (push : M → List T → M) (term : T → Bool) (b : NStep M E T) (e : E) (x : T) :
    NStep M E T :=
  let w := dequeAppend b.numSteps (b.last e) x
  if term x then
    { b with memory := flush push w b.memory, last := Function.update b.last e [] }
  else if w.length = b.numSteps then
    { b with memory := push b.memory w, last := Function.update b.last e w }
  else { b with last := Function.update b.last e w }

/-- `replay_buffer.py:50-62` `stop_current_episode`. -/
def stop (push : M → List T → M) (b : NStep M E T) (e : E) : NStep M E T :=
  let w := b.last e
  let m := if 0 < w.length ∧ w.length < b.numSteps then push b.memory w else b.memory
  let w := if 0 < w.length ∧ w.length ≤ b.numSteps then w.tail else w
  { b with memory := flush push w m, last := Function.update b.last e [] }

/-- The two calls that feed a buffer (replay_buffers/replay_buffer.py:28, 50). -/
inductive Op (E T : Type _) where
  | append (e : E) (x : T)
  | stop (e : E)

/-- One call (replay_buffers/replay_buffer.py:28-62). -/
def step (push : M → List T → M) (term : T → Bool) (b : NStep M E T) : Op E T → NStep M E T
  | .append e x => b.append push term e x
  | .stop e => b.stop push e

/-- A history of calls (iterates replay_buffers/replay_buffer.py:28-62). -/
def run (push : M → List T → M) (term : T → Bool) (b : NStep M E T) (ops : List (Op E T)) :
    NStep M E T := ops.foldl (step push term) b

end NStep

/-- `replay_buffer.py:8`: the class `ReplayBuffer`, whose memory is a
`RandomAccessQueue` of n-step entries. -/
abbrev ReplayBuffer (E T : Type _) := NStep (RAQ (List T)) E T

namespace ReplayBuffer
variable {E T : Type _} [DecidableEq E]

/-- `replay_buffer.py:20-26`; `assert num_steps > 0` is expressed in the
theorems' hypotheses. -/
def init (capacity : Option Nat) (numSteps : Nat) : ReplayBuffer E T :=
  ⟨numSteps, RAQ.init capacity [], fun _ => []⟩

/-- A history of calls on a `ReplayBuffer` (iterates replay_buffers/replay_buffer.py:28-62). -/
def run (term : T → Bool) (b : ReplayBuffer E T) (ops : List (NStep.Op E T)) : ReplayBuffer E T :=
  NStep.run RAQ.append term b ops

/-- `replay_buffer.py:64-66` `sample`. -/
def sample (b : ReplayBuffer E T) (n : Int) (d : SampleNK.NKDraws) : SampleNK.Res (List (List T)) :=
  if (b.memory.len : Int) ≥ n then b.memory.sample n d else .raised .assertionError

/-- `replay_buffer.py:68-69` `__len__`. -/
def len (b : ReplayBuffer E T) : Nat := b.memory.len

/-- What a pickle file holds (`replay_buffer.py:71-81`): the memory itself, or,
in files written by v0.2, a `collections.deque` with its `maxlen`.  Pickling is
assumed to restore an equal object. -/
inductive File (T : Type _) where
  | current (q : RAQ (List T))
  | deque (maxlen : Option Nat) (items : List (List T))

/-- `replay_buffer.py:71-73` `save`. -/
def save (b : ReplayBuffer E T) : File T := .current b.memory

/-- `replay_buffer.py:75-81` `load` into the buffer `b`. -/
def load (b : ReplayBuffer E T) : File T → ReplayBuffer E T
  | .current q => { b with memory := q }
  | .deque maxlen items => { b with memory := RAQ.init maxlen items }

end ReplayBuffer
end Verif
