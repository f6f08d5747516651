import Verif.Model.FrameStack
import Verif.Model.ReplayBuffer
import Verif.Spec.BoundedList
set_option autoImplicit false

/-!
# Which objects frame stacks and replay buffers share

Python lists, deques and dicts are objects that can change after they have been handed out.  Here they are numbered in the order of their
creation, and a variable, an entry of a list or a returned value is such a number.  Models, with that, of `FrameStack`
(`chainerrl/wrappers/atari_wrappers.py`, lines 183-216), `VectorFrameStack` (`chainerrl/wrappers/vector_frame_stack.py`, lines 52-101),
`ReplayBuffer` (`chainerrl/replay_buffers/replay_buffer.py`, lines 20-62) and the weights of `PrioritizedReplayBuffer`
(`chainerrl/replay_buffers/prioritized.py`, lines 102-109).

Frames and the fields of a transition are values: an environment that changes an array after having returned it is not modelled.  Of the
memory of a replay buffer, a `RandomAccessQueue` or a `PrioritizedBuffer`, only the items matter here (see C01 and C07).
-/

namespace Verif.Sharing

/-- All lists and deques: object `a` has the items at position `a` (no counterpart in the code). -/
abbrev Lists (V : Type) := List (List V)

/-- The items of object `a` (no counterpart in the code). -/
def get {V : Type} (h : Lists V) (a : Nat) : List V := h[a]?.getD []

/-! ## FrameStack and VectorFrameStack -/
section Frames
open FrameStack (push SOp VOp maskOf)
variable {F : Type}

/-- `frames.append(ob)` for the deque `d` (atari_wrappers.py:206, 211, vector_frame_stack.py:88, 94). -/
def append (k d : Nat) (ob : F) (h : Lists F) : Lists F := h.set d (push k (get h d) ob)

/-- `for _ in range(n): frames.append(ob)` (atari_wrappers.py:205-206, vector_frame_stack.py:87-88). -/
def appendN (k d : Nat) (ob : F) : Nat → Lists F → Lists F
  | 0, h => h
  | n + 1, h => appendN k d ob n (append k d ob h)

/-- `LazyFrames(list(frames))`: a new list with the items of the deque; the `LazyFrames` object keeps this list, so it is named after it
(atari_wrappers.py:216, 257-259). -/
def lazyFrames (d : Nat) (h : Lists F) : Lists F × Nat := (h ++ [get h d], h.length)

/-- `_get_ob` of FrameStack; `none` is AssertionError (atari_wrappers.py:214-216). -/
def getOb (k d : Nat) (h : Lists F) : Lists F × Option Nat :=
  if (get h d).length = k then ((lazyFrames d h).1, some (lazyFrames d h).2) else (h, none)

/-- A call of FrameStack, whose deque is `d` (atari_wrappers.py:203-212). -/
def stackCall (k d : Nat) (h : Lists F) : SOp F → Lists F × Option Nat
  | .reset ob => getOb k d (appendN k d ob k h)
  | .step ob => getOb k d (append k d ob h)

/-- Calls of FrameStack and what each returned (iterates atari_wrappers.py:203-216). -/
def stackRun (k d : Nat) : Lists F → List (SOp F) → Lists F × List (Option Nat)
  | h, [] => (h, [])
  | h, op :: ops =>
    let r := stackCall k d h op
    let r' := stackRun k d r.1 ops
    (r'.1, r.2 :: r'.2)

/-- The loop of `reset` of VectorFrameStack over the deques `ds` (vector_frame_stack.py:85-88). -/
def resetAll (k : Nat) : List Bool → List Nat → List F → Lists F → Lists F
  | m :: ms, d :: ds, ob :: obs, h => resetAll k ms ds obs (if m then h else appendN k d ob k h)
  | _, _, _, h => h

/-- The loop of `step` (vector_frame_stack.py:93-94). -/
def stepAll (k : Nat) : List Nat → List F → Lists F → Lists F
  | d :: ds, ob :: obs, h => stepAll k ds obs (append k d ob h)
  | _, _, h => h

/-- `[LazyFrames(list(frames)) for frames in self.frames]` (vector_frame_stack.py:100-101). -/
def lazyAll : List Nat → Lists F → Lists F × List Nat
  | [], h => (h, [])
  | d :: ds, h =>
    let r := lazyFrames d h
    let r' := lazyAll ds r.1
    (r'.1, r.2 :: r'.2)

/-- `_get_ob` of VectorFrameStack (vector_frame_stack.py:97-101). -/
def vectorGetOb (k : Nat) (ds : List Nat) (h : Lists F) : Lists F × Option (List Nat) :=
  match ds with
  | [] => (h, none)
  | d :: _ => if (get h d).length = k then ((lazyAll ds h).1, some (lazyAll ds h).2) else (h, none)

/-- A call of VectorFrameStack, whose deques are `ds` (vector_frame_stack.py:81-95). -/
def vectorCall (k : Nat) (ds : List Nat) (h : Lists F) : VOp F → Lists F × Option (List Nat)
  | .reset mask obs => vectorGetOb k ds (resetAll k (maskOf ds.length mask) ds obs h)
  | .step obs => vectorGetOb k ds (stepAll k ds obs h)

/-- Calls of VectorFrameStack and what each returned (iterates vector_frame_stack.py:81-101). -/
def vectorRun (k : Nat) (ds : List Nat) : Lists F → List (VOp F) → Lists F × List (Option (List Nat))
  | h, [] => (h, [])
  | h, op :: ops =>
    let r := vectorCall k ds h op
    let r' := vectorRun k ds r.1 ops
    (r'.1, r.2 :: r'.2)

end Frames

/-! ## Replay buffers -/
section Replay
open BoundedList (newest)
variable {E T W : Type} [DecidableEq E]

/-- A buffer and all its objects: the dicts, which hold a transition and perhaps a weight, and the lists and deques of dicts
(replay_buffer.py:20-26, prioritized.py:88-99). -/
structure Buf (E T W : Type) where
  numSteps : Nat
  capacity : Option Nat
  dicts : List (T × Option W)
  lists : Lists Nat
  /-- `last_n_transitions`, a defaultdict of deques -/
  windows : E → Option Nat
  /-- the items of `memory`, each a list -/
  memory : List Nat

/-- replay_buffer.py:20-26. -/
def Buf.init (capacity : Option Nat) (numSteps : Nat) : Buf E T W := ⟨numSteps, capacity, [], [], fun _ => none, []⟩

/-- `self.last_n_transitions[env_id]`: the deque of the environment, which is made when it is first asked for (replay_buffer.py:25-26, 30, 51). -/
def Buf.window (b : Buf E T W) (e : E) : Buf E T W × Nat :=
  match b.windows e with
  | some d => (b, d)
  | none => ({ b with lists := b.lists ++ [[]], windows := Function.update b.windows e (some b.lists.length) }, b.lists.length)

/-- `self.memory.append(list(last_n_transitions))` (replay_buffer.py:43, 48, 55, 60). -/
def Buf.store (b : Buf E T W) (d : Nat) : Buf E T W :=
  { b with lists := b.lists ++ [get b.lists d], memory := newest b.capacity (b.memory ++ [b.lists.length]) }

/-- `del last_n_transitions[0]` (replay_buffer.py:44, 58, 61). -/
def Buf.delFirst (b : Buf E T W) (d : Nat) : Buf E T W := { b with lists := b.lists.set d (get b.lists d).tail }

/-- `while last_n_transitions:` (replay_buffer.py:42-44, 59-61); each round takes an item away, so there are as many as the deque has items. -/
def Buf.drain (d : Nat) : Nat → Buf E T W → Buf E T W
  | 0, b => b
  | f + 1, b => if get b.lists d = [] then b else Buf.drain d f ((b.store d).delFirst d)

/-- `experience = dict(...)` and `last_n_transitions.append(experience)` (replay_buffer.py:31-40). -/
def Buf.add (b : Buf E T W) (d : Nat) (x : T) : Buf E T W :=
  { b with dicts := b.dicts ++ [(x, none)], lists := b.lists.set d (dequeAppend b.numSteps (get b.lists d) b.dicts.length) }

/-- `append` (replay_buffer.py:28-48). -/
def Buf.append (term : T → Bool) (b : Buf E T W) (e : E) (x : T) : Buf E T W :=
  let r := b.window e
  let b := r.1.add r.2 x
  if term x then b.drain r.2 (get b.lists r.2).length
  else if (get b.lists r.2).length = b.numSteps then b.store r.2 else b

/-- `stop_current_episode` (replay_buffer.py:50-62). -/
def Buf.stop (b : Buf E T W) (e : E) : Buf E T W :=
  let r := b.window e
  let b := r.1
  let l := (get b.lists r.2).length
  let b := if 0 < l ∧ l < b.numSteps then b.store r.2 else b
  let b := if 0 < l ∧ l ≤ b.numSteps then b.delFirst r.2 else b
  b.drain r.2 (get b.lists r.2).length

/-- `e[0]['weight'] = w` for the item `a` of the memory (prioritized.py:107-108). -/
def Buf.weigh (b : Buf E T W) (a : Nat) (w : W) : Buf E T W :=
  match (get b.lists a).head? with
  | some j => { b with dicts := b.dicts.modify j fun x => (x.1, some w) }
  | none => b

/-- `sample` of PrioritizedReplayBuffer, if the memory drew the items at the positions `idx` and the weights are `ws`
(prioritized.py:102-109). -/
def Buf.sample (b : Buf E T W) (idx : List Nat) (ws : List W) : Buf E T W × List Nat :=
  let sampled := idx.filterMap fun i => b.memory[i]?
  ((sampled.zip ws).foldl (fun b p => b.weigh p.1 p.2) b, sampled)

/-- A call of the buffer (replay_buffer.py:28-66, prioritized.py:102-109). -/
inductive Call (E T W : Type) where
  | append (e : E) (x : T)
  | stop (e : E)
  | sample (idx : List Nat) (ws : List W)

/-- One call (replay_buffer.py:28-66, prioritized.py:102-109). -/
def Buf.step (term : T → Bool) (b : Buf E T W) : Call E T W → Buf E T W
  | .append e x => b.append term e x
  | .stop e => b.stop e
  | .sample idx ws => (b.sample idx ws).1

/-- Calls of the buffer (iterates replay_buffer.py:28-66, prioritized.py:102-109). -/
def Buf.run (term : T → Bool) (b : Buf E T W) (calls : List (Call E T W)) : Buf E T W := calls.foldl (Buf.step term) b

end Replay
end Verif.Sharing
