set_option autoImplicit false

/-!
# Models of `VectorFrameStack` (`chainerrl/wrappers/vector_frame_stack.py`) and
`FrameStack` (`chainerrl/wrappers/atari_wrappers.py`)

The wrapped environment is an oracle: each call comes with the observations it
returns.  An observation `F` is one frame; the stacked observation (`LazyFrames`)
is the list of its frames, oldest first.  Rewards, `done` and `info`, which are
passed on unchanged, are not modelled, nor are the spaces.
-/

namespace Verif.FrameStack

variable {F : Type}

/-- `deque.append` on a deque with `maxlen=k` (vector_frame_stack.py:81-95). -/
def push (k : Nat) (q : List F) (x : F) : List F := (q ++ [x]).drop (q.length + 1 - k)

/-- vector_frame_stack.py lines 87-88, atari_wrappers.py lines 205-206:
`for _ in range(n): frames.append(ob)`. -/
def pushN (k : Nat) (x : F) : Nat → List F → List F
  | 0, q => q
  | n + 1, q => pushN k x n (push k q x)

/-! ## VectorFrameStack -/

/-- A call together with what the wrapped environment returns (`batch_ob`) (vector_frame_stack.py:81-95). -/
inductive VOp (F : Type) where
  | reset (mask : Option (List Bool)) (obs : List F)
  | step (obs : List F)

/-- vector_frame_stack.py lines 71-73. -/
structure VState (F : Type) where
  k : Nat
  frames : List (List F)

/-- Line 73 (vector_frame_stack.py:73). -/
def VState.init (k numEnvs : Nat) : VState F := ⟨k, List.replicate numEnvs []⟩

/-- Lines 83-84. -/
def maskOf (n : Nat) : Option (List Bool) → List Bool
  | none => List.replicate n false
  | some m => m

/-- Lines 85-88 for one environment. -/
def resetFrames (k : Nat) (m : Bool) (q : List F) (ob : F) : List F := if m then q else pushN k ob k q

/-- Lines 85-88; frames beyond the shortest list are unchanged. -/
def resetAll (k : Nat) : List Bool → List (List F) → List F → List (List F)
  | m :: ms, q :: qs, o :: os => resetFrames k m q o :: resetAll k ms qs os
  | _, qs, _ => qs

/-- Lines 93-94. -/
def stepAll (k : Nat) : List (List F) → List F → List (List F)
  | q :: qs, o :: os => push k q o :: stepAll k qs os
  | qs, _ => qs

/-- Lines 97-101: the assertion on the first environment, then all stacks
(`None`: AssertionError, or IndexError without environments). -/
def getOb (v : VState F) : Option (List (List F)) :=
  match v.frames with
  | [] => none
  | q :: _ => if q.length = v.k then some v.frames else none

/-- Lines 81-95. -/
def VState.call (v : VState F) : VOp F → VState F × Option (List (List F))
  | .reset mask obs =>
    let v' := { v with frames := resetAll v.k (maskOf v.frames.length mask) v.frames obs }
    (v', getOb v')
  | .step obs =>
    let v' := { v with frames := stepAll v.k v.frames obs }
    (v', getOb v')

/-- The state after a sequence of calls (iterates vector_frame_stack.py:81-95). -/
def VState.after (v : VState F) (ops : List (VOp F)) : VState F := ops.foldl (fun v op => (v.call op).1) v

/-! ## FrameStack -/

/-- atari_wrappers.py:203-212. -/
inductive SOp (F : Type) where
  | reset (ob : F)
  | step (ob : F)

/-- atari_wrappers.py lines 203-212 (the deque only). -/
def sCall (k : Nat) (q : List F) : SOp F → List F
  | .reset ob => pushN k ob k q
  | .step ob => push k q ob

/-- Lines 214-216: `None` is AssertionError. -/
def sGetOb (k : Nat) (q : List F) : Option (List F) := if q.length = k then some q else none

/-- What the last call of a sequence returns (iterates atari_wrappers.py:203-216). -/
def sRun (k : Nat) (ops : List (SOp F)) : Option (List F) := sGetOb k (ops.foldl (sCall k) [])

end Verif.FrameStack
