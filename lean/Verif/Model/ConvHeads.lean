import Mathlib.Algebra.BigOperators.Group.Finset.Basic
import Mathlib.Algebra.BigOperators.Fin
import Verif.Model.Py
set_option autoImplicit false

/-!
# Models of the convolutional heads

`chainerrl/links/dqn_head.py` (NatureDQNHead, NIPSDQNHead) and the convolutions of `chainerrl/q_functions/dueling_dqn.py`
(DuelingDQN), on one image of a batch.  Chainer's `L.Convolution2D` and `L.Linear` (not part of the repository) are
modelled as documented: no padding, output sizes rounded down, an error when an output would be empty or the number of
channels or of features is another one.  Weights are arbitrary numbers of any commutative semiring, the
activation is any function of a number.
-/

namespace Verif.ConvHeads

variable {K : Type} [CommSemiring K]

/-- An image: channels, height, width, and the value at a channel, row and column (the input of dqn_head.py:25-29). -/
structure Img (K : Type) where
  ch : Nat
  h : Nat
  w : Nat
  px : Nat → Nat → Nat → K

/-- `L.Convolution2D(inCh, outCh, k, stride=stride)` (dqn_head.py:15-19, 41-44). -/
structure Conv (K : Type) where
  inCh : Nat
  outCh : Nat
  k : Nat
  stride : Nat
  W : Nat → Nat → Nat → Nat → K
  b : Nat → K

/-- Chainer's `get_conv_outsize` without padding (used by the links of dqn_head.py:15-19). -/
def outSize (size k stride : Nat) : Nat := (size - k) / stride + 1

/-- A call of `L.Convolution2D` (called in dqn_head.py:26-28). -/
def Conv.call (l : Conv K) (x : Img K) : Py (Img K) :=
  if x.ch ≠ l.inCh then .error .typeError
  else if x.h < l.k ∨ x.w < l.k then .error .runtimeError
  else .ok ⟨l.outCh, outSize x.h l.k l.stride, outSize x.w l.k l.stride, fun o i j =>
    l.b o + ∑ c ∈ Finset.range l.inCh, ∑ u ∈ Finset.range l.k, ∑ v ∈ Finset.range l.k,
      l.W o c u v * x.px c (i * l.stride + u) (j * l.stride + v)⟩

/-- `L.Linear(size, n)` (dqn_head.py:20, 45). -/
structure Lin (K : Type) where
  size : Nat
  n : Nat
  W : Nat → Nat → K
  b : Nat → K

/-- Feature `i` of an image as a vector (row-major order) (done by the link of dqn_head.py:20). -/
def Img.flat (x : Img K) (i : Nat) : K := x.px (i / (x.h * x.w)) (i / x.w % x.h) (i % x.w)

/-- A call of `L.Linear` on an image: it is flattened first (called in dqn_head.py:29). -/
def Lin.call (l : Lin K) (x : Img K) : Py (List K) :=
  if x.ch * x.h * x.w ≠ l.size then .error .typeError
  else .ok ((List.range l.n).map fun o => l.b o + ∑ i ∈ Finset.range l.size, l.W o i * x.flat i)

/-- The activation on every value of an image (dqn_head.py:28). -/
def Img.act (f : K → K) (x : Img K) : Img K := { x with px := fun c i j => f (x.px c i j) }

/-- The loop over the convolutions (dqn_head.py:26-29, dueling_dqn.py:37-38). -/
def convs (f : K → K) : List (Conv K) → Img K → Py (Img K)
  | [], x => .ok x
  | l :: ls, x => do
    let y ← l.call x
    convs f ls (y.act f)

/-- The parameters of a network: weights and biases of the convolutions by position, and of the linear layer
(of the links in dqn_head.py:15-20, 41-45 and dueling_dqn.py:26-33). -/
structure Params (K : Type) where
  W : Nat → Nat → Nat → Nat → Nat → K
  b : Nat → Nat → K
  linW : Nat → Nat → K
  linb : Nat → K

/-- The convolutions of `NatureDQNHead` (dqn_head.py:15-19) and of `DuelingDQN` (dueling_dqn.py:26-30). -/
def natureConvs (p : Params K) (channels : Nat) : List (Conv K) :=
  [⟨channels, 32, 8, 4, p.W 0, p.b 0⟩, ⟨32, 64, 4, 2, p.W 1, p.b 1⟩, ⟨64, 64, 3, 1, p.W 2, p.b 2⟩]

/-- The convolutions of `NIPSDQNHead` (dqn_head.py:41-44). -/
def nipsConvs (p : Params K) (channels : Nat) : List (Conv K) :=
  [⟨channels, 16, 8, 4, p.W 0, p.b 0⟩, ⟨16, 32, 4, 2, p.W 1, p.b 1⟩]

/-- `NatureDQNHead.__call__` (dqn_head.py:20, 25-29). -/
def nature (p : Params K) (f : K → K) (channels outputs : Nat) (x : Img K) : Py (List K) := do
  let y ← convs f (natureConvs p channels) x
  let z ← (Lin.mk 3136 outputs p.linW p.linb).call y
  pure (z.map f)

/-- `NIPSDQNHead.__call__` (dqn_head.py:45, 50-54). -/
def nips (p : Params K) (f : K → K) (channels outputs : Nat) (x : Img K) : Py (List K) := do
  let y ← convs f (nipsConvs p channels) x
  let z ← (Lin.mk 2592 outputs p.linW p.linb).call y
  pure (z.map f)

/-- `DuelingDQN.__call__` (dueling_dqn.py:35-53) up to the heads: `heads` are the two streams, which both begin with a linear
layer of 3136 inputs (lines 32-33), and what is made of them (C92). -/
def dueling {Y : Type} (p : Params K) (f : K → K) (channels : Nat) (heads : (Nat → K) → Y) (x : Img K) : Py Y := do
  let y ← convs f (natureConvs p channels) x
  if y.ch * y.h * y.w ≠ 3136 then .error .typeError
  else pure (heads fun i => if i < 3136 then y.flat i else 0)

end Verif.ConvHeads
