import Verif.Model.Py

/-!
Model of the forward computation of stateless recurrent links:
`/repo/chainerrl/links/stateless_recurrent.py` (lines 126-218),
`stateless_recurrent_sequential.py` and `stateless_recurrent_branched.py`.

Simplifications.  An array is the list of its rows along the first axis; what a row is does
not matter.  A non-recurrent layer acts on every row separately (true of all layers without
batch statistics) and returns an array or a tuple of arrays.  The Chainer links `NStepLSTM`,
`NStepGRU`, `NStepRNNReLU` and `NStepRNNTanh` are all `core`: they run a cell over every
sequence from that sequence's row of the state (`None` is the zero state); the pair `(h, c)`
of an LSTM is one state.  Tuples of tuples (a `StatelessRecurrentBranched` whose child
returns a tuple) are not modelled and are a `TypeError` here.
-/

set_option autoImplicit false

namespace Verif.NStepForward

/-- An array, or a tuple of arrays (the sequences of stateless_recurrent.py:144-180). -/
inductive Val (V : Type) where
  | arr (rows : List V)
  | tup (arrays : List (List V))
deriving DecidableEq

/-- A layer (stateless_recurrent.py:126-141, stateless_recurrent_branched.py:6-16, stateless_recurrent_sequential.py:12-26). -/
inductive Layer (V S : Type) where
  | core (cell : S → V → S × V) (zero : S)
  | fn (f : List V → V)
  | fnTup (k : Nat) (f : List V → Fin k → V)
  | seq (layers : List (Layer V S))
  | branch (children : List (Layer V S))

/-- A batched recurrent state (stateless_recurrent.py:42-62). -/
inductive RS (S : Type) where
  | none
  | rows (states : List S)
  | list (states : List (RS S))

variable {V S : Type}

/-- `is_recurrent_link` (stateless_recurrent.py:126-141). -/
def Layer.isRecurrent : Layer V S → Bool
  | .fn _ => false
  | .fnTup _ _ => false
  | _ => true

/-- Python's `len` of a sequence: of a tuple it is the number of arrays (stateless_recurrent_sequential.py:39). -/
def Val.pyLen : Val V → Nat
  | .arr rows => rows.length
  | .tup arrays => arrays.length

/-- The arrays `seq[i] for seq in sequences` of tuples (stateless_recurrent.py:161-180). -/
def component (i : Nat) : List (Val V) → Py (List V)
  | [] => .ok []
  | .arr _ :: _ => .error .typeError
  | .tup arrays :: rest => do
    let x ← pyGet arrays i
    let xs ← component i rest
    pure (x ++ xs)

/-- `F.concat(sequences, axis=0)` of arrays (stateless_recurrent.py:161-180). -/
def concatArrays : List (Val V) → Py (List V)
  | [] => .ok []
  | .tup _ :: _ => .error .typeError
  | .arr x :: rest => do
    let xs ← concatArrays rest
    pure (x ++ xs)

/-- `concatenate_sequences` (stateless_recurrent.py:161-180). -/
def concatSeqs : List (Val V) → Py (Val V)
  | [] => .error .indexError
  | .tup arrays :: rest => do
    let xs ← (List.range arrays.length).mapM (fun i => component i (.tup arrays :: rest))
    pure (.tup xs)
  | .arr x :: rest => do
    let xs ← concatArrays (.arr x :: rest)
    pure (.arr xs)

/-- `F.split_axis(xs, sections, axis=0)`: the pieces from position `pos` on (stateless_recurrent.py:144-158). -/
def splitAxis (xs : List V) (pos : Nat) : List Nat → List (List V)
  | [] => [xs.drop pos]
  | s :: rest => (xs.take s).drop pos :: splitAxis xs s rest

/-- `zip(*lists)`: the tuples of first elements, of second elements, and so on, as long as
every list has one; `fuel` bounds their number (stateless_recurrent_branched.py:31). -/
def zipStar {α : Type} : Nat → List (List α) → List (List α)
  | 0, _ => []
  | fuel + 1, ls =>
    if ls.isEmpty || ls.any List.isEmpty then []
    else ls.filterMap List.head? :: zipStar fuel (ls.map List.tail)

/-- `split_batched_sequences` (stateless_recurrent.py:144-158). -/
def splitSeqs (h : Val V) (sections : List Nat) : List (Val V) :=
  match h with
  | .arr xs => (splitAxis xs 0 sections).map .arr
  | .tup arrays =>
    (zipStar (sections.length + 1) (arrays.map fun xs => splitAxis xs 0 sections)).map .tup

/-- The rows of an argument list: the `t`-th row of every array (stateless_recurrent_sequential.py:52-55). -/
def argRows : Val V → Py (List (List V))
  | .arr xs => .ok (xs.map fun x => [x])
  | .tup [] => .error .typeError
  | .tup (a :: arrays) =>
    if arrays.all (fun b => b.length == a.length) then .ok (zipStar a.length (a :: arrays))
    else .error .valueError

/-- `layer(*h)` or `layer(h)` (stateless_recurrent_sequential.py:52-55). -/
def callFn : Layer V S → Val V → Py (Val V)
  | .fn f, h => do
    let rows ← argRows h
    pure (.arr (rows.map f))
  | .fnTup k f, h => do
    let rows ← argRows h
    pure (.tup (List.ofFn fun i : Fin k => rows.map fun r => f r i))
  | _, _ => .error .typeError

/-- A cell run over one sequence: the outputs and the last state (the link called in stateless_recurrent.py:183-218). -/
def runCell (cell : S → V → S × V) : S → List V → S × List V
  | s, [] => (s, [])
  | s, x :: xs =>
    let r := cell s x
    let q := runCell cell r.1 xs
    (q.1, r.2 :: q.2)

/-- An `NStep...` link applied to all sequences (the link called in stateless_recurrent.py:183-218). -/
def runCore (cell : S → V → S × V) : List S → List (Val V) → Py (List S × List (Val V))
  | [], [] => .ok ([], [])
  | s :: ss, .arr x :: xs => do
    let q := runCell cell s x
    let r ← runCore cell ss xs
    pure (q.1 :: r.1, .arr q.2 :: r.2)
  | _, _ => .error .typeError

/-- The states an `NStep...` link starts from (stateless_recurrent.py:199-203, 209). -/
def coreStates (zero : S) (n : Nat) : RS S → Py (List S)
  | .none => .ok (List.replicate n zero)
  | .rows ss => .ok ss
  | .list _ => .error .typeError

/-- The output of a recurrent link: a list of sequences or one concatenated value (stateless_recurrent.py:183-218). -/
inductive Out (V : Type) where
  | split (ys : List (Val V))
  | concat (y : Val V)

/-- `if not seq_mode: h = split_batched_sequences(h, sections)`
(stateless_recurrent_sequential.py:42-44). -/
def toSeqs (sections : List Nat) : Out V → List (Val V)
  | .split ys => ys
  | .concat y => splitSeqs y sections

/-- `if seq_mode: h = concatenate_sequences(h)`
(stateless_recurrent_sequential.py:49-51). -/
def toBatch : Out V → Py (Val V)
  | .split ys => concatSeqs ys
  | .concat y => .ok y

/-- The output in the mode asked for (stateless_recurrent_sequential.py:56-61, and
stateless_recurrent.py:205-206, 211-212). -/
def finish (concat : Bool) (sections : List Nat) (h : Out V) : Py (Out V) :=
  if concat then do
    let y ← toBatch h
    pure (.concat y)
  else .ok (.split (toSeqs sections h))

/-- A list of sequences (stateless_recurrent.py:183-218). -/
def Out.seqs : Out V → Py (List (Val V))
  | .split ys => .ok ys
  | .concat _ => .error .typeError

/-- `np.cumsum([len(x) for x in sequences[:-1]])`
(stateless_recurrent_sequential.py:39). -/
def cumsum : Nat → List Nat → List Nat
  | _, [] => []
  | acc, x :: xs => (acc + x) :: cumsum (acc + x) xs

/-- `sections` (stateless_recurrent_sequential.py:39). -/
def sectionsOf (xs : List (Val V)) : List Nat := cumsum 0 (xs.dropLast.map Val.pyLen)

/-- The states of the children: `None` stands for a list of `None`
(stateless_recurrent_sequential.py:31-35). -/
def childStates (n : Nat) : RS S → Py (List (RS S))
  | .none => .ok (List.replicate n .none)
  | .list ss => pyAssert (ss.length == n) (.ok ss)
  | .rows _ => .error .typeError

/-- The same in a `StatelessRecurrentBranched`, where nothing checks the length
(stateless_recurrent_branched.py:19-21). -/
def branchStates (n : Nat) : RS S → Py (List (RS S))
  | .none => .ok (List.replicate n .none)
  | .list ss => .ok ss
  | .rows _ => .error .typeError

/-- The arrays of a list of plain sequences, or of plain values: a tuple made of them
(stateless_recurrent_branched.py:22-32). -/
def arraysOf : List (Val V) → Py (List (List V))
  | [] => .ok []
  | .arr x :: rest => do
    let xs ← arraysOf rest
    pure (x :: xs)
  | .tup _ :: _ => .error .typeError

/-- The concatenated outputs of the children (stateless_recurrent_branched.py:22-26). -/
def concatsOf : List (Out V) → Py (List (Val V))
  | [] => .ok []
  | .concat y :: rest => do
    let ys ← concatsOf rest
    pure (y :: ys)
  | .split _ :: _ => .error .typeError

/-- The split outputs of the children (stateless_recurrent_branched.py:22-31). -/
def splitsOf : List (Out V) → Py (List (List (Val V)))
  | [] => .ok []
  | .split y :: rest => do
    let ys ← splitsOf rest
    pure (y :: ys)
  | .concat _ :: _ => .error .typeError

/-- The end of `StatelessRecurrentBranched.n_step_forward`
(stateless_recurrent_branched.py:25-32); `n` is the number of children, `b` the number of
sequences. -/
def branchOut (concat : Bool) (n b : Nat) (ys : List (Out V)) : Py (Out V) :=
  if concat then do
    let vs ← concatsOf ys
    let as ← arraysOf vs
    pure (.concat (.tup as))
  else do
    let vss ← splitsOf ys
    pyAssert (vss.length == n && vss.head?.map List.length == some b) do
      let tuples ← (zipStar b vss).mapM arraysOf
      pure (.split (tuples.map .tup))

mutual
/-- `call_recurrent_link(link, sequences, recurrent_state, output_mode)`
(stateless_recurrent.py:183-218). -/
def call : Layer V S → List (Val V) → RS S → Bool → Py (Out V × RS S)
  | .core cell zero, xs, rs, concat => do
    let ss ← coreStates zero xs.length rs
    let r ← runCore cell ss xs
    let y ← finish concat [] (.split r.2)
    pure (y, .rows r.1)
  | .seq layers, xs, rs, concat =>
    -- StatelessRecurrentSequential.n_step_forward (28-65)
    pyAssert (!xs.isEmpty) do
      let queue ← childStates (layers.countP Layer.isRecurrent) rs
      let r ← seqLoop (sectionsOf xs) layers (.split xs) queue
      let y ← finish concat (sectionsOf xs) r.1
      pyAssert (r.2.2.isEmpty) (pure (y, .list r.2.1))
  | .branch children, xs, rs, concat => do
    -- StatelessRecurrentBranched.n_step_forward (18-32); unpacking an empty zip raises
    let states ← branchStates children.length rs
    let r ← branchLoop xs concat children states
    if r.1.isEmpty then .error .valueError
    else do
      let y ← branchOut concat children.length xs.length r.1
      pure (y, .list r.2)
  | _, _, _, _ => .error .valueError
/-- The loop over the layers (stateless_recurrent_sequential.py:40-55): the last `h`, the new
states and what is left of the queue (popped from the end of the reversed list, which is
the front). -/
def seqLoop (sections : List Nat) : List (Layer V S) → Out V → List (RS S) →
    Py (Out V × List (RS S) × List (RS S))
  | [], h, queue => .ok (h, [], queue)
  | layer :: layers, h, queue =>
    if layer.isRecurrent then
      match queue with
      | [] => .error .indexError
      | rs :: queue => do
        let r ← call layer (toSeqs sections h) rs false
        let q ← seqLoop sections layers r.1 queue
        pure (q.1, r.2 :: q.2.1, q.2.2)
    else do
      let x ← toBatch h
      let y ← callFn layer x
      seqLoop sections layers (.concat y) queue
/-- The calls of the children (stateless_recurrent_branched.py:22-24). -/
def branchLoop (xs : List (Val V)) (concat : Bool) : List (Layer V S) → List (RS S) →
    Py (List (Out V) × List (RS S))
  | layer :: layers, rs :: states => do
    let r ← call layer xs rs concat
    let q ← branchLoop xs concat layers states
    pure (r.1 :: q.1, r.2 :: q.2)
  | _, _ => .ok ([], [])
end

/-- `split_one_step_batch_input(x)` of an array (stateless_recurrent.py:8-24): one sequence of
one row for every row of the batch. -/
def splitOneStep (xs : List V) : List (Val V) := xs.map fun x => .arr [x]

/-- `StatelessRecurrent.__call__` (stateless_recurrent.py:64-80), which asserts that the input
is an array. -/
def oneStep (l : Layer V S) (x : Val V) (rs : RS S) : Py (Out V × RS S) :=
  match x with
  | .arr xs => call l (splitOneStep xs) rs true
  | .tup _ => .error .assertionError

end Verif.NStepForward
