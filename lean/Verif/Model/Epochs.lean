/-!
Model of the training of PPO and of TRPO's value function for some epochs, in minibatches taken from a
`chainer.iterators.SerialIterator`: `/repo/chainerrl/agents/ppo.py` (lines 438-447) and
`/repo/chainerrl/agents/trpo.py` (lines 374-378).

`SerialIterator` is part of Chainer; it is modelled here as Chainer implements it (repeating, with
a new random order for each pass).  The random orders are given as a function.
-/

set_option autoImplicit false

namespace Verif.Epochs
variable {α : Type}

/-- The attributes of the iterator (the iterator of ppo.py:438-440 and trpo.py:374-376). -/
structure Iter where
  pos : Nat
  epoch : Nat

/-- `SerialIterator.__next__`: a slice of the current order, completed from the next order if
the current one ends; `orders k` is the order of pass `k` over a dataset of size `n`
(the iterator of ppo.py:446-447 and trpo.py:377-378). -/
def next (orders : Nat → List α) (n batchSize : Nat) (it : Iter) : List α × Iter :=
  let iEnd := it.pos + batchSize
  let batch := ((orders it.epoch).take iEnd).drop it.pos
  if n ≤ iEnd then
    let rest := iEnd - n
    (batch ++ (orders (it.epoch + 1)).take rest, ⟨rest, it.epoch + 1⟩)
  else (batch, ⟨iEnd, it.epoch⟩)

/-- `while dataset_iter.epoch < self.epochs` (ppo.py:446-447; trpo.py:377-378), for at most `fuel` iterations; `none`
if that is not enough. -/
def loop (orders : Nat → List α) (n batchSize epochs : Nat) : Nat → Iter → Option (List (List α))
  | fuel, it =>
    if epochs ≤ it.epoch then some []
    else match fuel with
      | 0 => none
      | fuel + 1 =>
        let r := next orders n batchSize it
        (loop orders n batchSize epochs fuel r.2).map (r.1 :: ·)

/-- The minibatches of one update (ppo.py:438-447; trpo.py:374-378). -/
def minibatches (orders : Nat → List α) (n batchSize epochs fuel : Nat) : Option (List (List α)) :=
  loop orders n batchSize epochs fuel ⟨0, 0⟩

end Verif.Epochs
