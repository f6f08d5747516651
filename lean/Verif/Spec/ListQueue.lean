import Verif.Model.TreeQueue

/-!
# Specification for the tree queues: a plain list

`append` adds at the end, `popleft` removes the first element, `q[i] = v`
replaces element `i` for `0 ≤ i < len`; anything else is an assertion error.
-/

namespace Verif.ListQueue
variable {V : Type _}

/-- Plain-list semantics of one operation. -/
def step (xs : List V) : TreeQueue.Op V → List V × Py (Option V)
  | .append v => (xs ++ [v], .ok none)
  | .popleft => match xs with
    | [] => ([], .error .assertionError)
    | x :: t => (t, .ok (some x))
  | .setitem ix v =>
    if 0 ≤ ix ∧ ix < xs.length then (xs.set ix.toNat v, .ok none)
    else (xs, .error .assertionError)

/-- Plain-list semantics of a history. -/
def run (xs : List V) : List (TreeQueue.Op V) → List V × List (Py (Option V))
  | [] => (xs, [])
  | o :: os =>
    let (xs', r) := step xs o
    let (xs'', rs) := run xs' os
    (xs'', r :: rs)

/-- What a user sees of a tree queue by removing its elements one by one with
`popleft` (at most `fuel` of them). -/
def drain (op : List V → V) : Nat → TreeQueue V → List (Py (Option V))
  | 0, _ => []
  | n + 1, q => match q.popleft op with
    | .error e => [.error e]
    | .ok (x, q') => .ok x :: drain op n q'

/-- The queue shows exactly the elements `xs`: it has their number and removing
all elements with `popleft` returns them in order. -/
def Shows (op : List V → V) (q : TreeQueue V) (xs : List V) : Prop :=
  q.length = xs.length ∧ drain op q.length q = xs.map (fun x => .ok (some x))

section
variable {K : Type _} [LinearOrder K] [Zero K]

/-- Python's `min` of a non-empty list (`prioritized.py:285`). -/
def listMin : List K → K
  | [] => 0
  | x :: xs => xs.foldl min x
end

/-- Sum of the first `i` elements. -/
def prefixSum {K : Type _} [AddMonoid K] (xs : List K) (i : Nat) : K := (xs.take i).sum

/-- Successive weighted draws without replacement: with variates `us` (each a
fraction of the current total) the positions `ixs` are selected, each one by
the interval of prefix sums that contains the variate, after the earlier
selected elements were set to zero. -/
def Draws {K : Type _} [Field K] [LinearOrder K] : List K → List K → List Nat → Prop
  | _, [], [] => True
  | xs, u :: us, i :: ixs =>
    prefixSum xs i ≤ u * xs.sum ∧ u * xs.sum < prefixSum xs (i + 1) ∧
      Draws (xs.set i 0) us ixs
  | _, _, _ => False

end Verif.ListQueue
