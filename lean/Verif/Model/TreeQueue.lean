import Verif.Model.Py
import Mathlib.Algebra.Order.Field.Basic

/-!
# Model of `chainerrl/misc/prioritized.py:109-291`
(`TreeQueue`, `SumTreeQueue`, `MinTreeQueue`)

Values are taken from an arbitrary type with the operations that the code uses.  Most
properties are about exact arithmetic, in a linearly ordered field; Python's float arithmetic is
the instance of `Model/Float64.lean` (C142).
Nodes are Python lists mutated in place; no node is shared between trees, so
the model returns the new node.
-/

namespace Verif

/-- `prioritized.py:160`: `[]`, `[None, None, value]` or `[left, right, value]`. -/
inductive Node (V : Type _) where
  | nil
  | leaf (v : V)
  | inner (l r : Node V) (v : V)

namespace Node
variable {V : Type _}

/-- `node[2]` when `node` is truthy (`prioritized.py:120-123`, `219-222`). -/
def value? : Node V → Option V
  | .nil => none
  | .leaf v => some v
  | .inner _ _ v => some v

/-- `prioritized.py:111-113` `_expand` followed by the unpacking of line 142.
The children of a leaf are `None`; writing below them raises `TypeError`. -/
def children? : Node V → Option (Node V × Node V)
  | .nil => some (.nil, .nil)
  | .leaf _ => none
  | .inner l r _ => some (l, r)

/-- `prioritized.py:116-127` `_reduce`: the node with children `l` and `r`. -/
def reduce (op : List V → V) (l r : Node V) : Node V :=
  match l.value?.toList ++ r.value?.toList with
  | [] => .nil
  | vs => .inner l r (op vs)

/-- `prioritized.py:130-149` `_write`.  Returns the old value and the new node. -/
def write (op : List V → V) (l r : Int) (node : Node V) (key : Int) (value : Option V) :
    Py (Option V × Node V) :=
  if r - l = 1 then
    .ok (node.value?, match value with
      | none => .nil
      | some v => .leaf v)
  else if r - l < 1 then .error .recursionError
  else
    match node.children? with
    | none => .error .typeError
    | some (nl, nr) =>
      if key < (l + r) / 2 then
        match write op l ((l + r) / 2) nl key value with
        | .error e => .error e
        | .ok (ret, nl') => .ok (ret, reduce op nl' nr)
      else
        match write op ((l + r) / 2) r nr key value with
        | .error e => .error e
        | .ok (ret, nr') => .ok (ret, reduce op nl nr')
termination_by (r - l).toNat
decreasing_by all_goals omega

end Node

/-- `prioritized.py:152-164`.  `tree` is `none` when the attributes `root` and
`bounds` do not exist, otherwise `(root, ixl, ixr)`. -/
structure TreeQueue (V : Type _) where
  length : Nat
  tree : Option (Node V × Int × Int)

namespace TreeQueue
variable {V : Type _}

/-- `prioritized.py:162-164`. -/
def init : TreeQueue V := ⟨0, none⟩

/-- `prioritized.py:171-173`. -/
def write (op : List V → V) (q : TreeQueue V) (ix : Int) (val : Option V) :
    Py (Option V × TreeQueue V) :=
  match q.tree with
  | none => .error .attributeError
  | some (root, ixl, ixr) =>
    match root.write op ixl ixr ix val with
    | .error e => .error e
    | .ok (ret, root') => .ok (ret, { q with tree := some (root', ixl, ixr) })

/-- `prioritized.py:166-169` `__setitem__`. -/
def setitem (op : List V → V) (q : TreeQueue V) (ix : Int) (val : V) : Py (TreeQueue V) :=
  if 0 ≤ ix ∧ ix < q.length then
    match q.write op ix (some val) with
    | .error e => .error e
    | .ok (_, q') => .ok q'
  else .error .assertionError

/-- `prioritized.py:182-188`: a full tree gets a new root, with the old tree on
its left and nothing on its right. -/
def grow (q : TreeQueue V) : TreeQueue V :=
  match q.tree with
  | some (root, ixl, ixr) =>
    if ixr = q.length then
      match root.value? with
      | some v => { q with tree := some (.inner root .nil v, ixl, ixr + (ixr - ixl)) }
      | none => q
    else q
  | none => q

/-- `prioritized.py:175-191` `append`. -/
def append (op : List V → V) (q : TreeQueue V) (value : V) : Py (TreeQueue V) :=
  if q.length = 0 then .ok ⟨1, some (.leaf value, 0, 1)⟩
  else
    match q.grow.write op q.length (some value) with
    | .error e => .error e
    | .ok (none, q') => .ok { q' with length := q.length + 1 }
    | .ok (some _, _) => .error .assertionError

/-- `prioritized.py:205-209`: drop the left half of the tree when it is empty. -/
def shrink (root : Node V) (ixl ixr : Int) : Py (Node V × Int × Int) :=
  if (ixl + ixr) / 2 = 0 then
    match root with
    | .inner _ r _ => .ok (r, (ixl + ixr) / 2, ixr)
    | _ => .error .valueError
  else .ok (root, ixl, ixr)

/-- `prioritized.py:193-210` `popleft`.  Returns the removed value (`None` if
the slot was empty). -/
def popleft (op : List V → V) (q : TreeQueue V) : Py (Option V × TreeQueue V) :=
  if q.length = 0 then .error .assertionError
  else
    match q.write op 0 none with
    | .error e => .error e
    | .ok (ret, q') =>
      if q.length - 1 = 0 then .ok (ret, ⟨0, none⟩)
      else match q'.tree with
        | none => .error .attributeError
        | some (root, ixl, ixr) =>
          match shrink root (ixl - 1) (ixr - 1) with
          | .error e => .error e
          | .ok t => .ok (ret, ⟨q.length - 1, some t⟩)

/-- `prioritized.py:241-245`, `287-291`: the value at the root (`none` stands
for the constant returned for an empty queue: `0.0` or `inf`). -/
def rootValue (q : TreeQueue V) : Option V :=
  if q.length = 0 then none
  else match q.tree with
    | none => none
    | some (root, _, _) => root.value?

/-- Public operations (misc/prioritized.py:166, 175, 193). -/
inductive Op (V : Type _) where
  | append (v : V) | popleft | setitem (ix : Int) (v : V)

/-- One operation; the output is the removed value or the exception (misc/prioritized.py:166-210). -/
def step (op : List V → V) (q : TreeQueue V) : Op V → TreeQueue V × Py (Option V)
  | .append v => match q.append op v with
    | .ok q' => (q', .ok none)
    | .error e => (q, .error e)
  | .popleft => match q.popleft op with
    | .ok (x, q') => (q', .ok x)
    | .error e => (q, .error e)
  | .setitem ix v => match q.setitem op ix v with
    | .ok q' => (q', .ok none)
    | .error e => (q, .error e)

/-- A history of operations (iterates misc/prioritized.py:166-210). -/
def run (op : List V → V) (q : TreeQueue V) : List (Op V) → TreeQueue V × List (Py (Option V))
  | [] => (q, [])
  | o :: os =>
    let (q', r) := q.step op o
    let (q'', rs) := run op q' os
    (q'', r :: rs)

end TreeQueue

section Sum
variable {K : Type _} [Zero K] [Add K] [Sub K] [Mul K] [LT K] [DecidableLT K]

/-- `prioritized.py:213-227` `_find`.  Unpacking an empty node raises
`ValueError`, unpacking a leaf gives `None` children: `None[2]` never happens
because `None` is falsy, but the next unpacking raises `TypeError`. -/
def Node.find (l r : Int) (node : Node K) (pos : K) : Py Int :=
  if r - l = 1 then .ok l
  else if r - l < 1 then .error .recursionError
  else
    match node with
    | .nil => .error .valueError
    | .leaf _ => .error .typeError
    | .inner nl nr _ =>
      let leftValue := nl.value?.getD 0
      if pos < leftValue then find l ((l + r) / 2) nl pos
      else find ((l + r) / 2) r nr (pos - leftValue)
termination_by (r - l).toNat
decreasing_by all_goals omega

namespace SumTree

/-- `SumTreeQueue.sum` (`prioritized.py:241-245`). -/
def sum (q : TreeQueue K) : K := (q.rootValue).getD 0

/-- `prioritized.py:269-273`: the loop of `prioritized_sample`, one variate
`u` in `[0,1)` per draw (`np.random.uniform(0, s)` is `u * s`). -/
def sampleLoop : List K → TreeQueue K → Py (List Int × List (Option K) × TreeQueue K)
  | [], q => .ok ([], [], q)
  | u :: us, q =>
    match q.tree with
    | none => .error .attributeError
    | some (root, ixl, ixr) =>
      match root.value? with
      | none => .error .indexError
      | some s =>
        match root.find ixl ixr (u * s) with
        | .error e => .error e
        | .ok ix =>
          match q.write List.sum ix (some 0) with
          | .error e => .error e
          | .ok (val, q') =>
            match sampleLoop us q' with
            | .error e => .error e
            | .ok (ixs, vals, q'') => .ok (ix :: ixs, val :: vals, q'')

/-- `prioritized.py:253-254`: the loop of `uniform_sample`. -/
def zeroLoop : List Int → TreeQueue K → Py (List (Option K) × TreeQueue K)
  | [], q => .ok ([], q)
  | ix :: ixs, q =>
    match q.write List.sum ix (some 0) with
    | .error e => .error e
    | .ok (val, q') =>
      match zeroLoop ixs q' with
      | .error e => .error e
      | .ok (vals, q'') => .ok (val :: vals, q'')

/-- `prioritized.py:256-258`, `275-277`: writing the old values back. -/
def restoreLoop : List (Int × Option K) → TreeQueue K → Py (TreeQueue K)
  | [], q => .ok q
  | (ix, val) :: rest, q =>
    match q.write List.sum ix val with
    | .error e => .error e
    | .ok (_, q') => restoreLoop rest q'

/-- `prioritized.py:262-279` `prioritized_sample(n, remove)` with `n` variates. -/
def prioritizedSample (q : TreeQueue K) (us : List K) (remove : Bool) :
    Py (List Int × List (Option K) × TreeQueue K) :=
  match sampleLoop us q with
  | .error e => .error e
  | .ok (ixs, vals, q') =>
    if remove then .ok (ixs, vals, q')
    else match restoreLoop (ixs.zip vals) q' with
      | .error e => .error e
      | .ok q'' => .ok (ixs, vals, q'')

/-- `prioritized.py:247-260` `uniform_sample(n, remove)`; `ixs` is the value
returned by `sample_n_k(length, n)`. -/
def uniformSample (q : TreeQueue K) (ixs : List Int) (remove : Bool) :
    Py (List Int × List (Option K) × TreeQueue K) :=
  match zeroLoop ixs q with
  | .error e => .error e
  | .ok (vals, q') =>
    if remove then .ok (ixs, vals, q')
    else match restoreLoop (ixs.zip vals) q' with
      | .error e => .error e
      | .ok q'' => .ok (ixs, vals, q'')

end SumTree
end Sum
end Verif
