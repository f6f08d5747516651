import Verif.Model.Py

/-!
Model of the conversion of a network to a noisy network,
`/repo/chainerrl/links/noisy_chain.py` and the constructor of `FactorizedNoisyLinear`
(`noisy_linear.py`, lines 24-50).

Links are Python objects that can occur several times in a network, so the model has a heap of links
with identities.  A `chainer.Chain` has a dictionary of children, a `chainer.ChainList` a list; a
`Sequence` (or `chainer.Sequential`) is a `ChainList` that also keeps the list of its layers, links
and plain functions.  Names of children of a `ChainList`, devices and the values of the initial
weights are not modelled: weights only have an identity.
-/

set_option autoImplicit false

namespace Verif.Noisy

/-- Input size (`none` until the first call), output size and whether there is a bias (noisy_linear.py:21-42). -/
structure Size where
  inSize : Option Nat
  outSize : Nat
  bias : Bool

/-- An entry of `Sequence.layers`: a link or a function (noisy_chain.py:41-57). -/
inductive Item where
  | link (i : Nat)
  | fn (f : Nat)
  deriving DecidableEq

/-- The class of a `Chain` (noisy_chain.py:28-57). -/
inductive Cls where
  | noisy
  | plain (tag : Nat)

/-- A link (noisy_chain.py:28-57). -/
inductive Node where
  | linear (s : Size) (w : Nat)
  | other (tag : Nat)
  | chain (cls : Cls) (children : List (String × Nat))
  | list (layers : Option (List Item)) (children : List Nat)

/-- The heap; `next` is the next fresh identity (the objects of noisy_chain.py:28-57). -/
structure H where
  node : Nat → Option Node
  next : Nat

/-- Store a link (noisy_chain.py:28-57). -/
def H.put (h : H) (i : Nat) (n : Node) : H := { h with node := fun j => if j = i then some n else h.node j }

/-- `FactorizedNoisyLinear.__init__` (noisy_linear.py:24-50): a chain with two new linear links of the
same sizes as the given one.  The weights of the given link are not used. -/
def newNoisy (h : H) (s : Size) : H × Nat :=
  let h1 := (h.put h.next (.linear s h.next)).put (h.next + 1) (.linear s (h.next + 1))
  let h2 := h1.put (h.next + 2) (.chain .noisy [("mu", h.next), ("sigma", h.next + 1)])
  ({ h2 with next := h.next + 3 }, h.next + 2)

/-- `func_to_factorized_noisy` (noisy_chain.py:19-23). -/
def func (h : H) (i : Nat) : H × Nat :=
  match h.node i with
  | some (.linear s _) => newNoisy h s
  | _ => (h, i)

/-- `getattr(link, name)` for a child (noisy_chain.py:34-39). -/
def H.child (h : H) (i : Nat) (name : String) : Py Nat :=
  match h.node i with
  | some (.chain _ cs) => match cs.lookup name with
    | some c => .ok c
    | none => .error .attributeError
  | _ => .error .attributeError

/-- `delattr` and `setattr` of a child (noisy_chain.py:37-39). -/
def H.setChild (h : H) (i : Nat) (name : String) (c : Nat) : H :=
  match h.node i with
  | some (.chain cls cs) => h.put i (.chain cls (cs.map fun e => if e.1 = name then (name, c) else e))
  | _ => h

/-- `_replace_unique_item` (noisy_chain.py:60-63). -/
def replaceUnique (xs : List Item) (old new : Nat) : Py (List Item) :=
  let indices := (xs.zipIdx.filter fun p => p.1 = .link old).map (·.2)
  pyAssert (decide (indices.length = 1)) do
    let k ← pyGet indices 0
    .ok (xs.set k (.link new))

/-- `_replace_unique_item(link.layers, child, new_child)` if there are layers (noisy_chain.py:53-57). -/
def replaceLayers (layers : Option (List Item)) (old new : Nat) : Py (Option (List Item)) :=
  match layers with
  | none => .ok none
  | some xs => do
    let ys ← replaceUnique xs old new
    .ok (some ys)

/-- The children of a `ChainList` (noisy_chain.py:28-57). -/
def H.listChildren (h : H) (i : Nat) : List Nat :=
  match h.node i with
  | some (.list _ cs) => cs
  | _ => []

/-- The layers of a `Sequence` (noisy_chain.py:41-57). -/
def H.layers (h : H) (i : Nat) : Option (List Item) :=
  match h.node i with
  | some (.list ls _) => ls
  | _ => none

/-- The loop over the children of a `Chain` (noisy_chain.py:30-39). -/
def mapChain (recur : H → Nat → Py H) (i : Nat) : List String → H → Py H
  | [], h => .ok h
  | name :: names, h => do
    let child ← h.child i name
    let r := func h child
    if r.2 = child then do
      let h ← recur r.1 child
      mapChain recur i names h
    else mapChain recur i names (r.1.setChild i name r.2)

/-- The loop over the children of a `ChainList` (noisy_chain.py:40-57), with indices `ks`. -/
def mapList (recur : H → Nat → Py H) (i : Nat) : List Nat → H → Py H
  | [], h => .ok h
  | k :: ks, h => do
    let child ← pyGet (h.listChildren i) (k : Int)
    let r := func h child
    if r.2 = child then do
      let h ← recur r.1 child
      mapList recur i ks h
    else do
      let layers ← replaceLayers (r.1.layers i) child r.2
      mapList recur i ks (r.1.put i (.list layers ((r.1.listChildren i).set k r.2)))

/-- `_map_links` (noisy_chain.py:28-57) with the given recursion limit. -/
def mapLinks : Nat → H → Nat → Py H
  | 0, _, _ => .error .recursionError
  | n + 1, h, i =>
    match h.node i with
    | some (.chain _ cs) => mapChain (mapLinks n) i (cs.map (·.1)) h
    | some (.list _ cs) => mapList (mapLinks n) i (List.range cs.length) h
    | _ => .ok h

/-- `to_factorized_noisy` (noisy_chain.py:13-25). -/
def toFactorizedNoisy (limit : Nat) (h : H) (root : Nat) : Py H := mapLinks limit h root

/-- `FactorizedNoisyLinear.__call__` needs `mu` and `sigma` to be links with a weight `W`
(noisy_linear.py:63-73): here, the class of the links it finds there.  A link without `W` raises. -/
def noisyCall (h : H) (i : Nat) : Py (Size × Size) := do
  let mu ← h.child i "mu"
  let sigma ← h.child i "sigma"
  match h.node mu, h.node sigma with
  | some (.linear s _), some (.linear t _) => .ok (s, t)
  | _, _ => .error .attributeError

end Verif.Noisy
