import Verif.Model.Py

/-!
Model of how worker processes share models and optimizers: `/repo/chainerrl/misc/async_.py`
(lines 16-160, 200-226), `/repo/chainerrl/misc/namedpersistent.py` and
`extract_shared_objects_from_agent`, `set_shared_objects` of
`/repo/chainerrl/experiments/train_agent_async.py` (112-121).

A parameter, a persistent value and an entry of an optimizer's state are all a *slot*: a place
that holds an array header (element type, size, address of the data) or, for persistent values
only, a Python scalar.  Data live in buffers; buffers made by `mp.RawArray` are seen by all
processes, so that two headers with the same address are views of the same data, in whatever
process they are.

Simplifications.  A shape is its size.  A path `'/a/0/W'` is the list of its components.
The state of an update rule has been initialised (`ensure_initialized_update_rule`).  Whether an
empty buffer is accepted by `np.frombuffer` is not modelled (it is).
-/

set_option autoImplicit false

namespace Verif.Shared

/-- A component of a path: an attribute of a link, a position in a `ChainList` or in a tuple,
or the name of an entry of an optimizer's state (the paths of async_.py:57-77, namedpersistent.py:4-32). -/
inductive Comp where
  | name (s : String)
  | idx (i : Nat)
  deriving DecidableEq

/-- The paths of async_.py:57-77, namedpersistent.py:4-32. -/
abbrev Path := List Comp

/-- An `np.ndarray`: a view of the buffer at `addr` (as made in async_.py:35-36, 69-70). -/
structure Arr (D : Type) where
  dtype : D
  size : Nat
  addr : Nat

/-- What a slot holds (async_.py:28-54, 57-77). -/
inductive Slot (D V : Type) where
  | arr (a : Arr D)
  | scalar (dtype : D) (v : V)

/-- A buffer with the element type it was made for (async_.py:114-134). -/
structure Buf (D V : Type) where
  dtype : D
  data : List V

/-- All slots and buffers; `next` is the next free address (as changed by async_.py:57-160). -/
structure World (D V : Type) where
  slot : Nat → Slot D V
  mem : Nat → Buf D V
  next : Nat

/-- Element types: the size of an element in bytes, storing a number as an element, `float32`,
and reading the bytes of a buffer as elements of another type (the types that occur in async_.py:35-36, 114-134). -/
structure Dtypes (D V : Type) where
  itemsize : D → Nat
  store : D → V → V
  float32 : D
  reinterpret : D → D → List V → List V

variable {D V : Type} [DecidableEq D]

/-- The elements that an array shows (of the arrays of async_.py:35-36, 69-70). -/
def readArr (t : Dtypes D V) (w : World D V) (a : Arr D) : List V :=
  let b := w.mem a.addr
  if b.dtype = a.dtype then b.data else t.reinterpret b.dtype a.dtype b.data

/-- The value of a slot (of the slots of async_.py:28-77). -/
def read (t : Dtypes D V) (w : World D V) (i : Nat) : List V :=
  match w.slot i with
  | .arr a => readArr t w a
  | .scalar _ v => [v]

/-- The element type of a slot (async_.py:28-77, 114-134). -/
def dtypeOf (w : World D V) (i : Nat) : D :=
  match w.slot i with
  | .arr a => a.dtype
  | .scalar d _ => d

/-- The number of elements of a slot (async_.py:114-134). -/
def sizeOf (w : World D V) (i : Nat) : Nat :=
  match w.slot i with
  | .arr a => a.size
  | .scalar _ _ => 1

/-- `x[...] = data`: an update of an array in place (a scalar cannot be updated in place)
(what an update does to the arrays of async_.py:66-71). -/
def write (w : World D V) (i : Nat) (data : List V) : World D V :=
  match w.slot i with
  | .arr a => { w with mem := fun k => if k = a.addr then ⟨a.dtype, data⟩ else w.mem k }
  | .scalar _ _ => w

/-- A link: its parameters, its persistent values and its children; the children of a
`ChainList` are named by their positions (as in async_.py:28-54, namedpersistent.py:4-32). -/
inductive Link where
  | mk (params : List (String × Nat)) (persistent : List (String × Nat)) (children : List (Comp × Link))

/-- The state of an optimizer: for every parameter of its target the entries of the state of
its update rule (async_.py:101-111, 143-154). -/
abbrev OptState := List (Path × List (String × Nat))

mutual
/-- `link.namedparams()` (Chainer): paths and slots (called in async_.py:66, 114-134). -/
def namedParams : Link → List (Path × Nat)
  | .mk params _ children => params.map (fun p => ([.name p.1], p.2)) ++ namedParamsList children
/-- Called in async_.py:66, 114-134. -/
def namedParamsList : List (Comp × Link) → List (Path × Nat)
  | [] => []
  | (c, l) :: rest => (namedParams l).map (fun p => (c :: p.1, p.2)) ++ namedParamsList rest
end

mutual
/-- `namedpersistent(link)` (namedpersistent.py:4-32). -/
def namedPersistent : Link → List (Path × Nat)
  | .mk _ persistent children =>
    persistent.map (fun p => ([.name p.1], p.2)) ++ namedPersistentList children
/-- namedpersistent.py:4-32. -/
def namedPersistentList : List (Comp × Link) → List (Path × Nat)
  | [] => []
  | (c, l) :: rest => (namedPersistent l).map (fun p => (c :: p.1, p.2)) ++ namedPersistentList rest
end

/-- A dict from paths to shared arrays (async_.py:114-134, 143-154). -/
abbrev Dict := List (Path × Nat)

/-- `mp.RawArray(typecode, values)`: a new shared buffer (called in async_.py:114-134, 143-154). -/
def rawArray (t : Dtypes D V) (w : World D V) (d : D) (data : List V) : Nat × World D V :=
  (w.next, { w with mem := fun k => if k = w.next then ⟨d, data.map (t.store d)⟩ else w.mem k
                    next := w.next + 1 })

/-- `np.frombuffer(shared, dtype=d).reshape(shape)` (called in async_.py:35-36, 69-70, 109-111). -/
def view (t : Dtypes D V) (w : World D V) (addr : Nat) (d : D) (size : Nat) : Py (Arr D) :=
  let b := w.mem addr
  let bytes := t.itemsize b.dtype * b.data.length
  if bytes % t.itemsize d ≠ 0 then .error .valueError
  else if bytes / t.itemsize d ≠ size then .error .valueError
  else .ok ⟨d, size, addr⟩

/-- Let slot `i` be a view of the shared array (async_.py:35-36, 42-44, 69-70, 109-111). -/
def bindSlot (t : Dtypes D V) (w : World D V) (i addr : Nat) : Py (World D V) := do
  let a ← view t w addr (dtypeOf w i) (sizeOf w i)
  pure { w with slot := fun k => if k = i then .arr a else w.slot k }

/-- The loops of `extract_params_as_shared_arrays` (async_.py:117-119 and 121-133): arrays and
scalars alike. -/
def extractSlots (t : Dtypes D V) (w : World D V) : List (Path × Nat) → Dict × World D V
  | [] => ([], w)
  | (p, i) :: rest =>
    let a := rawArray t w (dtypeOf w i) (read t w i)
    let r := extractSlots t a.2 rest
    ((p, a.1) :: r.1, r.2)

/-- `extract_params_as_shared_arrays(link)` (async_.py:114-134). -/
def extractParams (t : Dtypes D V) (w : World D V) (l : Link) : Dict × World D V :=
  let a := extractSlots t w (namedParams l)
  let b := extractSlots t a.2 (namedPersistent l)
  (a.1 ++ b.1, b.2)

/-- `link.child` or `link[i]` (async_.py:51, 54). -/
def childAt : List (Comp × Link) → Comp → Py Link
  | [], _ => .error .attributeError
  | (c, l) :: rest, c' => if c = c' then .ok l else childAt rest c'

/-- `getattr(link, name)` for a persistent value (async_.py:28-54). -/
def slotNamed : List (String × Nat) → String → Py Nat
  | [], _ => .error .assertionError
  | (n, i) :: rest, n' => if n = n' then .ok i else slotNamed rest n'

/-- Which slot `_set_persistent_values_recursively(link, path, ...)` sets (async_.py:28-54). -/
def findPersistent : Link → Path → Py Nat
  | .mk _ persistent _, [.name n] => slotNamed persistent n
  | .mk _ _ children, c :: c' :: rest => do
    let l ← childAt children c
    findPersistent l (c' :: rest)
  | _, _ => .error .assertionError
termination_by _ p => p.length

/-- The loop over the parameters (async_.py:66-71); the result also has the remaining keys. -/
def setParams (t : Dtypes D V) (b : Dict) : World D V → List Path → List (Path × Nat) →
    Py (World D V × List Path)
  | w, keys, [] => .ok (w, keys)
  | w, keys, (p, i) :: rest =>
    match b.lookup p with
    | none => setParams t b w keys rest
    | some addr => do
      let w' ← bindSlot t w i addr
      if keys.contains p then setParams t b w' (keys.filter (· ≠ p)) rest else .error .keyError

/-- The loop over the persistent values (async_.py:72-76). -/
def setPersistents (t : Dtypes D V) (b : Dict) (l : Link) : World D V → List Path → List (Path × Nat) →
    Py (World D V × List Path)
  | w, keys, [] => .ok (w, keys)
  | w, keys, (p, _) :: rest =>
    match b.lookup p with
    | none => setPersistents t b l w keys rest
    | some addr => do
      let i ← findPersistent l p
      let w' ← bindSlot t w i addr
      if keys.contains p then setPersistents t b l w' (keys.filter (· ≠ p)) rest else .error .keyError

/-- `set_shared_params(a, b)` (async_.py:57-77). -/
def setSharedParams (t : Dtypes D V) (w : World D V) (l : Link) (b : Dict) : Py (World D V) := do
  let r ← setParams t b w (b.map Prod.fst) (namedParams l)
  let q ← setPersistents t b l r.1 r.2 (namedPersistent l)
  pyAssert q.2.isEmpty (pure q.1)

/-- The inner loop of `extract_states_as_shared_arrays` (async_.py:151-153): always `float32`. -/
def extractEntries (t : Dtypes D V) (w : World D V) : List (String × Nat) → List (String × Nat) × World D V
  | [] => ([], w)
  | (n, i) :: rest =>
    let a := rawArray t w t.float32 (read t w i)
    let r := extractEntries t a.2 rest
    ((n, a.1) :: r.1, r.2)

/-- `extract_states_as_shared_arrays(optimizer)` (async_.py:143-154). -/
def extractStates (t : Dtypes D V) (w : World D V) : OptState → List (Path × List (String × Nat)) × World D V
  | [] => ([], w)
  | (p, st) :: rest =>
    let a := extractEntries t w st
    let r := extractStates t a.2 rest
    ((p, a.1) :: r.1, r.2)

/-- The inner loop of `set_shared_states` (async_.py:107-111), over the shared entries. -/
def setEntries (t : Dtypes D V) (st : List (String × Nat)) : World D V → List (String × Nat) → Py (World D V)
  | w, [] => .ok w
  | w, (n, addr) :: rest =>
    match st.lookup n with
    | none => .error .keyError
    | some i => do
      let w' ← bindSlot t w i addr
      setEntries t st w' rest

/-- `set_shared_states(a, b)` (async_.py:101-111). -/
def setSharedStates (t : Dtypes D V) (b : List (Path × List (String × Nat))) :
    World D V → OptState → Py (World D V)
  | w, [] => .ok w
  | w, (p, st) :: rest =>
    match b.lookup p with
    | none => .error .keyError
    | some entries => do
      let w' ← setEntries t st w entries
      setSharedStates t b w' rest

/-- What an agent shares: `mp.Value`s are named by a number (async_.py:200-226). -/
inductive Obj where
  | tuple (l : List Obj)
  | link (l : Link)
  | optimizer (s : OptState)
  | value (n : Nat)
  | other

/-- What `as_shared_objects` returns (async_.py:200-210). -/
inductive Sh where
  | tuple (l : List Sh)
  | params (d : Dict)
  | states (d : List (Path × List (String × Nat)))
  | value (n : Nat)

mutual
/-- `as_shared_objects(obj)` (async_.py:200-210; 137-140, 157-160). -/
def asShared (t : Dtypes D V) : World D V → Obj → Py (Sh × World D V)
  | w, .tuple l => do
    let r ← asSharedList t w l
    pure (.tuple r.1, r.2)
  | w, .link l => do
    let e := extractParams t w l
    let w' ← setSharedParams t e.2 l e.1
    pure (.params e.1, w')
  | w, .optimizer s => do
    let e := extractStates t w s
    let w' ← setSharedStates t e.1 e.2 s
    pure (.states e.1, w')
  | w, .value n => .ok (.value n, w)
  | _, .other => .error .valueError
/-- train_agent_async.py:112-114. -/
def asSharedList (t : Dtypes D V) : World D V → List Obj → Py (List Sh × World D V)
  | w, [] => .ok ([], w)
  | w, o :: rest => do
    let a ← asShared t w o
    let r ← asSharedList t a.2 rest
    pure (a.1 :: r.1, r.2)
end

mutual
/-- `synchronize_to_shared_objects(obj, shared_memory)` (async_.py:213-226); shared memory of
another kind than the object raises. -/
def sync (t : Dtypes D V) : World D V → Obj → Sh → Py (Obj × World D V)
  | w, .tuple l, .tuple s => do
    let r ← syncList t w l s
    pure (.tuple r.1, r.2)
  | w, .link l, .params d => do
    let w' ← setSharedParams t w l d
    pure (.link l, w')
  | w, .optimizer s, .states d => do
    let w' ← setSharedStates t d w s
    pure (.optimizer s, w')
  | w, .value _, .value n => .ok (.value n, w)
  | _, .other, _ => .error .valueError
  | _, _, _ => .error .typeError
/-- train_agent_async.py:117-121. -/
def syncList (t : Dtypes D V) : World D V → List Obj → List Sh → Py (List Obj × World D V)
  | w, o :: os, s :: ss => do
    let a ← sync t w o s
    let r ← syncList t a.2 os ss
    pure (a.1 :: r.1, r.2)
  | w, _, _ => .ok ([], w)
end

/-- The objects of several processes, synchronised one after the other with the same shared
memory (`set_shared_objects`, train_agent_async.py:117-121, called in every process at 210). -/
def syncAll (t : Dtypes D V) (s : Sh) : World D V → List Obj → Py (List Obj × World D V)
  | w, [] => .ok ([], w)
  | w, o :: os => do
    let a ← sync t w o s
    let r ← syncAll t s a.2 os
    pure (a.1 :: r.1, r.2)

end Verif.Shared
