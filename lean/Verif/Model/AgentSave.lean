set_option autoImplicit false

/-!
# Model of `AttributeSavingMixin` (`chainerrl/agent.py`, lines 92-150)

Objects that inherit the mixin and the other objects (links, optimizers, …) have
identities (`Nat`), so that two attributes may be the same object.  The state of a
non-mixin object is a `D`; its npz file has a copy of it and loading the file
replaces the state (Chainer's serializers; entries missing from the file, which
`load_npz_no_strict` tolerates, are not modelled).  Attribute names are Python
identifiers: the file `a/b/c.npz` is the path `[a, b, c]`, which no directory is
confused with.  A call nested deeper than the limit raises `RecursionError`.
-/

namespace Verif.AgentSave

/-- What `getattr(self, attr)` gives (agent.py:108-110, 131-133). -/
inductive Attr where
  /-- no such attribute -/
  | missing
  | none
  /-- an object that inherits the mixin -/
  | mixin (id : Nat)
  /-- any other object -/
  | other (id : Nat)
  deriving DecidableEq

/-- An object with the mixin (agent.py:92-98). -/
structure Obj where
  saved : List String
  attr : String → Attr

/-- The objects of a process, as far as agent.py:92-150 sees them. -/
structure Heap (D : Type) where
  obj : Nat → Obj
  data : Nat → D

/-- The exceptions of agent.py:104-150. -/
inductive Err where
  | assertion
  | recursion
  | noFile
  deriving DecidableEq

/-- The files: contents by path (the paths of agent.py:117-121, 141-146). -/
abbrev Files (D : Type) := List String → Option D

variable {D σ : Type}

/-- A `for` loop whose body may raise (agent.py:108, 131). -/
def each (f : String → σ → σ × Except Err Unit) : List String → σ → σ × Except Err Unit
  | [], s => (s, .ok ())
  | a :: l, s =>
    match f a s with
    | (s', .ok ()) => each f l s'
    | (s', .error e) => (s', .error e)

/-- `serializers.save_npz` (agent.py:117-121). -/
def write (fs : Files D) (path : List String) (d : D) : Files D :=
  fun p => if p = path then some d else fs p

/-- Lines 108-121: one attribute; `rec` is the recursive call. -/
def saveAttr (rec : List String → List Nat → Nat → Files D → Files D × Except Err Unit)
    (h : Heap D) (dir : List String) (anc : List Nat) (o : Nat) (a : String) (fs : Files D) :
    Files D × Except Err Unit :=
  match (h.obj o).attr a with
  | .missing => (fs, .error .assertion)
  | .none => (fs, .ok ())
  | .mixin o' => if o' ∈ anc then (fs, .error .assertion) else rec (dir ++ [a]) anc o' fs
  | .other l => (write fs (dir ++ [a]) (h.data l), .ok ())

/-- Lines 104-122: `o.__save(dirname, ancestors)`; at most `limit` nested calls. -/
def saveFrom (h : Heap D) : Nat → List String → List Nat → Nat → Files D → Files D × Except Err Unit
  | 0, _, _, _, fs => (fs, .error .recursion)
  | limit + 1, dir, anc, o, fs =>
    each (saveAttr (saveFrom h limit) h dir (o :: anc) o) (h.obj o).saved fs

/-- Lines 100-102: `o.save(dirname)`. -/
def save (h : Heap D) (limit : Nat) (dir : List String) (o : Nat) (fs : Files D) :
    Files D × Except Err Unit :=
  saveFrom h limit dir [] o fs

/-- `load_npz_no_strict(path, object)` (agent.py:11-18). -/
def read (fs : Files D) (path : List String) (l : Nat) (data : Nat → D) :
    (Nat → D) × Except Err Unit :=
  match fs path with
  | none => (data, .error .noFile)
  | some d => (fun l' => if l' = l then d else data l', .ok ())

/-- Lines 131-149; the recursive call is `attr_value.load`, which begins with no
ancestors. -/
def loadAttr (rec : List String → List Nat → Nat → (Nat → D) → (Nat → D) × Except Err Unit)
    (obj : Nat → Obj) (fs : Files D) (dir : List String) (anc : List Nat) (o : Nat) (a : String)
    (data : Nat → D) : (Nat → D) × Except Err Unit :=
  match (obj o).attr a with
  | .missing => (data, .error .assertion)
  | .none => (data, .ok ())
  | .mixin o' => if o' ∈ anc then (data, .error .assertion) else rec (dir ++ [a]) [] o' data
  | .other l => read fs (dir ++ [a]) l data

/-- Lines 128-150: `o.__load(dirname, ancestors)`. -/
def loadFrom (obj : Nat → Obj) (fs : Files D) :
    Nat → List String → List Nat → Nat → (Nat → D) → (Nat → D) × Except Err Unit
  | 0, _, _, _, data => (data, .error .recursion)
  | limit + 1, dir, anc, o, data =>
    each (loadAttr (loadFrom obj fs limit) obj fs dir (o :: anc) o) (obj o).saved data

/-- Lines 124-126: `o.load(dirname)`: the states of the non-mixin objects afterwards. -/
def load (h : Heap D) (fs : Files D) (limit : Nat) (dir : List String) (o : Nat) :
    (Nat → D) × Except Err Unit :=
  loadFrom h.obj fs limit dir [] o h.data

end Verif.AgentSave
