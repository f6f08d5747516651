import Verif.Model.Py
set_option autoImplicit false

/-! # Model: `load_npz_no_strict`

`chainerrl/agent.py`, lines 11-18.  An object (a link or an optimizer) serialises itself as entries with names, one after the
other; the names that it has depend on its state (an optimizer has no moments before its first update).  An npz file is a
finite map from names to values.  Chainer's `NpzDeserializer` (not in /repo): an entry is replaced by that of the file; if the file has none, strict
loading raises `KeyError` and the other kind leaves the entry as it is. -/

namespace Verif.Npz
variable {κ V : Type} [DecidableEq κ]

/-- The entries of an object, in the order in which it serialises itself (as saved by agent.py:117-121). -/
abbrev Entries (κ V : Type) := List (κ × V)

/-- A file (agent.py:11-18, 117-121). -/
abbrev File (κ V : Type) := κ → Option V

/-- `serializers.save_npz` (called in agent.py:117-121). -/
def save (o : Entries κ V) : File κ V := fun k => (o.find? fun e => e.1 = k).map Prod.snd

/-- `serializers.load_npz` (agent.py:13): the object afterwards, and whether a `KeyError` was raised, after
which the rest of the object is not loaded. -/
def loadStrict (f : File κ V) : Entries κ V → Entries κ V × Bool
  | [] => ([], false)
  | (k, v) :: o =>
    match f k with
    | some v' =>
      let r := loadStrict f o
      ((k, v') :: r.1, r.2)
    | none => ((k, v) :: o, true)

/-- `NpzDeserializer(f, strict=False).load(obj)` (agent.py:17-18). -/
def loadLenient (f : File κ V) (o : Entries κ V) : Entries κ V := o.map fun e => (e.1, (f e.1).getD e.2)

/-- What can happen to the file itself: `none` is a file that cannot be opened or read (read by agent.py:11-18). -/
abbrev Disk (κ V : Type) := Option (File κ V)

/-- `load_npz_no_strict(filename, obj)` (agent.py:11-18): the object afterwards, and whether there was a warning.  Only `KeyError` is caught:
a file that cannot be read raises (the error is `runtimeError` here) before anything is loaded. -/
def loadNoStrict (d : Disk κ V) (o : Entries κ V) : Py (Entries κ V × Bool) :=
  match d with
  | none => .error .runtimeError
  | some f =>
    match loadStrict f o with
    | (o', false) => .ok (o', false)
    | (o', true) => .ok (loadLenient f o', true)

end Verif.Npz
