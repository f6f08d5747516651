/-!
# Python primitives used by the models

Not code of `/repo`: the small part of Python's semantics that the models of
`/repo/chainerrl` rely on.  Exceptions are values.
-/

namespace Verif

/-- The Python exceptions that the modelled code can raise (as raised for instance in collections.py:35-99). -/
inductive PyErr where
  | indexError | valueError | assertionError | zeroDivisionError | keyError
  | typeError | attributeError | unboundLocalError | runtimeError | recursionError
  deriving DecidableEq, Repr

/-- A Python call either returns or raises (as in collections.py:35-99). -/
abbrev Py (α : Type _) := Except PyErr α

/-- Position in a Python list of length `n` addressed by the (possibly
negative) index `i`; `none` when Python raises `IndexError` (as used in collections.py:35-79). -/
def pyIndex (n : Nat) (i : Int) : Option Nat :=
  if 0 ≤ i then (if i < n then some i.toNat else none)
  else (if -(n : Int) ≤ i then some ((n : Int) + i).toNat else none)

/-- `l[i]` on a Python list (as used in collections.py:35-56). -/
def pyGet {α : Type _} (l : List α) (i : Int) : Py α :=
  match pyIndex l.length i with
  | none => .error .indexError
  | some k => match l[k]? with
    | some x => .ok x
    | none => .error .indexError

/-- `l[i] = x` on a Python list (as used in collections.py:58-79). -/
def pySet {α : Type _} (l : List α) (i : Int) (x : α) : Py (List α) :=
  match pyIndex l.length i with
  | none => .error .indexError
  | some k => .ok (l.set k x)

/-- Python's `~i` (as used in collections.py:35-79). -/
def pyInvert (i : Int) : Int := -i - 1

/-- `assert c` followed by the rest (as used in misc/prioritized.py:20-100). -/
def pyAssert {α : Type _} (c : Bool) (k : Py α) : Py α :=
  if c then k else .error .assertionError

end Verif
