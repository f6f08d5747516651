import Verif.Model.Py
set_option autoImplicit false

/-!
# Model of `Sequence` (`chainerrl/links/sequence.py`)

A layer is a callable with a signature; calling it with keyword arguments binds them as Python does.  Keyword arguments
are an association list with distinct names.
-/

namespace Verif.Seq

/-- A callable: the name of its first parameter, the parameters that may be given by keyword, those among them without a
default value, whether it has `*args` and `**kwargs`, and what it computes (sequence.py:9-14, 20-28). -/
structure Layer (X V : Type) where
  first : String
  names : List String
  required : List String
  varPositional : Bool
  varKeyword : Bool
  run : X → List (String × V) → X

variable {X V : Type}

/-- Python's `layer(h, **kwargs)`: TypeError for a second value for the first parameter, for an unexpected name and for
a missing argument (called in sequence.py:30-41). -/
def Layer.call (l : Layer X V) (h : X) (kwargs : List (String × V)) : Py X :=
  if kwargs.any (fun e => e.1 == l.first) then .error .typeError
  else if !l.varKeyword && kwargs.any (fun e => !l.names.contains e.1) then .error .typeError
  else if l.required.any (fun n => !kwargs.any fun e => e.1 == n) then .error .typeError
  else .ok (l.run h kwargs)

/-- sequence.py lines 9-14. -/
def acceptVariableArguments (l : Layer X V) : Bool := l.varPositional || l.varKeyword

/-- Lines 24-25: the names of the signature's parameters. -/
def argnames (l : Layer X V) : List String := l.first :: l.names

/-- Lines 35-39. -/
def layerKwargs (l : Layer X V) (kwargs : List (String × V)) : List (String × V) :=
  if acceptVariableArguments l then kwargs else kwargs.filter fun e => (argnames l).contains e.1

/-- Lines 30-41. -/
def call : List (Layer X V) → X → List (String × V) → Py X
  | [], h, _ => .ok h
  | l :: ls, h, kwargs =>
    match l.call h (layerKwargs l kwargs) with
    | .error e => .error e
    | .ok h' => call ls h' kwargs

end Verif.Seq
