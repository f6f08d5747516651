import Verif.Model.Recurrent
set_option autoImplicit false

/-! # Specification: keeping and resetting recurrent states (C59) -/

namespace Verif.Recurrent
variable {V : Type}

mutual
/-- The states of all `LSTM`s in a link, in order; `none` is the initial state. -/
def Tree.states : Tree V → List (Option (V × V))
  | .lstm s => [s]
  | .other => []
  | .chain ts => Tree.statesList ts
/-- The states of all `LSTM`s in a list of links. -/
def Tree.statesList : List (Tree V) → List (Option (V × V))
  | [] => []
  | t :: ts => t.states ++ Tree.statesList ts
end

mutual
/-- Two links that differ only in the states of their `LSTM`s. -/
inductive SameShape : Tree V → Tree V → Prop
  | lstm (s s' : Option (V × V)) : SameShape (.lstm s) (.lstm s')
  | other : SameShape .other .other
  | chain {ts ts' : List (Tree V)} : SameShapes ts ts' → SameShape (.chain ts) (.chain ts')
/-- The same for lists. -/
inductive SameShapes : List (Tree V) → List (Tree V) → Prop
  | nil : SameShapes [] []
  | cons {t t' : Tree V} {ts ts' : List (Tree V)} : SameShape t t' → SameShapes ts ts' →
      SameShapes (t :: ts) (t' :: ts')
end

/-- Evaluating a link changes states only, not the structure of the link. -/
def Sane : Prog V → Prop
  | .run _ f => ∀ t, SameShape t (f t)
  | .seq p q => Sane p ∧ Sane q
  | .tryCatch p q => Sane p ∧ Sane q
  | .kept _ p => Sane p
  | .reset _ p => Sane p
  | _ => True

/-- An exception may leave the program. -/
def MayRaise : Prog V → Bool
  | .fail _ => true
  | .seq p q => MayRaise p || MayRaise q
  | .tryCatch p q => MayRaise p && MayRaise q
  | .kept _ p => MayRaise p
  | .reset _ p => MayRaise p
  | _ => false

/-- No exception leaves the body of a context: exceptions are caught in the same context
they were raised in. -/
def Contained : Prog V → Prop
  | .seq p q => Contained p ∧ Contained q
  | .tryCatch p q => Contained p ∧ Contained q
  | .kept _ p => MayRaise p = false ∧ Contained p
  | .reset _ p => MayRaise p = false ∧ Contained p
  | _ => True

/-- No `LSTM` of the link is in its initial state. -/
def NonInitial (t : Tree V) : Prop := ∀ s ∈ t.states, s ≠ none

/-- All `LSTM`s of the link are in their initial state. -/
def Initial (t : Tree V) : Prop := ∀ s ∈ t.states, s = none

end Verif.Recurrent
