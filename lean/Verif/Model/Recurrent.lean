import Verif.Model.Py
set_option autoImplicit false

/-! # Model: stateful recurrent links

`chainerrl/recurrent.py`.  A link is a tree: an `LSTM` with its state, a chain of children
(a `RecurrentChainMixin` or a plain `Chain`, which the functions treat alike), or a link
without state.  `Recurrent` subclasses other than the mixin are not modelled. -/

namespace Verif.Recurrent
variable {V : Type}

/-- A link.  An `LSTM` holds `(c, h)`, or `None` for both in its initial state
(the links handled by recurrent.py:91-158). -/
inductive Tree (V : Type) where
  | lstm (state : Option (V × V))
  | other
  | chain (children : List (Tree V))

/-- The value returned by `get_state` (recurrent.py:91-104). -/
inductive St (V : Type) where
  | pair (state : Option (V × V))
  | none
  | list (states : List (St V))

mutual
/-- One iteration of `get_state` (recurrent.py:94-102). -/
def getOne : Tree V → St V
  | .lstm s => .pair s
  | .other => .none
  | .chain ts => .list (getList ts)
/-- `get_state` (recurrent.py:91-103). -/
def getList : List (Tree V) → List (St V)
  | [] => []
  | t :: ts => getOne t :: getList ts
end

mutual
/-- One iteration of `set_state` (recurrent.py:117-128). -/
def setOne : Tree V → St V → Py (Tree V)
  | .lstm s, .pair none => .ok (.lstm s)
  | .lstm _, .pair (some x) => .ok (.lstm (some x))
  | .lstm _, _ => .error .typeError
  | .other, .none => .ok .other
  | .other, _ => .error .assertionError
  | .chain ts, .list ss => do
    let ts ← setList ts ss
    pure (.chain ts)
  | .chain _, _ => .error .typeError
/-- `set_state` (recurrent.py:115-128). -/
def setList : List (Tree V) → List (St V) → Py (List (Tree V))
  | t :: ts, s :: ss => do
    let t ← setOne t s
    let ts ← setList ts ss
    pure (t :: ts)
  | ts, _ => .ok ts
end

mutual
/-- One iteration of `reset_state` (recurrent.py:133-139). -/
def resetOne : Tree V → Tree V
  | .lstm _ => .lstm none
  | .other => .other
  | .chain ts => .chain (resetList ts)
/-- `reset_state` (recurrent.py:131-139). -/
def resetList : List (Tree V) → List (Tree V)
  | [] => []
  | t :: ts => resetOne t :: resetList ts
end

/-- A program using the links `0, 1, ...`: it may evaluate a link (which changes its
state), raise, catch, and enter the context managers (the bodies of the `with` statements of recurrent.py:161-227). -/
inductive Prog (V : Type) where
  | skip
  | run (i : Nat) (f : Tree V → Tree V)
  | fail (e : PyErr)
  | seq (p q : Prog V)
  | tryCatch (p q : Prog V)
  | kept (i : Nat) (p : Prog V)
  | reset (i : Nat) (p : Prog V)

/-- The links, and the stack shared by all of them (class attribute, recurrent.py:29). -/
structure World (V : Type) where
  link : Nat → Tree V
  stack : List (St V)

/-- Replace link `i` (the assignments of recurrent.py:115-139). -/
def World.set (w : World V) (i : Nat) (t : Tree V) : World V :=
  { w with link := fun j => if j = i then t else w.link j }

/-- `push_and_keep_state` (recurrent.py:68-69). -/
def pushKeep (i : Nat) (w : World V) : World V := { w with stack := getOne (w.link i) :: w.stack }

/-- `push_state` (recurrent.py:61-63). -/
def push (i : Nat) (w : World V) : World V := (pushKeep i w).set i (resetOne (w.link i))

/-- `pop_state` (recurrent.py:65-66). -/
def pop (i : Nat) (w : World V) : World V × Option PyErr :=
  match w.stack with
  | [] => (w, some .indexError)
  | s :: rest =>
    match setOne (w.link i) s with
    | .ok t => (World.set { w with stack := rest } i t, none)
    | .error e => ({ w with stack := rest }, some e)

/-- Run a program; the second component is the exception that left it.  `recurrent i` says
whether link `i` is a `Recurrent` (recurrent.py:187, 222); the context managers have no
`finally` (recurrent.py:188-190, 223-225). -/
def exec (recurrent : Nat → Bool) : Prog V → World V → World V × Option PyErr
  | .skip, w => (w, none)
  | .run i f, w => (w.set i (f (w.link i)), none)
  | .fail e, w => (w, some e)
  | .seq p q, w =>
    match exec recurrent p w with
    | (w, none) => exec recurrent q w
    | (w, some e) => (w, some e)
  | .tryCatch p q, w =>
    match exec recurrent p w with
    | (w, none) => (w, none)
    | (w, some _) => exec recurrent q w
  | .kept i p, w =>
    if recurrent i then
      match exec recurrent p (pushKeep i w) with
      | (w, none) => pop i w
      | (w, some e) => (w, some e)
    else exec recurrent p w
  | .reset i p, w =>
    if recurrent i then
      match exec recurrent p (push i w) with
      | (w, none) => pop i w
      | (w, some e) => (w, some e)
    else exec recurrent p w

end Verif.Recurrent
