import Verif.Model.Py

/-!
Model of the check that TRPO makes on the graph of the KL divergence before it differentiates it twice:
`_find_old_style_function` and its use in `_compute_kl_constrained_step`
(`/repo/chainerrl/agents/trpo.py`, lines 74-86 and 513-521).

The graph that Chainer records is a parameter: which function created a variable, the inputs of a function, and
which functions are of the old style (`chainer.Function`).  The two assertions on the types of Chainer's objects are
left out: they hold for every graph of variables and functions.
-/

set_option autoImplicit false

namespace Verif.OldStyle

/-- A computational graph of Chainer: `v.creator`, `f.inputs`, `isinstance(f, chainer.Function)`
(as searched by trpo.py:74-86). -/
structure Graph (V F : Type) where
  creator : V → Option F
  inputs : F → List V
  old : F → Bool

variable {V F : Type}

/-- The loop of `_find_old_style_function` (trpo.py:77-85) over the variables still to be looked at; `recurse` is the
recursive call, the accumulator is the list `found` and the number of variables looked at so far, inside the recursive
calls too. -/
def findLoop (g : Graph V F) (recurse : List V → Py (List F × Nat)) : List V → List F × Nat → Py (List F × Nat)
  | [], acc => .ok acc
  | v :: vs, (found, visits) =>
    match g.creator v with
    | none => findLoop g recurse vs (found, visits + 1)
    | some f =>
      match recurse (g.inputs f) with
      | .error e => .error e
      | .ok (more, n) =>
        findLoop g recurse vs ((if g.old f then found ++ [f] else found) ++ more, visits + 1 + n)

/-- `_find_old_style_function(outputs)` (trpo.py:74-86) when `depth` more frames fit on the stack of the
interpreter. -/
def findOld (g : Graph V F) : Nat → List V → Py (List F × Nat)
  | 0, _ => .error .recursionError
  | depth + 1, outputs => findLoop g (findOld g depth) outputs ([], 0)

/-- The check in `_compute_kl_constrained_step` (trpo.py:513-521). -/
def checkKl (g : Graph V F) (depth : Nat) (kl : V) : Py Unit :=
  match findOld g depth [kl] with
  | .error e => .error e
  | .ok (found, _) => if found.isEmpty then .ok () else .error .runtimeError

end Verif.OldStyle
