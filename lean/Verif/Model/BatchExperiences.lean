import Mathlib.Algebra.Ring.Defs
import Mathlib.Algebra.BigOperators.Group.List.Basic
import Verif.Model.Py
set_option autoImplicit false

/-!
# Model of `batch_experiences` (`chainerrl/replay_buffer.py:135-176`)

Rewards and `gamma` are in a commutative semiring instead of floats; device
transfers and array types are left out.
-/

namespace Verif

/-- The transition dict built by `replay_buffers/replay_buffer.py:31-39`. -/
structure Transition (S A R : Type) where
  state : S
  action : A
  reward : R
  nextState : S
  nextAction : Option A
  terminal : Bool

/-- The dict returned by `batch_experiences`; `nextAction` is `none` when the
key is absent (replay_buffer.py:154-176). -/
structure ExpBatch (F A R : Type) where
  state : List F
  action : List A
  reward : List R
  nextState : List F
  terminal : List R
  discount : List R
  nextAction : Option (List A)

variable {S A R F : Type} [CommSemiring R]

/-- `replay_buffer.py:160-161`: `sum((gamma ** i) * exp[i]['reward'] for i in range(len(exp)))`. -/
def expReward (gamma : R) (exp : List (Transition S A R)) : R :=
  ((List.range exp.length).map (fun i => gamma ^ i * ((exp[i]?).map (·.reward)).getD 0)).sum

/-- `replay_buffer.py:135-176`; `phi` stands for `batch_states`, which applies
`phi` to every state (`misc/batch_states.py:22`). -/
def batchExperiences (phi : S → F) (gamma : R) (exps : List (List (Transition S A R))) :
    Py (ExpBatch F A R) := do
  let first ← exps.mapM (fun e => pyGet e 0)
  let last ← exps.mapM (fun e => pyGet e (-1))
  pure {
    state := first.map (fun t => phi t.state)
    action := first.map (·.action)
    reward := exps.map (expReward gamma)
    nextState := last.map (fun t => phi t.nextState)
    terminal := exps.map (fun e => if e.any (·.terminal) then 1 else 0)
    discount := exps.map (fun e => gamma ^ e.length)
    nextAction := if last.all (·.nextAction.isSome) then some (last.filterMap (·.nextAction)) else none }

end Verif
