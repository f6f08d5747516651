import Verif.Model.NStepForward

/-!
Model of the update of a recurrent `DQN` from sampled (sub)episodes:
`/repo/chainerrl/replay_buffer.py` (lines 179-227), the methods `update_from_episodes`,
`_compute_y_and_t` and `_compute_target_values` of `/repo/chainerrl/agents/dqn.py` (273-330)
and `concatenate_recurrent_states` (`/repo/chainerrl/links/stateless_recurrent.py`,
238-251 and 307-352).

Simplifications.  Links and values are those of `Model/NStepForward`; the model's output is an
array whose rows are the parameters of action values, evaluated row by row.  The feature
extractor `phi` is part of the stored observations.  `float32` is a type of numbers `R`.
-/

set_option autoImplicit false

namespace Verif.NStepForward
variable {V S A R : Type}

/-- The recurrent state of one sequence, as `get_recurrent_state_at(..., i)` returns it
(stateless_recurrent.py:97-109, 281-304). -/
inductive SRS (S : Type) where
  | none
  | row (s : S)
  | list (l : List (SRS S))

/-- The state of one sequence in an `NStep...` link: `None` is replaced by zeros
(stateless_recurrent.py:315-328, 337-346). -/
def coreRow (zero : S) : SRS S → Py S
  | .none => .ok zero
  | .row s => .ok s
  | .list _ => .error .valueError

/-- `None` is replaced by a list of `None` of the number of recurrent children
(stateless_recurrent.py:242-246). -/
def expand (n : Nat) : SRS S → Py (List (SRS S))
  | .none => .ok (List.replicate n .none)
  | .list l => pyAssert (l.length == n) (.ok l)
  | .row _ => .error .typeError

mutual
/-- `concatenate_recurrent_states(link, split_recurrent_states)`
(stateless_recurrent.py:307-352); a container passes on to its recurrent children (355-389). -/
def concatStates : Layer V S → List (SRS S) → Py (RS S)
  | .core _ zero, srs => do
    let rows ← srs.mapM (coreRow zero)
    pure (.rows rows)
  | .seq layers, srs => do
    let lists ← srs.mapM (expand (layers.countP Layer.isRecurrent))
    let r ← concatLinks layers lists
    pure (.list r)
  | .branch children, srs => do
    let lists ← srs.mapM (expand (children.countP Layer.isRecurrent))
    let r ← concatLinks children lists
    pure (.list r)
  | _, _ => .error .valueError
/-- `[concatenate_recurrent_states(link, srs) for link, srs in zip(links, transposed)]` over
the recurrent children (stateless_recurrent.py:247-251): the first elements of all lists
belong to the first recurrent child. -/
def concatLinks : List (Layer V S) → List (List (SRS S)) → Py (List (RS S))
  | [], _ => .ok []
  | l :: ls, lists =>
    if l.isRecurrent then do
      let firsts ← lists.mapM (fun x => pyGet x 0)
      let r ← concatStates l firsts
      let rs ← concatLinks ls (lists.map List.tail)
      pure (r :: rs)
    else concatLinks ls lists
end

/-- A stored transition (dqn.py:382-398, 482-499). -/
structure Tr (V A R S : Type) where
  state : V
  action : A
  reward : R
  nextState : V
  terminal : Bool
  recState : SRS S
  nextRecState : SRS S

/-- `batch_recurrent_experiences` (replay_buffer.py:199-221), without next actions. -/
structure Batch (V A R S : Type) where
  state : List (Val V)
  action : List A
  reward : List R
  nextState : List (Val V)
  terminal : List R
  discount : List R
  recState : RS S
  nextRecState : RS S

section
variable [Zero R] [One R] [Add R] [Sub R] [Mul R]

/-- `batch_recurrent_experiences(experiences, model, xp, phi, gamma)`
(replay_buffer.py:199-221). -/
def batchRecurrent (model : Layer V S) (gamma : R) (episodes : List (List (Tr V A R S))) :
    Py (Batch V A R S) := do
  let flat := episodes.flatten
  let firsts ← episodes.mapM (fun ep => pyGet ep 0)
  let rs ← concatStates model (firsts.map Tr.recState)
  let nrs ← concatStates model (firsts.map Tr.nextRecState)
  pure { state := episodes.map fun ep => .arr (ep.map Tr.state)
         action := flat.map Tr.action
         reward := flat.map Tr.reward
         nextState := episodes.map fun ep => .arr (ep.map Tr.nextState)
         terminal := flat.map fun tr => if tr.terminal then 1 else 0
         discount := List.replicate flat.length gamma
         recState := rs
         nextRecState := nrs }

/-- The rows of a concatenated output (dqn.py:289-330). -/
def outRows : Out V → Py (List V)
  | .concat (.arr rows) => .ok rows
  | _ => .error .attributeError

/-- `_compute_target_values` (dqn.py:289-304); `qmax` is the largest value of a row. -/
def targetValues (target : Layer V S) (qmax : V → R) (b : Batch V A R S) : Py (List R) := do
  let out ← call target b.nextState b.nextRecState true
  let rows ← outRows out.1
  pure (List.zipWith (· + ·) b.reward
    (List.zipWith (· * ·) (List.zipWith (· * ·) b.discount (b.terminal.map fun d => 1 - d))
      (rows.map qmax)))

/-- `_compute_y_and_t` (dqn.py:306-330); `qeval` is the value of an action in a row. -/
def computeYT (model target : Layer V S) (qeval : V → A → R) (qmax : V → R) (b : Batch V A R S) :
    Py (List R × List R) := do
  let out ← call model b.state b.recState true
  let rows ← outRows out.1
  let t ← targetValues target qmax b
  pure (List.zipWith qeval rows b.action, t)

/-- The values and targets of `update_from_episodes(episodes)` (dqn.py:273-283). -/
def updateYT (model target : Layer V S) (qeval : V → A → R) (qmax : V → R) (gamma : R)
    (episodes : List (List (Tr V A R S))) : Py (List R × List R) := do
  let b ← batchRecurrent model gamma episodes
  computeYT model target qeval qmax b
end

end Verif.NStepForward
