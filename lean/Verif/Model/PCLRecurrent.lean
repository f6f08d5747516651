import Verif.Model.PCL
set_option autoImplicit false

/-! # Model: the replay update of PCL with a recurrent model

`chainerrl/agents/pcl.py`, lines 261-341, as in `Model/PCL.lean`, for a model with
memory.  Each batch row has a hidden state (all the states of its recurrent
links together). -/

namespace Verif.PCLRecurrent
open PCL (Tr Cfg Col column losses sortEpisodes)
variable {H O A K : Type} [Field K]

/-- A recurrent model: hidden state of a row after a reset, after an observation, and
what the model returns for a row: its value and the log probability of an action (the model called in pcl.py:261-372). -/
structure Net (H O A K : Type) where
  h0 : H
  cell : H → O → H
  V : H → K
  logp : H → A → K

/-- A call of the model on a batch, as Chainer's `L.LSTM` treats its state (Chainer is
not part of /repo): after a reset all rows are new; a smaller batch advances the first
rows and leaves the others; a larger batch is an error (called in pcl.py:261-372). -/
def Net.call (m : Net H O A K) (h : Option (List H)) (xs : List O) : Py (List H) :=
  match h with
  | none => .ok (xs.map (m.cell m.h0))
  | some h => if h.length < xs.length then .error .typeError
    else .ok (List.zipWith m.cell h xs ++ h.drop xs.length)

/-- `action_distrib, v` (pcl.py:305-309): rows of the call before, or a call with the
first states.  The hidden states of the rows that they were computed from, and
the model's state. -/
def current (m : Net H O A K) (h : Option (List H)) (next : Option (List H)) (trs : List (Tr O A K)) :
    Py (List H × Option (List H)) :=
  match next with
  | some ns => .ok (ns.take trs.length, h)
  | none => do
    let h' ← m.call h (trs.map Tr.state)
    pure (h'.take trs.length, some h')

/-- The loop over `t` (pcl.py:286-315), from time `t` for `n` more times: `h` is the
state of the model, `next` are the rows of the last call of the model. -/
def cols (m : Net H O A K) (eps : List (List (Tr O A K))) : Nat → Nat → Option (List H) → Option (List H) → Py (List (Col K))
  | _, 0, _, _ => .ok []
  | t, n + 1, h, next => do
    let trs := column t eps
    let cur ← current m h next trs
    let h' ← m.call cur.2 (trs.map Tr.nextState)
    let nexts := h'.take trs.length
    let rest ← cols m eps (t + 1) n (some h') (some nexts)
    pure (⟨cur.1.map m.V,
      List.zipWith (fun x (tr : Tr O A K) => m.V x * (if tr.terminal then 0 else 1)) nexts trs,
      trs.map Tr.reward, List.zipWith (fun x (tr : Tr O A K) => m.logp x tr.action) cur.1 trs⟩ :: rest)

/-- The loss of `update_from_replay` (pcl.py:275-340) and the state of the model
afterwards: `state_reset` (recurrent.py:78-89) puts `kept`, the state before, back. -/
def replayLoss (c : Cfg K) (m : Net H O A K) (batchsize : Nat) (kept : Option (List H)) (episodes : List (List (Tr O A K)))
    (weights : List K) : Py (K × Option (List H)) := do
  let sorted := sortEpisodes episodes
  let first ← pyGet sorted 0
  let cs ← cols m sorted 0 first.length none none
  let ls ← losses c cs 0 sorted
  pure ((List.zipWith (· * ·) weights ls).sum / (batchsize : K), kept)

end Verif.PCLRecurrent
