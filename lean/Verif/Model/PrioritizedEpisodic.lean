import Verif.Model.EpisodicBuffer
import Verif.Model.PrioritizedBuffer
set_option autoImplicit false

/-!
# Model of `chainerrl/replay_buffers/prioritized_episodic.py`

The importance weights returned by `sample_episodes` are modelled separately
(`Verif.Model.PriorityWeights`); here only the effect on the buffer matters.
-/

namespace Verif
variable {E T K : Type _} [DecidableEq E] [Field K] [LinearOrder K]

/-- `prioritized_episodic.py:13-34`.  `memory` holds bare transitions
(line 60), unlike the one of `EpisodicReplayBuffer`. -/
structure PEpi (E T K : Type _) where
  cur : E → List T
  episodic : PBuf (List T) K
  memory : RAQ T
  capacityLeft : Option Int
  defaultPriority : Option (List T → K)

namespace PEpi

/-- `prioritized_episodic.py:23-34`; `PrioritizedBuffer`'s `initial_max_priority`
is 1 (`prioritized.py:10`). -/
def init (capacity : Option Nat) (wait : Bool) (prio : Option (List T → K)) : PEpi E T K :=
  ⟨fun _ => [], PBuf.init none wait 1, RAQ.init capacity [], capacity.map Int.ofNat, prio⟩

theorem pbuf_len_popleft {D : Type _} {b b' : PBuf D K} {x : D} (h : b.popleft = .ok (x, b')) :
    b'.data.length < b.data.length := by
  unfold PBuf.popleft at h
  cases hd : b.data with
  | nil => rw [hd] at h; cases h
  | cons y t =>
    rw [hd] at h
    simp only at h
    split at h
    · cases h
    · split at h
      · cases h
      · cases h; simp

/-- `prioritized_episodic.py:65-67`: discard the oldest episode while the free
capacity is negative. -/
def evict (b : PEpi E T K) : Py (PEpi E T K) :=
  match b.capacityLeft with
  | none => .ok b
  | some left =>
    if left < 0 then
      match _h : b.episodic.popleft with
      | .error e => .error e
      | .ok (ep, q) => evict { b with episodic := q, capacityLeft := some (left + ep.length) }
    else .ok b
termination_by b.episodic.data.length
decreasing_by exact pbuf_len_popleft _h

/-- `prioritized_episodic.py:53-68` `stop_current_episode`. -/
def stop (b : PEpi E T K) (e : E) : Py (PEpi E T K) :=
  if b.cur e ≠ [] then
    let ep := b.cur e
    match b.episodic.append ep (b.defaultPriority.map (fun f => f ep)) with
    | .error err => .error err
    | .ok q => evict { b with
        memory := b.memory.extend ep
        episodic := q
        capacityLeft := b.capacityLeft.map (fun left => left - ep.length)
        cur := Function.update b.cur e [] }
  else .ok b

/-- `episodic.py:17-26` `append`, inherited. -/
def append (term : T → Bool) (b : PEpi E T K) (e : E) (x : T) : Py (PEpi E T K) :=
  let b := { b with cur := Function.update b.cur e (b.cur e ++ [x]) }
  if term x then b.stop e else .ok b

/-- One call of `append` or `stop_current_episode` (episodic.py:17-26, prioritized_episodic.py:53-68). -/
def step (term : T → Bool) (b : PEpi E T K) : NStep.Op E T → Py (PEpi E T K)
  | .append e x => b.append term e x
  | .stop e => b.stop e

/-- A history of these calls (iterates episodic.py:17-26, prioritized_episodic.py:53-68). -/
def run (term : T → Bool) (b : PEpi E T K) (ops : List (NStep.Op E T)) : Py (PEpi E T K) :=
  ops.foldlM (step term) b

/-- `prioritized_episodic.py:36-47` `sample_episodes` (before cutting and
weights), given the random choices. -/
def sampleEpisodes (b : PEpi E T K) (ratio : K) (d : PBuf.Draws K) :
    Py (List (List T) × List K × K × PEpi E T K) :=
  match b.episodic.sample ratio d with
  | .error e => .error e
  | .ok (eps, probs, minProb, q) => .ok (eps, probs, minProb, { b with episodic := q })

/-- `prioritized_episodic.py:49-51` `update_errors`, given the priorities
computed from the errors. -/
def updateErrors (b : PEpi E T K) (priorities : List K) : Py (PEpi E T K) :=
  match b.episodic.setLast priorities with
  | .error e => .error e
  | .ok q => .ok { b with episodic := q }

/-- `episodic.py:47-49` `save`, inherited: both memories. -/
def save (b : PEpi E T K) : RAQ T × PBuf (List T) K := (b.memory, b.episodic)

/-- `episodic.py:51-55` `load`, inherited: `capacity_left` is left alone. -/
def load (b : PEpi E T K) (f : RAQ T × PBuf (List T) K) : PEpi E T K :=
  { b with memory := f.1, episodic := f.2 }

end PEpi
end Verif
