import Verif.Model.TrainDQN
import Verif.Model.PrioritizedBuffer
import Verif.Model.PriorityWeights
set_option autoImplicit false

/-!
# A training run with prioritized replay: `train_agent`, a `DQN` and its `PrioritizedReplayBuffer`

As in `Verif.Model.TrainDQN`, but with the buffer of
`replay_buffers/prioritized.py:71-114`, whose contents the updates change: an
update samples, learns and writes the priorities back
(`replay_buffer.py:262-280` calls `sample` and `DQN.update`; `dqn.py:231-271`
calls `update_errors`).

Inputs from outside, besides those of `Verif.Model.TrainDQN`: the variates of
`np.random.uniform` and the absolute TD errors, for each repetition `j` of each
call `k` of `update_if_necessary`.  Floats are real numbers.  The weight that
`sample` writes into the first transition of each sampled entry
(`prioritized.py:109-110`) is reported in `log` instead: each transition is the
first of exactly one entry (C09), the sampled entries are distinct
(`C132_round`) and the update reads the weights right after `sample`
(`dqn.py:255-258`).
-/

namespace Verif.TrainPrioritized
variable {θ O A R H T : Type}

/-- What a `PrioritizedReplayBuffer` consists of besides the windows of its
environments (`prioritized.py:94-102`), and a report of the updates so far: the
entries of each batch, their weights and their errors. -/
structure Mem (T : Type) where
  buf : PBuf (List T) ℝ
  pwe : PWE
  log : List (List (List T) × List ℝ × List ℝ) := []

/-- `replay_buffer.py:252-260`: the arguments of `ReplayUpdater` that a
non-recurrent agent uses. -/
structure Sched where
  batchsize : Nat
  nTimes : Nat
  startSize : Nat
  interval : Nat

/-- `prioritized.py:94-102` `__init__`: `PrioritizedBuffer(capacity)` waits for
priorities and starts with greatest priority 1 (`misc/prioritized.py:12-20`). -/
noncomputable def Mem.init (cap : Option Nat) (p : PWE) : Mem T := ⟨PBuf.init cap true 1, p, []⟩

/-- `replay_buffer.py:39-48`, `56-62` with `memory` a `PrioritizedBuffer`:
`self.memory.append(list(...))` without a priority.  The first exception ends
everything. -/
noncomputable def push (m : Py (Mem T)) (w : List T) : Py (Mem T) := do
  let m ← m
  let b ← m.buf.append w none
  pure { m with buf := b }

/-- One repetition of `replay_buffer.py:279-280`: `prioritized.py:104-111`
`sample` (`uniform_ratio` is 0), then `dqn.py:262-263` `update_errors`, which is
`prioritized.py:113-114`. -/
noncomputable def round (n : Nat) (us errs : List ℝ) (m : Mem T) : Py (Mem T) := do
  if m.buf.data.length < n then throw .assertionError
  let (entries, probs, minProb, b) ← m.buf.sample 0 ⟨[], us⟩
  let (ws, p) ← m.pwe.weights b.data.length probs minProb
  let b ← b.setLast (p.priorityFromErrors errs)
  pure ⟨b, p, m.log ++ [(entries, ws, errs)]⟩

/-- `replay_buffer.py:273-280`: the repetitions `j`, `j+1`, ... -/
noncomputable def rounds (n : Nat) (us errs : Nat → List ℝ) : Nat → Nat → Mem T → Py (Mem T)
  | _, 0, m => pure m
  | j, i + 1, m => do
    let m ← round n (us j) (errs j) m
    rounds n us errs (j + 1) i m

/-- `replay_buffer.py:262-280` `update_if_necessary(iteration)` with
`episodic_update = False`. -/
noncomputable def update (c : Sched) (us errs : Nat → List ℝ) (t : Nat) (m : Mem T) : Py (Mem T) :=
  if m.buf.data.length < c.startSize then pure m
  else if c.interval = 0 then .error .zeroDivisionError
  else if t % c.interval ≠ 0 then pure m
  else rounds c.batchsize us errs 0 c.nTimes m

/-- The buffer and the number of calls of `update_if_necessary`
(replay_buffers/prioritized.py:89-101, replay_buffer.py:248-260). -/
structure St (T : Type) where
  rb : NStep (Py (Mem T)) Nat T
  calls : Nat := 0

/-- The agent's events (`dqn.py:398`, `409`, `558-559`) at the buffer. -/
noncomputable def step (c : Sched) (us errs : Nat → Nat → List ℝ) (s : St (DQN.Rec O A R H)) :
    DQN.Ev θ O A R H → St (DQN.Rec O A R H)
  | .append i tr => { s with rb := s.rb.append push (·.terminal) i tr }
  | .stopEpisode i => { s with rb := s.rb.stop push i }
  | .sync .. => s
  | .update t _ => ⟨{ s.rb with memory := s.rb.memory >>= update c (us s.calls) (errs s.calls) t }, s.calls + 1⟩

/-- The buffer after the agent's events (replay_buffers/prioritized.py:89-112). -/
noncomputable def buffer (cap : Option Nat) (n : Nat) (p : PWE) (c : Sched) (us errs : Nat → Nat → List ℝ)
    (l : List (DQN.Ev θ O A R H)) : St (DQN.Rec O A R H) :=
  l.foldl (step c us errs) ⟨⟨n, .ok (Mem.init cap p), fun _ => []⟩, 0⟩

end Verif.TrainPrioritized
