import Verif.Model.TrainPrioritized
set_option autoImplicit false

/-!
# Batches of prioritized replay whose errors are never reported

`PrioritizedReplayBuffer.sample` waits for `update_errors` (misc/prioritized.py:80-81, 87).
`DQN.update` calls it (agents/dqn.py:255-263).  `DDPG.update` (agents/ddpg.py:253-258), `TD3.update`
(agents/td3.py:229-234), `SoftActorCritic.update` (agents/soft_actor_critic.py:282-288) and `PGT.update`
(agents/pgt.py:132-180) do not, although their constructors accept any replay buffer.  And an exception, for
example a `KeyboardInterrupt`, can end `DQN.update` between the two calls.

As in `Verif.Model.TrainPrioritized`, floats are real numbers and the weights are reported in `log`, here with an empty
list of errors.  The entries an agent's transitions make are those of C09; here they are given.
-/

namespace Verif.OpenBatches
open TrainPrioritized
variable {T : Type}

/-- `replay_buffers/prioritized.py:103-109` `sample`. -/
noncomputable def draw (n : Nat) (us : List ℝ) (m : Mem T) : Py (Mem T) := do
  if m.buf.data.length < n then throw .assertionError
  let (entries, probs, minProb, b) ← m.buf.sample 0 ⟨[], us⟩
  let (ws, p) ← m.pwe.weights b.data.length probs minProb
  pure ⟨b, p, m.log ++ [(entries, ws, [])]⟩

/-- `replay_buffers/prioritized.py:111-112` `update_errors`. -/
noncomputable def report (errs : List ℝ) (m : Mem T) : Py (Mem T) := do
  let b ← m.buf.setLast (m.pwe.priorityFromErrors errs)
  pure { m with buf := b }

/-- `replay_buffer.py:273-280` with an `update_func` that never reports errors: the repetitions. -/
noncomputable def draws (n : Nat) (us : Nat → List ℝ) : Nat → Nat → Mem T → Py (Mem T)
  | _, 0, m => pure m
  | j, i + 1, m => do
    let m ← draw n (us j) m
    draws n us (j + 1) i m

/-- `replay_buffer.py:262-280` `update_if_necessary(iteration)` of such an agent. -/
noncomputable def update (c : Sched) (us : Nat → List ℝ) (t : Nat) (m : Mem T) : Py (Mem T) :=
  if m.buf.data.length < c.startSize then pure m
  else if c.interval = 0 then .error .zeroDivisionError
  else if t % c.interval ≠ 0 then pure m
  else draws c.batchsize us 0 c.nTimes m

/-- What happens to a buffer: an entry is added (replay_buffers/replay_buffer.py:28-65), or
the agent calls `update_if_necessary(t)` with the given variates. -/
inductive Op (T : Type) where
  | entry (w : List T)
  | update (t : Nat) (us : Nat → List ℝ)

/-- One operation with an agent that never reports errors (replay_buffer.py:262-280 with agents/ddpg.py:253-258, td3.py:229-236, soft_actor_critic.py:282-288, pgt.py:132-180).
The first exception ends everything. -/
noncomputable def step (c : Sched) (m : Py (Mem T)) : Op T → Py (Mem T)
  | .entry w => push m w
  | .update t us => m >>= OpenBatches.update c us t

/-- All operations, one after the other (replay_buffer.py:262-280, replay_buffers/replay_buffer.py:28-65). -/
noncomputable def run (c : Sched) (m : Py (Mem T)) (ops : List (Op T)) : Py (Mem T) := ops.foldl (step c) m

/-- A repetition of `replay_buffer.py:279-280` by a `DQN` that an exception ends after `sample` returned and before `update_errors` is
called (agents/dqn.py:250-261), after `k` complete repetitions: what it leaves. -/
noncomputable def interrupted (c : Sched) (us errs : Nat → List ℝ) (k : Nat) (m : Mem T) : Py (Mem T) := do
  let m ← rounds c.batchsize us errs 0 k m
  draw c.batchsize (us k) m

/-- What happens to the buffer of a `DQN` that is used on after an interruption: as `Op`, with the errors of each batch
(agents/dqn.py:231-271, replay_buffer.py:262-280). -/
noncomputable def dqnStep (c : Sched) (errs : Nat → Nat → List ℝ) (m : Py (Mem T)) : Nat × Op T → Py (Mem T)
  | (_, .entry w) => push m w
  | (k, .update t us) => m >>= TrainPrioritized.update c us (errs k) t

/-- All operations; the number of each operation selects its errors (agents/dqn.py:231-271). -/
noncomputable def dqnRun (c : Sched) (errs : Nat → Nat → List ℝ) (m : Py (Mem T)) (ops : List (Nat × Op T)) : Py (Mem T) :=
  ops.foldl (dqnStep c errs) m

/-- What an exception leaves that ends `sample` itself while entries are being selected (misc/prioritized.py:262-274 of `prioritized_sample`, called in
line 60): `us` are the variates used so far.  The selected leaves are already zero, `sampled_indices` and `flag_wait_priority` are not yet set
(lines 86-87).  The exception falls between two selections. -/
noncomputable def cutShort (us : List ℝ) (m : Mem T) : Py (Mem T) := do
  let (_, _, s) ← SumTree.prioritizedSample m.buf.sums us m.buf.wait
  pure { m with buf := { m.buf with sums := s } }

end Verif.OpenBatches
