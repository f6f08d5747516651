import Verif.Model.OpenBatches
import Verif.Model.TrainCalls
import Verif.Model.TrainBatchCalls
import Verif.Model.ReplayBuffer
set_option autoImplicit false

/-!
# A training run of DDPG, TD3 or SoftActorCritic with a `PrioritizedReplayBuffer`

The calls that `train_agent` makes (experiments/train_agent.py:41-57) and what the agents make of them at the buffer
(with `num_steps = 1`, where each transition is an entry, and with any `num_steps`).  Losses, networks and target networks are left out: they do not touch
the buffer (C78).  PGT appends the same transitions at the same moments (agents/pgt.py:202-230, 251-266).
-/

namespace Verif.OpenBatches
variable {O A R : Type}

/-- The operations on the buffer by the calls of a run; `prev` is the last state and action of the episode, `t` the agent's step counter, `us t` are the
variates drawn in step `t`: `act_and_train` (agents/ddpg.py:299-331, td3.py:244-273, soft_actor_critic.py:303-330) appends the transition that led to its
observation and calls `update_if_necessary(t)`; `stop_episode_and_train` (agents/ddpg.py:441-462, td3.py:339-358) appends the last one. -/
def agentOps (us : Nat → Nat → List ℝ) : Nat → Option (O × A) → List (TrainCalls.Call O A R) → List (Op (Transition O A R))
  | _, _, [] => []
  | t, none, .act o _ a :: l => .update (t + 1) (us (t + 1)) :: agentOps us (t + 1) (some (o, a)) l
  | t, some p, .act o r a :: l =>
    .entry [⟨p.1, p.2, r, o, some a, false⟩] :: .update (t + 1) (us (t + 1)) :: agentOps us (t + 1) (some (o, a)) l
  | t, none, .stop _ _ _ :: l => agentOps us t none l
  | t, some p, .stop o r d :: l => .entry [⟨p.1, p.2, r, o, some p.2, d⟩] :: agentOps us t none l

/-- `batch_observe_and_train` (agents/ddpg.py:399-435, td3.py:314-333, soft_actor_critic.py:362-381): for each environment `t` is increased, its transition is appended and
`update_if_necessary(t)` is called. -/
def observeOps {T : Type} (us : Nat → Nat → List ℝ) : Nat → List T → List (Op T)
  | _, [] => []
  | t, x :: l => .entry [x] :: .update (t + 1) (us (t + 1)) :: observeOps us (t + 1) l

/-- The operations on the buffer by the calls of a run of `train_agent_batch` (experiments/train_agent_batch.py:55-72); `last` are the observations and actions of the last
`batch_act_and_train` (agents/ddpg.py:373-397).  That the agent sets the observation of a finished episode to None is left out: the next `batch_act_and_train` overwrites it. -/
def batchAgentOps (us : Nat → Nat → List ℝ) : Nat → List O × List A → List (TrainBatchCalls.Call O A R) → List (Op (Transition O A R))
  | _, _, [] => []
  | t, _, .act o a :: l => batchAgentOps us t (o, a) l
  | t, last, .observe o r d _ :: l =>
    observeOps us t ((last.1.zip (last.2.zip (r.zip (o.zip d)))).map fun x => ⟨x.1, x.2.1, x.2.2.1, x.2.2.2.1, none, x.2.2.2.2⟩) ++
      batchAgentOps us (t + o.length) last l

/-- `append` of `PrioritizedReplayBuffer`, which inherits it (replay_buffers/prioritized.py:71, replay_buffer.py:28-48): the entries added to the memory, and the window afterwards. -/
def windowAppend (n : Nat) (w : List (Transition O A R)) (x : Transition O A R) : List (List (Transition O A R)) × List (Transition O A R) :=
  let b := NStep.append (fun m e => m ++ [e]) (·.terminal) ⟨n, [], fun _ : Unit => w⟩ () x
  (b.memory, b.last ())

/-- `stop_current_episode` (replay_buffers/replay_buffer.py:50-62): the entries added to the memory, and the window afterwards. -/
def windowStop (n : Nat) (w : List (Transition O A R)) : List (List (Transition O A R)) × List (Transition O A R) :=
  let b := NStep.stop (fun m e => m ++ [e]) ⟨n, [], fun _ : Unit => w⟩ ()
  (b.memory, b.last ())

/-- `agentOps` for `num_steps = n`; `w` is the window of the buffer.  `stop_episode_and_train` also ends the episode in the buffer
(agents/ddpg.py:441-462, td3.py:339-358, soft_actor_critic.py:387-406). -/
def agentOpsN (us : Nat → Nat → List ℝ) (n : Nat) : Nat → List (Transition O A R) → Option (O × A) → List (TrainCalls.Call O A R) → List (Op (Transition O A R))
  | _, _, _, [] => []
  | t, w, none, .act o _ a :: l => .update (t + 1) (us (t + 1)) :: agentOpsN us n (t + 1) w (some (o, a)) l
  | t, w, some p, .act o r a :: l =>
    (windowAppend n w ⟨p.1, p.2, r, o, some a, false⟩).1.map .entry ++
      .update (t + 1) (us (t + 1)) :: agentOpsN us n (t + 1) (windowAppend n w ⟨p.1, p.2, r, o, some a, false⟩).2 (some (o, a)) l
  | t, w, none, .stop _ _ _ :: l => agentOpsN us n t w none l
  | t, w, some p, .stop o r d :: l =>
    (windowAppend n w ⟨p.1, p.2, r, o, some p.2, d⟩).1.map .entry ++
      ((windowStop n (windowAppend n w ⟨p.1, p.2, r, o, some p.2, d⟩).2).1.map .entry ++
        agentOpsN us n t (windowStop n (windowAppend n w ⟨p.1, p.2, r, o, some p.2, d⟩).2).2 none l)

end Verif.OpenBatches
