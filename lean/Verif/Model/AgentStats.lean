import Mathlib.Data.Real.Basic
set_option autoImplicit false

/-!
# Model of the statistics that agents report (`get_statistics`)

All agents of `chainerrl/agents`, over the reals.  The quantities that an agent computes in a call (losses, values, entropies ...)
are an input of the model, in the order in which they are computed.  The number of updates is Chainer's `optimizer.t`, and TRPO's and PPO's
`explained_variance` is in C109.
-/

namespace Verif.AgentStats

/-- The quantities that agents compute
(the attributes that a2c.py:295-300, a3c.py:299-303 and the other `get_statistics` report). -/
inductive Quantity where
  | q
  | q1
  | q2
  | value
  | entropy
  | kl
  | loss
  | actorLoss
  | criticLoss
  | q1Loss
  | q2Loss
  | valueLoss
  | policyLoss
  | stepSize
deriving DecidableEq

/-- How a statistic is kept: with decay, as `x *= d; x += (1 - d) * v` (`dqn.py:266-267`, `370-371`; `ddpg.py:208-211`; `pgt.py:173-175`) or
`x += (1 - d) * (v - x)` (`a2c.py:209-217`, `a3c.py:261-266`, `acer.py:383-384`, `624-629`, `pcl.py:237-239`, `reinforce.py:89-91`,
`nsq.py:146-147`), or in a `deque(maxlen=w)` (`ppo.py:362-367`, `trpo.py:220-224`, `td3.py:153-157`,
`soft_actor_critic.py:178-182`). -/
inductive Keep where
  | scaled (decay : ℝ)
  | moved (decay : ℝ)
  | window (size : Nat)

/-- What is kept: a number, or the content of a deque, oldest first (as in dqn.py:195-198 and ppo.py:362-367). -/
inductive Cell where
  | num (x : ℝ)
  | deque (xs : List ℝ)

/-- The initial value: 0 or an empty deque (as in dqn.py:195-198 and ppo.py:362-367). -/
def Keep.init : Keep → Cell
  | .scaled _ => .num 0
  | .moved _ => .num 0
  | .window _ => .deque []

/-- `deque.append` with `maxlen`: the oldest element goes (as in td3.py:153-157, 209-210). -/
def push (size : Nat) (xs : List ℝ) (v : ℝ) : List ℝ :=
  if (xs ++ [v]).length > size then (xs ++ [v]).drop 1 else xs ++ [v]

/-- A new value (as in dqn.py:266-267, 370-371 and td3.py:209-210). -/
def Keep.add (k : Keep) (c : Cell) (v : ℝ) : Cell :=
  match k, c with
  | .scaled d, .num x => .num (x * d + (1 - d) * v)
  | .moved d, .num x => .num (x + (1 - d) * (v - x))
  | .window size, .deque xs => .deque (push size xs v)
  | _, c => c

/-- What `get_statistics` reports; none is `nan`: `_mean_or_nan` (`ppo.py:14-16`, `trpo.py:69-71`, `td3.py:18-20`,
`soft_actor_critic.py:18-20`). -/
noncomputable def report : Cell → Option ℝ
  | .num x => some x
  | .deque xs => if xs = [] then none else some (xs.sum / xs.length)

/-- The agents (chainerrl/agents/*.py). -/
inductive Kind where
  | a2c
  | a3c
  | acer
  | ddpg
  | dqn
  | nsq
  | pcl
  | pgt
  | ppo
  | reinforce
  | sac
  | td3
  | trpo
deriving DecidableEq

/-- Constructor arguments that set decays and windows; `f` gives the decay or window of a quantity
(as in dqn.py:142-143 and a3c.py:104-105). -/
structure Args where
  decay : Quantity → ℝ
  window : Quantity → Nat

/-- The statistics of each agent, with the name under which they are reported, how they are kept and what is put in:
`a2c.py:209-217`, `295-300`; `a3c.py:261-266`, `299-303`; `acer.py:383-384`, `624-629`, `704-709`; `ddpg.py:208-211`, `248-251`, `342-343`, `464-469`;
`dqn.py:266-267`, `285-286`, `370-371`, `418-419`, `460-461`, `567-572`; `nsq.py:146-147`, `189-192`; `pcl.py:237-239`, `404-409`, `484-489`;
`pgt.py:173-175`, `193-195`, `244-245`, `278-283`; `ppo.py:582-583`, `632-633`, `738-740`, `809-817`; `reinforce.py:89-91`, `177-180`;
`soft_actor_critic.py:178-182`, `237-240`, `275-280`, `408-417`; `td3.py:153-157`, `207-210`, `226`, `360-369`;
`trpo.py:636-637`, `643`, `691-692`, `797-799`, `868-876`. -/
def stats (a : Args) : Kind → List (String × Keep × Quantity)
  | .a2c => [("average_actor", .moved (a.decay .actorLoss), .actorLoss), ("average_value", .moved (a.decay .value), .valueLoss),
      ("average_entropy", .moved (a.decay .entropy), .entropy)]
  | .a3c => [("average_value", .moved (a.decay .value), .value), ("average_entropy", .moved (a.decay .entropy), .entropy)]
  | .acer => [("average_value", .moved (a.decay .value), .value), ("average_entropy", .moved (a.decay .entropy), .entropy),
      ("average_kl", .moved (a.decay .kl), .kl)]
  | .ddpg => [("average_q", .scaled (a.decay .q), .q), ("average_actor_loss", .scaled (a.decay .loss), .actorLoss),
      ("average_critic_loss", .scaled (a.decay .loss), .criticLoss)]
  | .dqn => [("average_q", .scaled (a.decay .q), .q), ("average_loss", .scaled (a.decay .loss), .loss)]
  | .nsq => [("average_q", .moved (a.decay .q), .q)]
  | .pcl => [("average_loss", .moved (a.decay .loss), .loss), ("average_value", .moved (a.decay .value), .value),
      ("average_entropy", .moved (a.decay .entropy), .entropy)]
  | .pgt => [("average_q", .scaled (a.decay .q), .q), ("average_actor_loss", .scaled (a.decay .loss), .actorLoss),
      ("average_critic_loss", .scaled (a.decay .loss), .criticLoss)]
  | .ppo => [("average_value", .window (a.window .value), .value), ("average_entropy", .window (a.window .entropy), .entropy),
      ("average_value_loss", .window (a.window .valueLoss), .valueLoss),
      ("average_policy_loss", .window (a.window .policyLoss), .policyLoss)]
  | .reinforce => [("average_entropy", .moved (a.decay .entropy), .entropy)]
  | .sac => [("average_q1", .window 1000, .q1), ("average_q2", .window 1000, .q2), ("average_q_func1_loss", .window 100, .q1Loss),
      ("average_q_func2_loss", .window 100, .q2Loss), ("average_entropy", .window 1000, .entropy)]
  | .td3 => [("average_q1", .window 1000, .q1), ("average_q2", .window 1000, .q2), ("average_q_func1_loss", .window 100, .q1Loss),
      ("average_q_func2_loss", .window 100, .q2Loss), ("average_policy_loss", .window 100, .policyLoss)]
  | .trpo => [("average_value", .window (a.window .value), .value), ("average_entropy", .window (a.window .entropy), .entropy),
      ("average_kl", .window (a.window .kl), .kl), ("average_policy_step_size", .window (a.window .stepSize), .stepSize)]

/-- An agent's statistics: a cell for each (as in dqn.py:195-198, a3c.py:129-145). -/
def start (l : List (String × Keep × Quantity)) : List (String × Keep × Quantity × Cell) :=
  l.map fun x => (x.1, x.2.1, x.2.2, x.2.1.init)

/-- The agent has computed the value `v` of the quantity `k` (as in dqn.py:266-267, a3c.py:261-266). -/
def see (k : Quantity) (v : ℝ) (l : List (String × Keep × Quantity × Cell)) : List (String × Keep × Quantity × Cell) :=
  l.map fun x => if x.2.2.1 = k then (x.1, x.2.1, x.2.2.1, x.2.1.add x.2.2.2 v) else x

/-- A history of computed values (iterates updates as in dqn.py:266-267). -/
def run (l : List (String × Keep × Quantity × Cell)) : List (Quantity × ℝ) → List (String × Keep × Quantity × Cell)
  | [] => l
  | e :: es => run (see e.1 e.2 l) es

/-- `get_statistics()` (as in dqn.py:567-573, a3c.py:299-303). -/
noncomputable def getStatistics (l : List (String × Keep × Quantity × Cell)) : List (String × Option ℝ) :=
  l.map fun x => (x.1, report x.2.2.2)

end Verif.AgentStats
