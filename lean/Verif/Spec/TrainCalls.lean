import Verif.Model.TrainCalls
import Verif.Spec.TrainDQN
set_option autoImplicit false

/-!
# Specification for C123: an agent's calls as episodes

Episodes, decisions and the environment's record are those of `Spec/DQN.lean` and
`Spec/TrainDQN.lean`.
-/

namespace Verif.TrainCalls
open DQN (EnvStep Turn Episode)
variable {θ O A R K : Type}

/-- A decision as a call. -/
def turnCall (t : Turn θ O A R) : Call O A R := .act t.obs t.reward t.action

/-- The calls of a whole episode. -/
def episodeCalls (e : Episode θ O A R) : List (Call O A R) := e.turns.map turnCall ++ [.stop e.finalObs e.finalReward e.done]

/-- Whole episodes followed by the decisions of an unfinished one. -/
def history (eps : List (Episode θ O A R)) (cur : List (Turn θ O A R)) : List (Call O A R) :=
  eps.flatMap episodeCalls ++ cur.map turnCall

/-- The environment step in a stored transition. -/
def stepOf (x : Transition O A R) : EnvStep O A R := ⟨x.state, x.action, x.reward, x.nextState, x.terminal⟩

/-- The entries of a buffer, as environment steps. -/
def stored (b : ReplayBuffer Nat (Transition O A R)) : List (List (EnvStep O A R)) := b.memory.iter.map (·.map stepOf)

/-- A transition in a dataset of PPO as an environment step. -/
def ppoStep (x : PPOData.Tr O A R) : EnvStep O A R := ⟨x.state, x.action, x.reward, x.nextState, x.done⟩

/-- The actions chosen in a run. -/
def chosen {S : Type} (evs : List (Train.Ev O A R S)) : List A :=
  evs.filterMap fun
    | .act _ _ a => some a
    | _ => none

/-! ## REINFORCE -/

section
variable [Field K]

/-- The loss of an episode whose first decision has number `k`: each decision's log probability weighted by minus the sum of the rewards from
its step on, minus `beta` times the entropy. -/
def episodeLoss (beta : K) (logp ent : Nat → K) : Nat → List (EnvStep O A K) → K
  | _, [] => 0
  | k, x :: xs => -((x :: xs).map (·.reward)).sum * logp k - beta * ent k + episodeLoss beta logp ent (k + 1) xs

/-- The losses of those episodes that ended in a terminal state; their decisions are numbered from `k` on. -/
def losses (beta : K) (logp ent : Nat → K) : Nat → List (List (EnvStep O A K)) → List K
  | _, [] => []
  | k, ep :: eps =>
    (if ep.getLast?.map (·.terminal) = some true then [episodeLoss beta logp ent k ep] else []) ++ losses beta logp ent (k + ep.length) eps

/-- The mean of each `n` of them. -/
def means (n : Nat) (l : List K) : List K := (List.range (l.length / n)).map fun j => ((l.drop (j * n)).take n).sum / (n : K)

end

end Verif.TrainCalls
