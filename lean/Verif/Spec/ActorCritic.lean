import Verif.Model.ActorCritic
import Verif.Spec.DQN
set_option autoImplicit false

/-! # Specification for C71 and C78

The episodes, steps and buffer calls are those of `Spec/DQN.lean`; `params` of a decision
holds the two candidate actions: what the burn-in function and what the policy would
choose. -/

namespace Verif.ActorCritic

variable {B O A R : Type}

/-- A learning event. -/
inductive Learn where
  | q | policy | temperature | sync
  deriving DecidableEq

/-- The learning events, in order. -/
def learns (l : List (Ev O A R)) : List Learn :=
  l.filterMap fun
    | .qUpdate => some .q
    | .policyUpdate => some .policy
    | .temperatureUpdate => some .temperature
    | .sync _ => some .sync
    | _ => none

/-- The times at which the target networks are synchronised. -/
def syncTimes (l : List (Ev O A R)) : List Nat :=
  l.filterMap fun
    | .sync t => some t
    | _ => none

/-- The replay buffer calls. -/
def bufCalls (l : List (Ev O A R)) : List (DQN.BufCall O A R) :=
  l.filterMap fun
    | .append i tr => some (.append i ⟨tr.state, tr.action, tr.reward, tr.nextState, tr.terminal⟩)
    | .stopEpisode i => some (.stop i)
    | _ => none

/-- The actions returned to the caller. -/
def returned (l : List (Ev O A R)) : List A :=
  l.filterMap fun
    | .ret a => some a
    | _ => none

/-- Updates number `k + 1` to `k + n` of TD3: every one updates the Q-functions, and those
whose number is a multiple of the delay also the policy and the target networks. -/
def delayed (delay k n : Nat) : List Learn :=
  (List.range' (k + 1) n).flatMap fun j => if j % delay = 0 then [.q, .policy, .sync] else [.q]

/-- The number of time steps of a sequence of calls. -/
def ticks (l : List (Call O A R)) : Nat :=
  (l.map fun | .act .. => 1 | .batchObserve inp => inp.obs.length | _ => 0).sum

/-- How `train_agent` drives the agent. -/
def turnCall (t : DQN.Turn (Bool → A) O A R) : Call O A R := .act t.obs t.reward t.params

def episodeCalls (e : DQN.Episode (Bool → A) O A R) : List (Call O A R) :=
  e.turns.map turnCall ++ [.stop e.finalObs e.finalReward e.done]

/-- How `train_agent_batch` drives the agent. -/
def roundCalls (r : List (DQN.EnvRound (Bool → A) O A R)) : List (Call O A R) :=
  [.batchAct (r.map (·.obs)) (r.map (·.params)),
   .batchObserve ⟨r.map (·.nextObs), r.map (·.reward), r.map (·.done), r.map (·.reset)⟩]

/-- The replay buffer after the reported calls, in order. -/
def bufferAfter (b : Buf B O A R) (b0 : B) (l : List (Ev O A R)) : B :=
  l.foldl (fun x e => match e with
    | .append env tr => b.append x env tr
    | .stopEpisode env => b.stop x env
    | _ => x) b0

end Verif.ActorCritic
