import Verif.Model.TrainAgentAsync
import Verif.Model.TrainCalls
import Verif.Model.NStep
import Verif.Model.OnlineReplay
set_option autoImplicit false

/-!
# The calls that a process of `train_agent_async` makes to its agent

`experiments/train_agent_async.py:10-109` put together with the models of the agents that
are trained with it: A3C and NSQ (`Model/NStep.lean`), ACER and PCL
(`Model/OnlineReplay.lean`).

Inputs from outside are the environment's answers and the chosen actions (both in the
events of the run) and what the networks return: processes share parameters, so this
depends on what other processes do and is left arbitrary.  Evaluations are left out: they
leave the training state of the agent alone (C110).
-/

namespace Verif.TrainAsyncCalls
open TrainCalls (Call)
variable {O A R K X D B : Type}

/-- The calls of `act_and_train` (`train_agent_async.py:36`), with the action returned, and
of `stop_episode_and_train` (`:54`) among the calls of a process. -/
def calls (evs : List (TrainAsync.Ev O A R)) : List (Call O A R) :=
  evs.filterMap fun
    | .act o r a => some (.act o r a)
    | .stop o r d => some (.stop o r d)
    | _ => none

/-- The calls as A3C and NSQ get them.  `boot k` is the value that the network returns
for the observation of the `k`-th call, `x k` what it returns for the action chosen (train_agent_async.py:36, 54). -/
def nstepCalls (boot : Nat → K) (x : Nat → X) : Nat → List (Call O A K) → List (NStepAgent.Call X K)
  | _, [] => []
  | k, .act _ r _ :: l => .act r (boot k) (x k) :: nstepCalls boot x (k + 1) l
  | k, .stop _ r d :: l => .stop r d (boot k) :: nstepCalls boot x (k + 1) l

/-- A3C or NSQ: its book and its updates (train_agent_async.py:33-54). -/
def driveNStep [Semiring K] (gamma : K) (tMax : Nat) (boot : Nat → K) (x : Nat → X) (evs : List (TrainAsync.Ev O A K)) :
    Py (NStepAgent.St X K × List (List (X × K))) :=
  NStepAgent.run gamma tMax NStepAgent.St.init (nstepCalls boot x 0 (calls evs))

/-- The calls as ACER and PCL get them.  `dist k` is the action distribution that the
network returns in the `k`-th call (train_agent_async.py:36, 54). -/
def onlineCalls (dist : Nat → D) : Nat → List (Call O A R) → List (OnlineReplay.Call O A D R)
  | _, [] => []
  | k, .act o r a :: l => .act ⟨o, dist k, a⟩ r :: onlineCalls dist (k + 1) l
  | k, .stop o r d :: l => .stop o r d :: onlineCalls dist (k + 1) l

/-- ACER or PCL with replay buffer `buf`: its state, and what it does (train_agent_async.py:33-54). -/
def driveOnline (c : OnlineReplay.Args) (b : OnlineReplay.Buf B O A D R) (buf : Option B) (dist : Nat → D) (evs : List (TrainAsync.Ev O A R)) :
    Py (OnlineReplay.St B O A D R × List (OnlineReplay.Ev O A D R)) :=
  OnlineReplay.run c b (OnlineReplay.St.init buf) (onlineCalls dist 0 (calls evs))

end Verif.TrainAsyncCalls
