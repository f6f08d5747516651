import Verif.Model.TrainCalls
import Verif.Model.TrainAsyncCalls
import Verif.Model.PGT
set_option autoImplicit false

/-!
# The calls that `train_agent` makes to PGT, A3C, NSQ, ACER and PCL

`experiments/train_agent.py:22-84` put together with the models of these agents, as in
`Model/TrainCalls.lean` (`examples/gym/train_pcl_gym.py` trains PCL in this way).  All of them
have an attribute `t`, which is set to `step_offset` before the first call
(`train_agent.py:36-37`); `t_start` of A3C (a3c.py:134), NSQ (nsq.py:66), ACER (acer.py:351) and
PCL (pcl.py:171) stays as it is.

Inputs from outside are the environment's answers, the chosen actions and what the networks
return.
-/

namespace Verif.TrainSyncCalls
open TrainCalls (Call calls replayBuf)
open TrainAsyncCalls (nstepCalls onlineCalls)
variable {O A R S K X D B : Type}

/-! ## PGT -/

/-- The calls as PGT gets them: `q k` is the Q-value logged in the `k`-th decision (train_agent.py:44, 57). -/
def pgtCalls (q : Nat → K) : Nat → List (Call O A R) → List (PGT.Call O A R K)
  | _, [] => []
  | k, .act o r a :: l => .actAndTrain o r (q k) a :: pgtCalls q (k + 1) l
  | k, .stop o r d :: l => .stopAndTrain o r d :: pgtCalls q k l

/-- PGT with a buffer `ReplayBuffer(cap, n)` after a part of a run (train_agent.py:35-57). -/
def drivePGT [Field K] (c : PGT.Args K) (cap : Option Nat) (n offset : Nat) (q : Nat → K) (evs : List (Train.Ev O A R S)) :
    Py (PGT.St (ReplayBuffer Nat (Transition O A R)) O A K × List (ActorCritic.Ev O A R)) :=
  c.run replayBuf { PGT.init (ReplayBuffer.init cap n) with t := offset } (pgtCalls q 0 (calls evs))

/-! ## A3C and NSQ -/

/-- A3C or NSQ after a part of a run: its book and its updates (train_agent.py:35-57). -/
def driveNStep [Semiring K] (gamma : K) (tMax offset : Nat) (boot : Nat → K) (x : Nat → X) (evs : List (Train.Ev O A K S)) :
    Py (NStepAgent.St X K × List (List (X × K))) :=
  NStepAgent.run gamma tMax { NStepAgent.St.init with t := offset } (nstepCalls boot x 0 (calls evs))

/-! ## ACER and PCL -/

/-- ACER or PCL with replay buffer `buf` after a part of a run: its state, and what it has done (train_agent.py:35-57). -/
def driveOnline (c : OnlineReplay.Args) (b : OnlineReplay.Buf B O A D R) (buf : Option B) (offset : Nat) (dist : Nat → D) (evs : List (Train.Ev O A R S)) :
    Py (OnlineReplay.St B O A D R × List (OnlineReplay.Ev O A D R)) :=
  OnlineReplay.run c b { OnlineReplay.St.init buf with t := offset } (onlineCalls dist 0 (calls evs))

end Verif.TrainSyncCalls
