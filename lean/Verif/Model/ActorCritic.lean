import Verif.Model.DQN
import Verif.Model.ReplayUpdater
set_option autoImplicit false

/-!
# Model of the data flow of `DDPG`, `TD3` and `SoftActorCritic`

`chainerrl/agents/ddpg.py`, `td3.py`, `soft_actor_critic.py`: what the training methods send
to the replay buffer, when they update which network, when they synchronise the target
networks and which source of actions they use.  Inputs of the model: the actions that the
burn-in function and the policy (with explorer) would choose.  Left out: losses (see
`Model/Targets.lean`), statistics, recurrent states of DDPG, `episodic_update`.
-/

namespace Verif.ActorCritic

/-- The three agents (ddpg.py:35, td3.py:32, soft_actor_critic.py:41). -/
inductive Kind where
  | ddpg | td3 | sac
  deriving DecidableEq

/-- The constructor arguments that matter here (`ddpg.py:73-94`, `td3.py:83-106`,
`soft_actor_critic.py:96-119`); `SoftActorCritic` has no `n_times_update`. -/
structure Args where
  kind : Kind
  replayStartSize : Nat
  minibatchSize : Nat
  updateInterval : Nat
  nTimesUpdate : Nat
  targetUpdateInterval : Nat
  policyUpdateDelay : Nat
  burnin : Bool
  tuneTemperature : Bool

/-- The replay buffer, as far as the agents use it
(as used in ddpg.py:318, 434, 447, 462 and td3.py:260, 332, 345, 358). -/
structure Buf (B O A R : Type) where
  append : B → Nat → Transition O A R → B
  stop : B → Nat → B
  len : B → Nat

/-- What the agent does: replay buffer calls, optimizer updates, synchronisation of the
target networks (with the time), the choice of an action (by the burn-in function or by the
policy) and the action returned (the calls made in ddpg.py:253-331, td3.py:229-273 and soft_actor_critic.py:282-330). -/
inductive Ev (O A R : Type) where
  | append (env : Nat) (tr : Transition O A R)
  | stopEpisode (env : Nat)
  | qUpdate
  | policyUpdate
  | temperatureUpdate
  | sync (t : Nat)
  | choose (burn : Bool) (a : A)
  | ret (a : A)

/-- The attributes (`td3.py:143-145`; `qT`, `polT` are the `t` of the optimizers). -/
structure St (B O A : Type) where
  t : Nat
  qT : Nat
  polT : Nat
  buf : B
  lastState : Option O
  lastAction : Option A
  batchLastObs : List (Option O)
  batchLastAction : List A

variable {B O A R : Type}

/-- The attributes after the constructor (ddpg.py:96-150, td3.py:108-157, soft_actor_critic.py:120-183). -/
def init (b : B) : St B O A := ⟨0, 0, 0, b, none, none, [], []⟩

/-- The `ReplayUpdater` that the constructor makes: DDPG passes `n_times_update` on
(`ddpg.py:121-130`); TD3 and SoftActorCritic pass 1 (`td3.py:129-137`,
`soft_actor_critic.py:141-149`). -/
def Args.updater (c : Args) : UpdaterCfg :=
  { batchsize := c.minibatchSize, episodic := false, startSize := c.replayStartSize,
    interval := c.updateInterval, nTimes := if c.kind = .ddpg then c.nTimesUpdate else 1 }

/-- `update(experiences)`: `ddpg.py:253-258`, `td3.py:229-236`,
`soft_actor_critic.py:282-288`. -/
def Args.update (c : Args) (s : St B O A) : Py (St B O A × List (Ev O A R)) :=
  match c.kind with
  | .ddpg => .ok ({ s with qT := s.qT + 1, polT := s.polT + 1 }, [.qUpdate, .policyUpdate])
  | .td3 =>
    if c.policyUpdateDelay = 0 then .error .zeroDivisionError
    else if (s.qT + 1) % c.policyUpdateDelay = 0 then
      .ok ({ s with qT := s.qT + 1, polT := s.polT + 1 }, [.qUpdate, .policyUpdate, .sync s.t])
    else .ok ({ s with qT := s.qT + 1 }, [.qUpdate])
  | .sac =>
    .ok ({ s with qT := s.qT + 1, polT := s.polT + 1 },
      .qUpdate :: .policyUpdate :: (if c.tuneTemperature then [.temperatureUpdate] else []) ++ [.sync s.t])

/-- The updates asked for by the updater, in order; the sampled transitions do not matter
here (the loop of replay_buffer.py:273-280). -/
def Args.updates (c : Args) : List UpdEvent → St B O A → Py (St B O A × List (Ev O A R))
  | [], s => .ok (s, [])
  | .update :: es, s => do
    let (s, e1) ← c.update s
    let (s, e2) ← c.updates es s
    pure (s, e1 ++ e2)
  | _ :: es, s => c.updates es s

/-- `self.replay_updater.update_if_necessary(self.t)` (`td3.py:271`, ...). -/
def Args.updateIfNecessary (c : Args) (b : Buf B O A R) (s : St B O A) : Py (St B O A × List (Ev O A R)) := do
  let es ← c.updater.updateIfNecessary (b.len s.buf) 0 s.t
  c.updates es s

/-- DDPG: `ddpg.py:311-313`, `417-419`; the other agents synchronise in `update`. -/
def Args.syncIfDue (c : Args) (s : St B O A) : Py (List (Ev O A R)) :=
  if c.kind = .ddpg then
    if c.targetUpdateInterval = 0 then .error .zeroDivisionError
    else if s.t % c.targetUpdateInterval = 0 then .ok [.sync s.t]
    else .ok []
  else .ok []

/-- Whether the burn-in function is used (`td3.py:248-249`, `297-298`, ...). -/
def Args.burning (c : Args) (s : St B O A) : Bool := c.burnin && (s.polT == 0)

/-- A call `replay_buffer.append(...)` (ddpg.py:318, 423, 447, td3.py:260, 321, 345). -/
def Buf.push (b : Buf B O A R) (s : St B O A) (env : Nat) (tr : Transition O A R) : St B O A × List (Ev O A R) :=
  ({ s with buf := b.append s.buf env tr }, [.append env tr])

/-- A call `replay_buffer.stop_current_episode(...)` (ddpg.py:434, 462, td3.py:332, 358). -/
def Buf.halt (b : Buf B O A R) (s : St B O A) (env : Nat) : St B O A × List (Ev O A R) :=
  ({ s with buf := b.stop s.buf env }, [.stopEpisode env])

/-- The transition appended by `act_and_train` (`td3.py:257-266`, ...). -/
def Buf.actAppend (b : Buf B O A R) (s : St B O A) (obs : O) (reward : R) (a : A) :
    Py (St B O A × List (Ev O A R)) :=
  match s.lastState, s.lastAction with
  | none, _ => .ok (s, [])
  | some _, none => .error .assertionError
  | some o, some la => .ok (b.push s 0 ⟨o, la, reward, obs, some a, false⟩)

/-- `act_and_train(obs, reward)` (`ddpg.py:299-331`, `td3.py:244-273`,
`soft_actor_critic.py:303-330`); `cand true` is the action of the burn-in function,
`cand false` that of the policy. -/
def Args.actAndTrain (c : Args) (b : Buf B O A R) (s : St B O A) (obs : O) (reward : R) (cand : Bool → A) :
    Py (St B O A × List (Ev O A R)) := do
  let burn := c.burning s
  let s := { s with t := s.t + 1 }
  let e1 ← c.syncIfDue s
  let (s, e2) ← b.actAppend s obs reward (cand burn)
  let s := { s with lastState := some obs, lastAction := some (cand burn) }
  let (s, e3) ← c.updateIfNecessary b s
  pure (s, .choose burn (cand burn) :: (e1 ++ e2 ++ e3 ++ s.lastAction.toList.map .ret))

/-- `stop_episode_and_train(state, reward, done)` (`td3.py:339-358`, ...). -/
def Buf.stopEpisodeAndTrain (b : Buf B O A R) (s : St B O A) (obs : O) (reward : R) (done : Bool) :
    Py (St B O A × List (Ev O A R)) :=
  match s.lastState, s.lastAction with
  | some o, some a =>
    let (s, e1) := b.push s 0 ⟨o, a, reward, obs, some a, done⟩
    let s := { s with lastState := none, lastAction := none }
    let (s, e2) := b.halt s 0
    .ok (s, e1 ++ e2)
  | _, _ => .error .assertionError

/-- `batch_act_and_train(batch_obs)` (`td3.py:287-312`, ...). -/
def Args.batchActAndTrain (c : Args) (s : St B O A) (obs : List O) (cands : List (Bool → A)) :
    St B O A × List (Ev O A R) :=
  let burn := c.burning s
  ({ s with batchLastObs := obs.map some, batchLastAction := cands.map (fun f => f burn) },
   (cands.map fun f => .choose burn (f burn)) ++ cands.map fun f => .ret (f burn))

/-- The arguments of `batch_observe_and_train` (ddpg.py:399-401, td3.py:314-316). -/
structure Obs (O R : Type) where
  obs : List O
  reward : List R
  done : List Bool
  reset : List Bool

/-- `td3.py:319-332`: the body of the loop for an environment whose last observation is
`o`. -/
def Buf.observeAppend (b : Buf B O A R) (inp : Obs O R) (i : Nat) (o : O) (s : St B O A) :
    Py (St B O A × List (Ev O A R)) := do
  let a ← DQN.idx s.batchLastAction i
  let r ← DQN.idx inp.reward i
  let o' ← DQN.idx inp.obs i
  let d ← DQN.idx inp.done i
  let rs ← DQN.idx inp.reset i
  let (s, e1) := b.push s i ⟨o, a, r, o', none, d⟩
  if rs || d then
    let s := { s with batchLastObs := s.batchLastObs.set i none }
    let (s, e2) := b.halt s i
    pure (s, e1 ++ e2)
  else pure (s, e1)

/-- `td3.py:318-332`. -/
def Buf.observeRecord (b : Buf B O A R) (inp : Obs O R) (i : Nat) (s : St B O A) :
    Py (St B O A × List (Ev O A R)) := do
  let lo ← DQN.idx s.batchLastObs i
  match lo with
  | none => pure (s, [])
  | some o => b.observeAppend inp i o s

/-- One pass of the loop (`ddpg.py:416-435`, `td3.py:317-333`,
`soft_actor_critic.py:365-381`). -/
def Args.observeStep (c : Args) (b : Buf B O A R) (inp : Obs O R) (i : Nat) (s : St B O A) :
    Py (St B O A × List (Ev O A R)) := do
  let s := { s with t := s.t + 1 }
  let e1 ← c.syncIfDue s
  let (s, e2) ← b.observeRecord inp i s
  let (s, e3) ← c.updateIfNecessary b s
  pure (s, e1 ++ e2 ++ e3)

/-- `for i in range(len(batch_obs))`: `k` more passes from `i` (td3.py:317). -/
def Args.observeLoop (c : Args) (b : Buf B O A R) (inp : Obs O R) : Nat → Nat → St B O A →
    Py (St B O A × List (Ev O A R))
  | _, 0, s => pure (s, [])
  | i, k + 1, s => do
    let (s, e1) ← c.observeStep b inp i s
    let (s, e2) ← c.observeLoop b inp (i + 1) k s
    pure (s, e1 ++ e2)

/-- A call of one of the training methods (ddpg.py:299, 373, 399, 441, td3.py:244, 287, 314, 339). -/
inductive Call (O A R : Type) where
  | act (obs : O) (reward : R) (cand : Bool → A)
  | stop (obs : O) (reward : R) (done : Bool)
  | batchAct (obs : List O) (cands : List (Bool → A))
  | batchObserve (inp : Obs O R)

/-- The effect of one call (ddpg.py:299-331, 373-435, 441-455, td3.py:244-273, 287-358). -/
def Args.call (c : Args) (b : Buf B O A R) (s : St B O A) : Call O A R → Py (St B O A × List (Ev O A R))
  | .act o r f => c.actAndTrain b s o r f
  | .stop o r d => b.stopEpisodeAndTrain s o r d
  | .batchAct os fs => .ok (c.batchActAndTrain s os fs)
  | .batchObserve inp => c.observeLoop b inp 0 inp.obs.length s

/-- A sequence of calls (iterates the calls of ddpg.py:299-455). -/
def Args.run (c : Args) (b : Buf B O A R) : St B O A → List (Call O A R) → Py (St B O A × List (Ev O A R))
  | s, [] => pure (s, [])
  | s, x :: xs => do
    let (s, e1) ← c.call b s x
    let (s, e2) ← c.run b s xs
    pure (s, e1 ++ e2)

end Verif.ActorCritic
