import Verif.Model.ActorCritic
import Verif.Model.Targets
set_option autoImplicit false

/-!
# Model of the agent `PGT` (`chainerrl/agents/pgt.py`)

What its methods send to the replay buffer, when they update the networks and synchronise the
target networks, the statistics `average_q`, and the targets of the critic.  The losses of the
actor are in `Model/PolicyGradient.lean`.  Inputs of the model: the action that the explorer
returns and the Q-value that `act` logs.  Left out: recurrent states, the losses' statistics. -/

namespace Verif.PGT
open ActorCritic (Buf Ev)

/-- The constructor arguments that matter here (`pgt.py:60-71`). -/
structure Args (K : Type) where
  replayStartSize : Nat
  minibatchSize : Nat
  updateInterval : Nat
  nTimesUpdate : Nat
  targetUpdateInterval : Nat
  averageQDecay : K

/-- The attributes (`pgt.py:106-114`). -/
structure St (B O A K : Type) where
  t : Nat
  buf : B
  lastState : Option O
  lastAction : Option A
  averageQ : K

variable {B O A R K : Type}

/-- The attributes after the constructor (`pgt.py:106-114`); the synchronisation with which it ends
(`pgt.py:122`) is not an event here. -/
def init [Zero K] (b : B) : St B O A K := ⟨0, b, none, none, 0⟩

/-- `pgt.py:95-103`. -/
def Args.updater (c : Args K) : UpdaterCfg :=
  { batchsize := c.minibatchSize, episodic := false, startSize := c.replayStartSize,
    interval := c.updateInterval, nTimes := c.nTimesUpdate }

/-- The end of `update(experiences)` (`pgt.py:199-200`), for every update the updater asks for. -/
def updateEvents : UpdEvent → List (Ev O A R)
  | .update => [.qUpdate, .policyUpdate]
  | _ => []

/-- `act(obs)` (`pgt.py:232-249`), whose Q-value is `q`. -/
def Args.act [Add K] [Sub K] [Mul K] [One K] (c : Args K) (s : St B O A K) (q : K) : St B O A K :=
  { s with averageQ := s.averageQ * c.averageQDecay + (1 - c.averageQDecay) * q }

/-- `pgt.py:210-212`. -/
def Args.syncIfDue (c : Args K) (s : St B O A K) : Py (List (Ev O A R)) :=
  if c.targetUpdateInterval = 0 then .error .zeroDivisionError
  else if s.t % c.targetUpdateInterval = 0 then .ok [.sync s.t]
  else .ok []

/-- `pgt.py:214-223`. -/
def record (b : Buf B O A R) (s : St B O A K) (obs : O) (reward : R) (action : A) :
    Py (St B O A K × List (Ev O A R)) :=
  match s.lastState, s.lastAction with
  | none, _ => .ok (s, [])
  | some _, none => .error .assertionError
  | some o, some la =>
    .ok ({ s with buf := b.append s.buf 0 ⟨o, la, reward, obs, some action, false⟩ },
      [.append 0 ⟨o, la, reward, obs, some action, false⟩])

/-- `act_and_train(obs, reward)` (`pgt.py:202-230`); `action` is what the explorer returns. -/
def Args.actAndTrain [Add K] [Sub K] [Mul K] [One K] (c : Args K) (b : Buf B O A R) (s : St B O A K) (obs : O)
    (reward : R) (q : K) (action : A) : Py (St B O A K × List (Ev O A R)) := do
  let s := c.act s q
  let s := { s with t := s.t + 1 }
  let e1 ← c.syncIfDue s
  let (s, e2) ← record b s obs reward action
  let s := { s with lastState := some obs, lastAction := some action }
  let es ← c.updater.updateIfNecessary (b.len s.buf) 0 s.t
  pure (s, e1 ++ e2 ++ es.flatMap updateEvents ++ s.lastAction.toList.map .ret)

/-- `stop_episode()` (`pgt.py:267-272`). -/
def stopEpisode (b : Buf B O A R) (s : St B O A K) : St B O A K × List (Ev O A R) :=
  ({ s with lastState := none, lastAction := none, buf := b.stop s.buf 0 }, [.stopEpisode 0])

/-- `stop_episode_and_train(state, reward, done)` (`pgt.py:251-265`). -/
def stopEpisodeAndTrain (b : Buf B O A R) (s : St B O A K) (obs : O) (reward : R) (done : Bool) :
    Py (St B O A K × List (Ev O A R)) :=
  match s.lastState, s.lastAction with
  | some o, some a =>
    let (s', e) := stopEpisode b { s with buf := b.append s.buf 0 ⟨o, a, reward, obs, some a, done⟩ }
    .ok (s', .append 0 ⟨o, a, reward, obs, some a, done⟩ :: e)
  | _, _ => .error .assertionError

/-- A call of one of the methods (pgt.py:202, 232, 251, 267). -/
inductive Call (O A R K : Type) where
  | actAndTrain (obs : O) (reward : R) (q : K) (action : A)
  | stopAndTrain (obs : O) (reward : R) (done : Bool)
  | act (q : K)
  | stop

/-- The effect of one call (pgt.py:202-272). -/
def Args.call [Add K] [Sub K] [Mul K] [One K] (c : Args K) (b : Buf B O A R) (s : St B O A K) :
    Call O A R K → Py (St B O A K × List (Ev O A R))
  | .actAndTrain o r q a => c.actAndTrain b s o r q a
  | .stopAndTrain o r d => stopEpisodeAndTrain b s o r d
  | .act q => .ok (c.act s q, [])
  | .stop => .ok (stopEpisode b s)

/-- A sequence of calls (iterates pgt.py:202-272). -/
def Args.run [Add K] [Sub K] [Mul K] [One K] (c : Args K) (b : Buf B O A R) :
    St B O A K → List (Call O A R K) → Py (St B O A K × List (Ev O A R))
  | s, [] => pure (s, [])
  | s, x :: xs => do
    let (s, e1) ← c.call b s x
    let (s, e2) ← c.run b s xs
    pure (s, e1 ++ e2)

/-- `target_q` (`pgt.py:155-164`); `acts` are the actions sampled from the target policy. -/
def target {F U : Type} [Ring K] (qt : F → U → K) (acts : List U) (b : ExpBatch F A K) : List K :=
  List.zipWith (· + ·) b.reward
    (List.zipWith (· * ·) (List.zipWith (· * ·) b.discount (b.terminal.map (1 - ·)))
      (List.zipWith qt b.nextState acts))

end Verif.PGT
