import Verif.Model.BatchExperiences
set_option autoImplicit false

/-!
# Model of the data flow of `DQN` (`chainerrl/agents/dqn.py`)

Modelled: what `act_and_train`, `stop_episode_and_train`, `batch_act_and_train`
and `batch_observe_and_train` send to the replay buffer, when they synchronise
the target network and call the replay updater, and how the recurrent states
are kept.  Inputs of the model, because they are decided by the network, the
explorer's random numbers and the optimizer: the action that is chosen by each
call and the parameters after each call of `update_if_necessary`.  Left out:
the statistics `average_q`, logging, `phi` and device transfers.
Subclasses (`DoubleDQN`, `SARSA`, `AL`, `PAL`, `DPP`, `CategoricalDQN`, `IQN`,
...) inherit this code.
-/

namespace Verif.DQN

/-- The transition dict of `dqn.py:382-397`, `482-498` and `539-554`; the
recurrent states are `none` when the keys are absent or their value is `None`. -/
structure Rec (O A R H : Type) extends Transition O A R where
  recState : Option H
  nextRecState : Option H

/-- What the agent does to the outside: `append` and `stopEpisode` are the calls
of the replay buffer (with their `env_id`), `sync t p` is the synchronisation of
the target network at time `t` with the parameters `p` of the model, `update t p`
is the call `replay_updater.update_if_necessary(t)` that left the model with the
parameters `p` (the calls made in dqn.py:376-561). -/
inductive Ev (θ O A R H : Type) where
  | append (env : Nat) (tr : Rec O A R H)
  | stopEpisode (env : Nat)
  | sync (t : Nat) (src : θ)
  | update (t : Nat) (p : θ)

/-- The constructor arguments that matter here (`dqn.py:135-149`).  `sync src dst`
is the new value of the target parameters (`dqn.py:225-229`), `net p h o` is the
recurrent state after the model with parameters `p` read `o` in state `h` and
`zero` is the initial recurrent state. -/
structure Cfg (θ O H : Type) where
  targetInterval : Nat
  recurrent : Bool
  sync : θ → θ → θ
  net : θ → H → O → H
  zero : H

/-- The attributes of the agent (`dqn.py:188-203`, `456-457`).  `None` is `none`;
observations and actions themselves are not `None`.  `batch_last_obs` does not
exist before the first `batch_act_and_train`; here it is empty. -/
structure St (θ O A H : Type) where
  t : Nat
  model : θ
  target : θ
  lastState : Option O
  lastAction : Option A
  prevRec : Option (List H)
  trainRec : Option (List H)
  batchLastObs : List (Option O)
  batchLastAction : List (Option A)

variable {θ O A R H : Type}

/-- `dqn.py:188-203`: the attributes after the constructor; the target network
is a copy of the model (`dqn.py:216`). -/
def init (model : θ) : St θ O A H :=
  { t := 0, model := model, target := model, lastState := none, lastAction := none,
    prevRec := none, trainRec := none, batchLastObs := [], batchLastAction := [] }

/-- `l[i]` on a Python list for an index `i ≥ 0` (as in dqn.py:479-500). -/
def idx {α : Type} (l : List α) (i : Nat) : Py α :=
  match l[i]? with
  | some x => .ok x
  | none => .error .indexError

/-- `model.get_recurrent_state_at(states, i)` (`links/stateless_recurrent.py:229-235`):
the part of the batched state that belongs to sequence `i`. -/
def recAt (s : Option (List H)) (i : Nat) : Option H := s.bind (fun l => l[i]?)

/-- The state of the batched recurrent state after the model read one
observation per sequence (`links/stateless_recurrent.py:64-80`); `None` is the
initial state. -/
def Cfg.forward (c : Cfg θ O H) (p : θ) (s : Option (List H)) (obs : List O) : List H :=
  match s with
  | none => obs.map (c.net p c.zero)
  | some l => List.zipWith (c.net p) l obs

/-- `dqn.py:430-442` `_evaluate_model_and_update_recurrent_states(batch_obs, test=False)`. -/
def Cfg.evaluate (c : Cfg θ O H) (s : St θ O A H) (obs : List O) : St θ O A H :=
  if c.recurrent then
    { s with prevRec := s.trainRec, trainRec := some (c.forward s.model s.trainRec obs) }
  else s

/-- `dqn.py:401-402` and `477-478`. -/
def Cfg.syncIfDue (c : Cfg θ O H) (s : St θ O A H) : Py (St θ O A H × List (Ev θ O A R H)) :=
  if c.targetInterval = 0 then .error .zeroDivisionError
  else if s.t % c.targetInterval = 0 then
    .ok ({ s with target := c.sync s.model s.target }, [.sync s.t s.model])
  else .ok (s, [])

/-- The recurrent states put into a transition (`dqn.py:389-397`, `490-498`, `547-554`). -/
def Cfg.recOf (c : Cfg θ O H) (s : Option (List H)) (i : Nat) : Option H :=
  if c.recurrent then recAt s i else none

/-- `dqn.py:379-398`: the transition appended at the begin of `act_and_train`. -/
def Cfg.actAppend (c : Cfg θ O H) (s : St θ O A H) (obs : O) (reward : R) :
    Py (St θ O A H × List (Ev θ O A R H)) :=
  match s.lastState, s.lastAction with
  | none, _ => .ok (s, [])
  | some _, none => .error .assertionError
  | some o, some a =>
    .ok ({ s with prevRec := if c.recurrent then none else s.prevRec },
      [.append 0 { state := o, action := a, reward := reward, nextState := obs, nextAction := none,
                   terminal := false, recState := c.recOf s.prevRec 0,
                   nextRecState := c.recOf s.trainRec 0 }])

/-- `dqn.py:376-428` `act_and_train(obs, reward)`, when `update_if_necessary`
leaves the model with the parameters `p` and the action `a` is chosen. -/
def Cfg.actAndTrain (c : Cfg θ O H) (s : St θ O A H) (obs : O) (reward : R) (p : θ) (a : A) :
    Py (St θ O A H × List (Ev θ O A R H)) := do
  let (s, e1) ← c.actAppend s obs reward
  let (s, e2) ← c.syncIfDue s
  let e3 := [Ev.update s.t p]
  let s := { s with model := p }
  let s := c.evaluate s [obs]
  pure ({ s with t := s.t + 1, lastState := some obs, lastAction := some a }, e1 ++ e2 ++ e3)

/-- `dqn.py:529-561` `stop_episode_and_train(state, reward, done)`. -/
def Cfg.stopEpisodeAndTrain (c : Cfg θ O H) (s : St θ O A H) (obs : O) (reward : R) (done : Bool) :
    Py (St θ O A H × List (Ev θ O A R H)) :=
  match s.lastState, s.lastAction with
  | some o, some a =>
    .ok ({ s with lastState := none, lastAction := none,
                  prevRec := if c.recurrent then none else s.prevRec,
                  trainRec := if c.recurrent then none else s.trainRec },
      [.append 0 { state := o, action := a, reward := reward, nextState := obs, nextAction := some a,
                   terminal := done, recState := c.recOf s.prevRec 0,
                   nextRecState := c.recOf s.trainRec 0 },
       .stopEpisode 0])
  | _, _ => .error .assertionError

/-- `dqn.py:444-463` `batch_act_and_train(batch_obs)` when the actions `acts` are chosen. -/
def Cfg.batchActAndTrain (c : Cfg θ O H) (s : St θ O A H) (obs : List O) (acts : List A) :
    St θ O A H :=
  { c.evaluate s obs with batchLastObs := obs.map some, batchLastAction := acts.map some }

/-- The arguments of `batch_observe_and_train` and the parameters `params[i]`
that the `i`-th call of `update_if_necessary` in it leaves (dqn.py:472-473). -/
structure Obs (θ O R : Type) where
  obs : List O
  reward : List R
  done : List Bool
  reset : List Bool
  params : List θ

/-- `dqn.py:479-503`: the body of the loop for an environment whose last
observation is `o`. -/
def Cfg.observeAppend (c : Cfg θ O H) (inp : Obs θ O R) (i : Nat) (o : O) (s : St θ O A H) :
    Py (St θ O A H × List (Ev θ O A R H)) := do
  let a? ← idx s.batchLastAction i
  let r ← idx inp.reward i
  let o' ← idx inp.obs i
  let d ← idx inp.done i
  let rs ← idx inp.reset i
  match a? with
  | none => .error .assertionError
  | some a =>
    let e := Ev.append i { state := o, action := a, reward := r, nextState := o', nextAction := none,
                           terminal := d, recState := c.recOf s.prevRec i,
                           nextRecState := c.recOf s.trainRec i }
    if rs || d then
      pure ({ s with batchLastObs := s.batchLastObs.set i none,
                     batchLastAction := s.batchLastAction.set i none }, [e, .stopEpisode i])
    else pure (s, [e])

/-- `dqn.py:479-503`. -/
def Cfg.observeRecord (c : Cfg θ O H) (inp : Obs θ O R) (i : Nat) (s : St θ O A H) :
    Py (St θ O A H × List (Ev θ O A R H)) := do
  let lo ← idx s.batchLastObs i
  match lo with
  | none => pure (s, [])
  | some o => c.observeAppend inp i o s

/-- `dqn.py:474-504`: one pass of the loop. -/
def Cfg.observeStep (c : Cfg θ O H) (inp : Obs θ O R) (i : Nat) (s : St θ O A H) :
    Py (St θ O A H × List (Ev θ O A R H)) := do
  let (s, e1) ← c.syncIfDue { s with t := s.t + 1 }
  let (s, e2) ← c.observeRecord inp i s
  let p ← idx inp.params i
  pure ({ s with model := p }, e1 ++ e2 ++ [.update s.t p])

/-- `dqn.py:474`: `for i in range(len(batch_obs))`, `k` more passes from `i`. -/
def Cfg.observeLoop (c : Cfg θ O H) (inp : Obs θ O R) : Nat → Nat → St θ O A H →
    Py (St θ O A H × List (Ev θ O A R H))
  | _, 0, s => pure (s, [])
  | i, k + 1, s => do
    let (s, e1) ← c.observeStep inp i s
    let (s, e2) ← c.observeLoop inp (i + 1) k s
    pure (s, e1 ++ e2)

/-- `dqn.py:75-95` `_batch_reset_recurrent_states_when_episodes_end`; masking
(`links/stateless_recurrent.py:221-226`) puts the initial state at the given
positions. -/
def Cfg.resetEnded (c : Cfg θ O H) (done reset : List Bool) (s : Option (List H)) :
    Option (List H) :=
  s.map (fun l => l.mapIdx (fun i h =>
    if ((List.zip done reset)[i]?).any (fun p => p.1 || p.2) then c.zero else h))

/-- `dqn.py:472-515` `batch_observe_and_train`. -/
def Cfg.batchObserveAndTrain (c : Cfg θ O H) (s : St θ O A H) (inp : Obs θ O R) :
    Py (St θ O A H × List (Ev θ O A R H)) := do
  let (s, e) ← c.observeLoop inp 0 inp.obs.length s
  if c.recurrent then
    pure ({ s with prevRec := none, trainRec := c.resetEnded inp.done inp.reset s.trainRec }, e)
  else pure (s, e)

/-- A call of one of the training methods, with the inputs from outside (dqn.py:376, 444, 472, 529). -/
inductive Call (θ O A R : Type) where
  | act (obs : O) (reward : R) (params : θ) (action : A)
  | stop (obs : O) (reward : R) (done : Bool)
  | batchAct (obs : List O) (actions : List A)
  | batchObserve (inp : Obs θ O R)

/-- The effect of one call (dqn.py:376-428, 444-515, 529-561). -/
def Cfg.call (c : Cfg θ O H) (s : St θ O A H) : Call θ O A R →
    Py (St θ O A H × List (Ev θ O A R H))
  | .act o r p a => c.actAndTrain s o r p a
  | .stop o r d => c.stopEpisodeAndTrain s o r d
  | .batchAct os as => .ok (c.batchActAndTrain s os as, [])
  | .batchObserve inp => c.batchObserveAndTrain s inp

/-- A sequence of calls: the events of all of them in order (iterates the calls of dqn.py:376-561). -/
def Cfg.run (c : Cfg θ O H) : St θ O A H → List (Call θ O A R) →
    Py (St θ O A H × List (Ev θ O A R H))
  | s, [] => pure (s, [])
  | s, x :: xs => do
    let (s, e1) ← c.call s x
    let (s, e2) ← c.run s xs
    pure (s, e1 ++ e2)

end Verif.DQN
