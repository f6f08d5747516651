import Verif.Model.Py
import Verif.Model.BatchExperiences
set_option autoImplicit false

/-!
# Model of the training loops of ACER and PCL

`chainerrl/agents/acer.py` lines 343-351 and 476-697, `chainerrl/agents/pcl.py` lines 166-171 and 235-476: what enters an
on-policy update, what is sent to the replay buffer and when experience is replayed.

The network's outputs for an observation and the sampled action are inputs of the model, an on-policy update is the list
of rollouts whose losses it sums (the losses are in `Model/ACER.lean` and `Model/PCL.lean`).  Not modelled: gradients and
parameters, recurrent states, statistics, logging, and the content of a replay update.
-/

namespace Verif.OnlineReplay

/-- The two agents (acer.py:223, pcl.py:30). -/
inductive Kind where
  | acer | pcl
  deriving DecidableEq

/-- The constructor arguments that matter here; ACER has no `batchsize`; `t_max` of PCL may be None
(acer.py:275-290, pcl.py:88-108). -/
structure Args where
  kind : Kind
  tMax : Option Nat
  batchsize : Nat
  nTimesReplay : Nat
  replayStartSize : Nat
  disableOnline : Bool

/-- What is remembered of a step: the observation, the action distribution the network returned (with the values) and the
action (acer.py:343-351, pcl.py:166-171). -/
structure Step (O A D : Type) where
  obs : O
  dist : D
  action : A

/-- A rollout given to `compute_loss`: steps with the rewards that followed, and the state whose value is the bootstrap
value (`none`: 0) (acer.py:392-403, pcl.py:177-180). -/
structure Rollout (O A D R : Type) where
  steps : List (Step O A D × R)
  boot : Option O

/-- The replay buffer as far as it is used (as used in acer.py:513-566, 620-690 and pcl.py:261-341, 400-470). -/
structure Buf (B O A D R : Type) where
  append : B → Transition O A R → D → B
  stop : B → B
  len : B → Nat
  nEpisodes : B → Nat

/-- What the agent does (made by acer.py:476-697, pcl.py:235-476). -/
inductive Ev (O A D R : Type) where
  | update (rollouts : List (Rollout O A D R))
  | replay
  | append (tr : Transition O A R) (mu : D)
  | stopEpisode
  | ret (a : A)

/-- A Python dict with integer keys, in the order of insertion
(the `past_...` attributes, acer.py:343-351, pcl.py:166-171). -/
abbrev Dict (V : Type) := List (Int × V)

/-- `d[k] = v` (acer.py:592-649, pcl.py:374-429). -/
def put {V : Type} (d : Dict V) (k : Int) (v : V) : Dict V :=
  if d.any (fun e => e.1 == k) then d.map fun e => if e.1 = k then (k, v) else e else d ++ [(k, v)]

/-- `d[k]` (acer.py:568-590, pcl.py:343-372). -/
def look {V : Type} (d : Dict V) (k : Int) : Py V :=
  match d.find? fun e => e.1 == k with
  | some e => .ok e.2
  | none => .error .keyError

/-- `d[k], …, d[k + n - 1]` (acer.py:568-590, pcl.py:343-372). -/
def collect {V : Type} (d : Dict V) : Int → Nat → Py (List V)
  | _, 0 => .ok []
  | k, n + 1 => do
    let v ← look d k
    let vs ← collect d (k + 1) n
    pure (v :: vs)

/-- The attributes: acer.py 328-351, pcl.py 151-171.  The dictionaries `past_states`, `past_actions`,
`past_action_distrib`, … have the same keys and are one here. `pending` are the rollouts of `online_batch_losses`
(PCL). -/
structure St (B O A D R : Type) where
  t : Nat
  tStart : Nat
  past : Dict (Step O A D)
  pastRewards : Dict R
  last : Option (Step O A D)
  pending : List (Rollout O A D R)
  buf : Option B

variable {B O A D R : Type}

/-- A new agent (acer.py:290-351, pcl.py:108-171). -/
def St.init (buf : Option B) : St B O A D R := ⟨0, 0, [], [], none, [], buf⟩

/-- `init_history_data_for_online_update`: acer.py 343-351, pcl.py 166-171. -/
def St.initHistory (s : St B O A D R) : St B O A D R := { s with past := [], pastRewards := [], tStart := s.t }

/-- The rollout `t_start … t - 1`: read by `compute_loss` (acer.py 394-470; pcl.py 177-196, whose first lines assert the
sizes of the dictionaries). -/
def rollout (c : Args) (s : St B O A D R) (boot : Option O) : Py (Rollout O A D R) :=
  if c.kind = .pcl ∧ ¬ (s.pastRewards.length = s.t - s.tStart ∧ s.past.length = s.t - s.tStart) then
    .error .assertionError
  else do
    let xs ← collect s.past s.tStart (s.t - s.tStart)
    let rs ← collect s.pastRewards s.tStart (s.t - s.tStart)
    pure ⟨List.zip xs rs, boot⟩

/-- pcl.py 360-370: the loss joins the batch, and a full batch gives an update. -/
def join (c : Args) (s : St B O A D R) (r : Rollout O A D R) : St B O A D R × List (Ev O A D R) :=
  if (s.pending ++ [r]).length = c.batchsize then ({ s with pending := [] }, [.update (s.pending ++ [r])])
  else ({ s with pending := s.pending ++ [r] }, [])

/-- The update with a rollout: at once in ACER (acer.py 579-589). -/
def learn (c : Args) (s : St B O A D R) (r : Rollout O A D R) : St B O A D R × List (Ev O A D R) :=
  if c.kind = .acer then (s, [.update [r]]) else join c s r

/-- `update_on_policy(statevar)`: acer.py 568-590, pcl.py 343-372; `boot` is the state, `none` for None. -/
def updateOnPolicy (c : Args) (s : St B O A D R) (boot : Option O) : Py (St B O A D R × List (Ev O A D R)) :=
  if s.tStart < s.t then
    if c.disableOnline then .ok (s.initHistory, [])
    else do
      let r ← rollout c s boot
      let l := learn c s r
      pure (l.1.initHistory, l.2)
  else .error .assertionError

/-- Whether `update_from_replay` updates: acer.py 515-519, pcl.py 262-269. -/
def canReplay (c : Args) (b : Buf B O A D R) : Option B → Bool
  | none => false
  | some x => decide (c.replayStartSize ≤ b.len x) && (decide (c.kind = .acer) || decide (c.batchsize ≤ b.nEpisodes x))

/-- The calls of `update_from_replay` after `update_on_policy`: acer.py 600-601, 671-672; pcl.py 383-385, 452-454. -/
def replays (c : Args) (b : Buf B O A D R) (s : St B O A D R) : List (Ev O A D R) :=
  if c.kind = .acer ∨ s.pending.length = 0 then
    if canReplay c b s.buf then List.replicate c.nTimesReplay .replay else []
  else []

/-- acer.py 596, pcl.py 378-379: the reward of the step before. -/
def recordReward (c : Args) (s : St B O A D R) (reward : R) : St B O A D R :=
  if c.kind = .acer ∨ s.last.isSome then { s with pastRewards := put s.pastRewards ((s.t : Int) - 1) reward } else s

/-- acer.py 598-601, pcl.py 381-385. -/
def maybeUpdate (c : Args) (b : Buf B O A D R) (s : St B O A D R) (obs : O) : Py (St B O A D R × List (Ev O A D R)) :=
  if some (s.t - s.tStart) = c.tMax then do
    let u ← updateOnPolicy c s (some obs)
    pure (u.1, u.2 ++ replays c b u.1)
  else pure (s, [])

/-- A call `replay_buffer.append(…)`: acer.py 630-641 and 680-690 (only if there is a buffer), pcl.py 411-424 and 460-467. -/
def appendTo (c : Args) (b : Buf B O A D R) (s : St B O A D R) (tr : Transition O A R) (mu : D) :
    Py (St B O A D R × List (Ev O A D R)) :=
  match s.buf with
  | some x => .ok ({ s with buf := some (b.append x tr mu) }, [.append tr mu])
  | none => if c.kind = .acer then .ok (s, []) else .error .attributeError

/-- The transition recorded in `act_and_train`, if there is one (acer.py:592-649, pcl.py:374-429). -/
def recordLast (c : Args) (b : Buf B O A D R) (s : St B O A D R) (obs : O) (reward : R) (action : A) :
    Py (St B O A D R × List (Ev O A D R)) :=
  match s.last with
  | none => .ok (s, [])
  | some l => appendTo c b s ⟨l.obs, l.action, reward, obs, some action, false⟩ l.dist

/-- `act_and_train(obs, reward)`: acer.py 592-649, pcl.py 374-429; `dist` and `action` are the network's distribution for
`obs` (after the update, if there is one) and the selected action. -/
def actAndTrain (c : Args) (b : Buf B O A D R) (s : St B O A D R) (x : Step O A D) (reward : R) :
    Py (St B O A D R × List (Ev O A D R)) := do
  let u ← maybeUpdate c b (recordReward c s reward) x.obs
  let s := { u.1 with past := put u.1.past u.1.t x, t := u.1.t + 1 }
  let a ← recordLast c b s x.obs reward x.action
  pure ({ a.1 with last := some x }, u.2 ++ a.2 ++ [.ret x.action])

/-- acer.py 690, pcl.py 468. -/
def stopBuf (b : Buf B O A D R) (s : St B O A D R) : St B O A D R × List (Ev O A D R) :=
  match s.buf with
  | some x => ({ s with buf := some (b.stop x) }, [.stopEpisode])
  | none => (s, [])

/-- `stop_episode_and_train(state, reward, done)`: acer.py 661-692, pcl.py 442-472. -/
def stopEpisodeAndTrain (c : Args) (b : Buf B O A D R) (s : St B O A D R) (obs : O) (reward : R) (done : Bool) :
    Py (St B O A D R × List (Ev O A D R)) :=
  match s.last with
  | none => .error .assertionError
  | some l => do
    let s := { s with pastRewards := put s.pastRewards ((s.t : Int) - 1) reward }
    let u ← updateOnPolicy c s (if done then none else some obs)
    let e := replays c b u.1
    let a ← appendTo c b u.1 ⟨l.obs, l.action, reward, obs, some l.action, done⟩ l.dist
    let h := stopBuf b a.1
    pure ({ h.1 with last := none }, u.2 ++ e ++ a.2 ++ h.2)

/-- A call of a training method (acer.py:592, 661, 694, pcl.py:374, 442, 474). -/
inductive Call (O A D R : Type) where
  | act (x : Step O A D) (reward : R)
  | stop (obs : O) (reward : R) (done : Bool)

/-- acer.py:592-697, pcl.py:374-476. -/
def call (c : Args) (b : Buf B O A D R) (s : St B O A D R) : Call O A D R → Py (St B O A D R × List (Ev O A D R))
  | .act x r => actAndTrain c b s x r
  | .stop o r d => stopEpisodeAndTrain c b s o r d

/-- A sequence of calls (iterates acer.py:592-697, pcl.py:374-476). -/
def run (c : Args) (b : Buf B O A D R) : St B O A D R → List (Call O A D R) → Py (St B O A D R × List (Ev O A D R))
  | s, [] => .ok (s, [])
  | s, x :: xs => do
    let r ← call c b s x
    let rs ← run c b r.1 xs
    pure (rs.1, r.2 ++ rs.2)

end Verif.OnlineReplay
