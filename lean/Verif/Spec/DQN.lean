import Verif.Model.DQN
set_option autoImplicit false

/-!
# Specification for C42 and C43

An episode as the user sees it, the calls that drive the agent through it, and
the replay buffer calls that should result.
-/

namespace Verif.DQN
variable {θ O A R H : Type}

/-- One decision: the agent sees `obs`, reached with `reward` (meaningless for
the first one of an episode), its parameters become `params` and it chooses `action`. -/
structure Turn (θ O A R : Type) where
  obs : O
  reward : R
  params : θ
  action : A

/-- A complete episode: at least one decision, then the final observation. -/
structure Episode (θ O A R : Type) where
  first : Turn θ O A R
  rest : List (Turn θ O A R)
  finalObs : O
  finalReward : R
  done : Bool

/-- The decisions of an episode. -/
def Episode.turns (e : Episode θ O A R) : List (Turn θ O A R) := e.first :: e.rest

def Turn.call (t : Turn θ O A R) : Call θ O A R := .act t.obs t.reward t.params t.action

/-- How `train_agent` drives the agent through an episode. -/
def Episode.calls (e : Episode θ O A R) : List (Call θ O A R) :=
  e.turns.map Turn.call ++ [.stop e.finalObs e.finalReward e.done]

/-- An environment step: observation, action, reward, next observation and
whether the next observation is terminal. -/
structure EnvStep (O A R : Type) where
  state : O
  action : A
  reward : R
  nextState : O
  terminal : Bool

/-- The steps between consecutive decisions. -/
def innerSteps (ts : List (Turn θ O A R)) : List (EnvStep O A R) :=
  List.zipWith (fun t t' => ⟨t.obs, t.action, t'.reward, t'.obs, false⟩) ts ts.tail

/-- The steps of a complete episode. -/
def Episode.steps (e : Episode θ O A R) : List (EnvStep O A R) :=
  List.zipWith (fun t (n : O × R × Bool) => ⟨t.obs, t.action, n.2.1, n.1, n.2.2⟩) e.turns
    (e.rest.map (fun t => (t.obs, t.reward, false)) ++ [(e.finalObs, e.finalReward, e.done)])

/-- A call of the replay buffer, as far as C42 is concerned. -/
inductive BufCall (O A R : Type) where
  | append (env : Nat) (s : EnvStep O A R)
  | stop (env : Nat)

/-- The replay buffer calls among the events. -/
def bufCalls (l : List (Ev θ O A R H)) : List (BufCall O A R) :=
  l.filterMap fun
    | .append i tr => some (.append i ⟨tr.state, tr.action, tr.reward, tr.nextState, tr.terminal⟩)
    | .stopEpisode i => some (.stop i)
    | _ => none

/-- The recurrent states stored with the transitions. -/
def recStates (l : List (Ev θ O A R H)) : List (Option H × Option H) :=
  l.filterMap fun
    | .append _ tr => some (tr.recState, tr.nextRecState)
    | _ => none

/-- The synchronisations of the target network: time and parameters. -/
def syncs (l : List (Ev θ O A R H)) : List (Nat × θ) :=
  l.filterMap fun
    | .sync t p => some (t, p)
    | _ => none

/-- The calls of the replay updater: time and parameters after it. -/
def updates (l : List (Ev θ O A R H)) : List (Nat × θ) :=
  l.filterMap fun
    | .update t p => some (t, p)
    | _ => none

/-- The recurrent states before and after each decision, from the state `h`
(`none` at the begin of an episode): the network reads the observation with the
parameters it has at that time. -/
def hiddenPairs (c : Cfg θ O H) : Option H → List (Turn θ O A R) → List (Option H × Option H)
  | _, [] => []
  | h, t :: ts =>
    (h, some (c.net t.params (h.getD c.zero) t.obs)) ::
      hiddenPairs c (some (c.net t.params (h.getD c.zero) t.obs)) ts

/-- One environment in one round of the batch interface: it is in `obs`, the
agent chooses `action`, then `reward`, `nextObs`, `done` and `reset` are
observed; `params` are the parameters after the update in this step. -/
structure EnvRound (θ O A R : Type) where
  obs : O
  action : A
  reward : R
  nextObs : O
  done : Bool
  reset : Bool
  params : θ

/-- The two calls of a round (`train_agent_batch`). -/
def roundCalls (r : List (EnvRound θ O A R)) : List (Call θ O A R) :=
  [.batchAct (r.map (·.obs)) (r.map (·.action)),
   .batchObserve { obs := r.map (·.nextObs), reward := r.map (·.reward), done := r.map (·.done),
                   reset := r.map (·.reset), params := r.map (·.params) }]

/-- What the replay buffer should receive from environment `i`. -/
def EnvRound.sends (e : EnvRound θ O A R) (i : Nat) : List (BufCall O A R) :=
  .append i ⟨e.obs, e.action, e.reward, e.nextObs, e.done⟩ ::
    (if e.done || e.reset then [.stop i] else [])

/-- The environment a buffer call belongs to. -/
def BufCall.env : BufCall O A R → Nat
  | .append i _ => i
  | .stop i => i

/-- The recurrent states before and after every step in the batch interface:
`hs` is the state of each environment, which is the initial one at the begin of
its episode; all environments are evaluated with the parameters `p`. -/
def batchHiddenPairs (c : Cfg θ O H) : θ → List H → List (List (EnvRound θ O A R)) → List (H × H)
  | _, _, [] => []
  | p, hs, r :: rs =>
    List.zipWith (fun h e => (h, c.net p h e.obs)) hs r ++
      batchHiddenPairs c ((r.getLast?.map (·.params)).getD p)
        (List.zipWith (fun h e => if e.done || e.reset then c.zero else c.net p h e.obs) hs r) rs

/-- The number of decisions in the single interface. -/
def acts (l : List (Call θ O A R)) : Nat :=
  (l.map fun | .act .. => 1 | _ => 0).sum

/-- The number of environment steps in the batch interface. -/
def batchSteps (l : List (Call θ O A R)) : Nat :=
  (l.map fun | .batchObserve inp => inp.obs.length | _ => 0).sum

/-- Whether a call belongs to the single interface. -/
def Call.single : Call θ O A R → Bool
  | .act .. => true
  | .stop .. => true
  | _ => false

end Verif.DQN
