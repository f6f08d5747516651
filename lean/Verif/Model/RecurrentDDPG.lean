import Verif.Model.BatchExperiences

/-!
Model of the update of a `DDPG` agent with recurrent models from sampled (sub)episodes:
`update_from_episodes`, `compute_critic_loss` and `compute_actor_loss` of
`/repo/chainerrl/agents/ddpg.py` (161-297).

Simplifications.  A recurrent function is a step on one row (the state of the row and an input
give a new state and an output), as a `RecurrentChainMixin` of `L.LSTM` links and row-wise
layers is; its state is `none` after `reset_state` and the rows of the batch afterwards (all
LSTM links of a model are called together, so they are in their initial states together).  A
policy's sample is a function of the row.  Features `phi` are those of `batchExperiences`.
Gradients and optimizers are not modelled: the result is the values and targets whose squared
difference (critic) and whose negated mean (actor) is minimised.
-/

set_option autoImplicit false

namespace Verif.RecDDPG
variable {F A R H X Y : Type}

/-- A recurrent function: the state of a row before its first input, and one step (the models of ddpg.py:29-33). -/
structure Fn (H X Y : Type) where
  zero : H
  step : H → X → H × Y

/-- A call on a batch, as `L.LSTM` handles it: a batch smaller than the state updates the first
rows and keeps the others, a larger one raises `TypeError` (called in ddpg.py:161-251). -/
def Fn.call (f : Fn H X Y) (st : Option (List H)) (xs : List X) : Py (Option (List H) × List Y) :=
  match st with
  | none => .ok (some (xs.map fun x => (f.step f.zero x).1), xs.map fun x => (f.step f.zero x).2)
  | some hs =>
    if hs.length < xs.length then .error .typeError
    else .ok (some (List.zipWith (fun h x => (f.step h x).1) hs xs ++ hs.drop xs.length),
      List.zipWith (fun h x => (f.step h x).2) hs xs)

/-- Leaving `state_kept` (recurrent.py:73-74, 86-89): `set_state` ignores a state that is `None`
(recurrent.py:119-122). -/
def restore (saved now : Option (List H)) : Option (List H) :=
  match saved with
  | none => now
  | some hs => some hs

/-- `list(reversed(sorted(episodes, key=len)))` (ddpg.py:262). -/
def sortEpisodes {α : Type} (episodes : List (List α)) : List (List α) :=
  (episodes.mergeSort fun a b => decide (a.length ≤ b.length)).reverse

/-- `[[ep[i]] for ep in sorted_episodes]` up to the first episode without an `i`-th step
(ddpg.py:268-272). -/
def column {α : Type} (i : Nat) : List (List α) → List (List α)
  | [] => []
  | ep :: eps =>
    match ep[i]? with
    | none => []
    | some tr => [tr] :: column i eps

variable [CommRing R]

/-- The input batches (ddpg.py:263-275). -/
def inputBatches {S : Type} (phi : S → F) (gamma : R) (eps : List (List (Transition S A R))) :
    Py (List (ExpBatch F A R)) := do
  let first ← pyGet eps 0
  (List.range first.length).mapM fun i => batchExperiences phi gamma (column i eps)

/-- The recurrent states that the critic update uses (ddpg.py:161-212). -/
structure CriticSt (Hq Hp : Type) where
  q : Option (List Hq)
  targetQ : Option (List Hq)
  targetP : Option (List Hp)

/-- The four models (ddpg.py:29-33, 80-150). -/
structure Models (F A R Hq Hp : Type) where
  q : Fn Hq (F × A) R
  policy : Fn Hp F A
  targetQ : Fn Hq (F × A) R
  targetPolicy : Fn Hp F A

variable {Hq Hp : Type}

/-- `batch['next_action']` (ddpg.py:193), a `KeyError` when it is absent. -/
def nextActions (b : ExpBatch F A R) : Py (List A) :=
  match b.nextAction with
  | none => .error .keyError
  | some l => .ok l

/-- `compute_critic_loss(batch)` (ddpg.py:161-212): the new states, the targets and the
predictions. -/
def criticStep (m : Models F A R Hq Hp) (gamma : R) (st : CriticSt Hq Hp) (b : ExpBatch F A R) :
    Py (CriticSt Hq Hp × List R × List R) := do
  let p ← m.targetPolicy.call st.targetP b.nextState
  let n ← m.targetQ.call st.targetQ (b.nextState.zip p.2)
  let next ← nextActions b
  let u ← m.targetQ.call (restore st.targetQ n.1) (b.nextState.zip next)
  let target := List.zipWith (· + ·) b.reward
    (List.zipWith (· * ·) (b.terminal.map fun d => gamma * (1 - d)) n.2)
  let y ← m.q.call st.q (b.state.zip b.action)
  pure (⟨y.1, u.1, p.1⟩, target, y.2)

/-- The loop over the batches (ddpg.py:286-288). -/
def criticLoop (m : Models F A R Hq Hp) (gamma : R) : CriticSt Hq Hp → List (ExpBatch F A R) →
    Py (List (List R × List R))
  | _, [] => .ok []
  | st, b :: bs => do
    let r ← criticStep m gamma st b
    let rest ← criticLoop m gamma r.1 bs
    pure (r.2 :: rest)

/-- The critic update (ddpg.py:277-289): for every batch the targets and predictions.  All
states are reset before it, and the target models read the first states. -/
def criticUpdate {S : Type} (m : Models F A R Hq Hp) (phi : S → F) (gamma : R)
    (episodes : List (List (Transition S A R))) : Py (List (List R × List R)) := do
  let bs ← inputBatches phi gamma (sortEpisodes episodes)
  let b ← pyGet bs 0
  let u ← m.targetQ.call none (b.state.zip b.action)
  let p ← m.targetPolicy.call none b.state
  criticLoop m gamma ⟨none, u.1, p.1⟩ bs

/-- `compute_actor_loss(batch)` (ddpg.py:214-251): the new states of the Q-function and the
policy, and the values. -/
def actorStep (m : Models F A R Hq Hp) (st : Option (List Hq) × Option (List Hp)) (b : ExpBatch F A R) :
    Py ((Option (List Hq) × Option (List Hp)) × List R) := do
  let p ← m.policy.call st.2 b.state
  let v ← m.q.call st.1 (b.state.zip p.2)
  let u ← m.q.call (restore st.1 v.1) (b.state.zip b.action)
  pure ((u.1, p.1), v.2)

/-- The loop over the batches (ddpg.py:295-296). -/
def actorLoop (m : Models F A R Hq Hp) : Option (List Hq) × Option (List Hp) → List (ExpBatch F A R) →
    Py (List (List R))
  | _, [] => .ok []
  | st, b :: bs => do
    let r ← actorStep m st b
    let rest ← actorLoop m r.1 bs
    pure (r.2 :: rest)

/-- The actor update (ddpg.py:291-297): for every batch the values. -/
def actorUpdate {S : Type} (m : Models F A R Hq Hp) (phi : S → F) (gamma : R)
    (episodes : List (List (Transition S A R))) : Py (List (List R)) := do
  let bs ← inputBatches phi gamma (sortEpisodes episodes)
  actorLoop m (none, none) bs

end Verif.RecDDPG
