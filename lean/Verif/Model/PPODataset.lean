import Mathlib.Data.Real.Basic
import Verif.Model.PPOData
set_option autoImplicit false

/-! # Model: what PPO and TRPO compute from recorded episodes

`chainerrl/agents/ppo.py` lines 48-136, 174-231, 421-424, 472-519, 532-543, 593-638 and 662-688 (the recurrent states);
`chainerrl/agents/trpo.py` imports the first two parts and repeats the rest (302-361, 395-443, 445-505, 652-747, 773-866).
Numbers are real.  `phi`, the network and the normalizer (called with `update=False`) act on every observation on its own
(for recurrent networks: on every sequence on its own, C80); `None` as a recurrent state means the initial one (C60, C80).
Not modelled: data types, gradients. -/

namespace Verif.PPODataset
variable {O F A D S : Type}

/-- A transition (ppo.py:596-611, 665-676, 771-787). -/
structure Tr (O A S : Type) where
  state : O
  action : A
  reward : ℝ
  nextState : O
  nonterminal : ℝ
  recurrentState : S
  nextRecurrentState : S

/-- A transition with the predictions added by `_add_log_prob_and_value_to_episodes` (ppo.py:48-136). -/
structure Ann (O A S : Type) where
  tr : Tr O A S
  logProb : ℝ
  vPred : ℝ
  nextVPred : ℝ

/-- ... and what `_add_advantage_and_value_target_to_episode` adds (ppo.py:27-38). -/
structure Full (O A S : Type) where
  ann : Ann O A S
  adv : ℝ
  vTeacher : ℝ

/-- `batch_states` and the normalizer, if there is one, for one observation (ppo.py:115-120). -/
def pre (phi : O → F) (norm : Option (F → F)) (o : O) : F :=
  match norm with
  | some n => n (phi o)
  | none => phi o

/-- The loop over `zip(flat_transitions, ...)` (ppo.py:92-99, 130-136). -/
def annotate : List (Tr O A S) → List ℝ → List ℝ → List ℝ → List (Ann O A S)
  | t :: ts, l :: ls, v :: vs, w :: ws => ⟨t, l, v, w⟩ :: annotate ts ls vs ws
  | _, _, _, _ => []

/-- The transitions are changed in place: the episodes hold the same objects as the flat list, so each episode now consists
of its part of the flat list (ppo.py:41-45, 214-231). -/
def regroup {α : Type} : List Nat → List α → List (List α)
  | [], _ => []
  | n :: ns, l => l.take n :: regroup ns (l.drop n)

/-- `_add_log_prob_and_value_to_episodes` (ppo.py:102-136); `net` gives the distribution and the value of a state. -/
def addPlain (phi : O → F) (norm : Option (F → F)) (net : F → D × ℝ) (logProb : D → A → ℝ)
    (episodes : List (List (Tr O A S))) : List (List (Ann O A S)) :=
  let dataset := episodes.flatten
  let states := dataset.map fun b => pre phi norm b.state
  let nextStates := dataset.map fun b => pre phi norm b.nextState
  let out := states.map net
  let nextOut := nextStates.map net
  let actions := dataset.map fun b => b.action
  let logProbs := List.zipWith logProb (out.map fun y => y.1) actions
  regroup (episodes.map List.length) (annotate dataset logProbs (out.map fun y => y.2) (nextOut.map fun y => y.2))

/-- A recurrent network run over one sequence: what it gives at each step (called in ppo.py:60-90). -/
def forwardSeq {Y : Type} (cell : S → F → S × Y) : S → List F → List Y
  | _, [] => []
  | s, x :: xs => (cell s x).2 :: forwardSeq cell (cell s x).1 xs

/-- `model.n_step_forward(seqs, recurrent_state=rs, output_mode='concat')` (C80) (called in ppo.py:60-90). -/
def nStepForward {Y : Type} (cell : S → F → S × Y) (rs : List S) (seqs : List (List F)) : List Y :=
  (List.zipWith (forwardSeq cell) rs seqs).flatten

/-- `_add_log_prob_and_value_to_episodes_recurrent` (ppo.py:48-99). -/
def addRecurrent (phi : O → F) (norm : Option (F → F)) (cell : S → F → S × (D × ℝ)) (logProb : D → A → ℝ)
    (episodes : List (List (Tr O A S))) : Py (List (List (Ann O A S))) := do
  let seqsStates := episodes.map fun ep => ep.map fun t => pre phi norm t.state
  let seqsNextStates := episodes.map fun ep => ep.map fun t => pre phi norm t.nextState
  let flat := episodes.flatten
  let first ← episodes.mapM fun ep => pyGet ep 0
  let out := nStepForward cell (first.map fun t => t.recurrentState) seqsStates
  let nextOut := nStepForward cell (first.map fun t => t.nextRecurrentState) seqsNextStates
  let actions := flat.map fun b => b.action
  let logProbs := List.zipWith logProb (out.map fun y => y.1) actions
  .ok (regroup (episodes.map List.length) (annotate flat logProbs (out.map fun y => y.2) (nextOut.map fun y => y.2)))

/-- What the computation of advantages reads of a transition (ppo.py:27-38). -/
def Ann.toV (a : Ann O A S) : PPOData.VTrans ℝ := ⟨a.tr.reward, a.tr.nonterminal, a.vPred, a.nextVPred⟩

/-- `_add_advantage_and_value_target_to_episodes` (ppo.py:41-45). -/
def addAdvantages (gamma lambd : ℝ) (episodes : List (List (Ann O A S))) : List (List (Full O A S)) :=
  episodes.map fun ep => List.zipWith (fun a r => ⟨a, r.1, r.2⟩) ep (PPOData.addAdvantage gamma lambd (ep.map Ann.toV)).1

/-- `_make_dataset` (ppo.py:214-231). -/
def makeDataset (phi : O → F) (norm : Option (F → F)) (net : F → D × ℝ) (logProb : D → A → ℝ) (gamma lambd : ℝ)
    (episodes : List (List (Tr O A S))) : List (Full O A S) :=
  (addAdvantages gamma lambd (addPlain phi norm net logProb episodes)).flatten

/-- `_make_dataset_recurrent` (ppo.py:189-211). -/
def makeDatasetRecurrent (phi : O → F) (norm : Option (F → F)) (cell : S → F → S × (D × ℝ)) (logProb : D → A → ℝ)
    (gamma lambd : ℝ) (maxLen : Option Nat) (episodes : List (List (Tr O A S))) : Py (List (List (Full O A S))) := do
  let ann ← addRecurrent phi norm cell logProb episodes
  let eps := addAdvantages gamma lambd ann
  match maxLen with
  | some m => PPOData.limitSequenceLength eps m
  | none => .ok eps

/-- The log probabilities computed in an update, `distribs.log_prob(actions)` (ppo.py:452-478 and trpo.py:395-412), for a
minibatch. -/
def updateLogProbs (phi : O → F) (norm : Option (F → F)) (net : F → D × ℝ) (logProb : D → A → ℝ)
    (batch : List (Full O A S)) : List ℝ :=
  let out := (batch.map fun b => pre phi norm b.ann.tr.state).map net
  List.zipWith logProb (out.map fun y => y.1) (batch.map fun b => b.ann.tr.action)

/-- `flat_log_probs` in an update of a recurrent network (ppo.py:482-520 and trpo.py:445-485), for a minibatch of
sequences. -/
def updateLogProbsRecurrent (phi : O → F) (norm : Option (F → F)) (cell : S → F → S × (D × ℝ)) (logProb : D → A → ℝ)
    (episodes : List (List (Full O A S))) : Py (List ℝ) := do
  let seqs := episodes.map fun ep => ep.map fun b => pre phi norm b.ann.tr.state
  let first ← episodes.mapM fun ep => pyGet ep 0
  let out := nStepForward cell (first.map fun b => b.ann.tr.recurrentState) seqs
  .ok (List.zipWith logProb (out.map fun y => y.1) (episodes.flatten.map fun b => b.ann.tr.action))

/-- `np.mean` and `np.var` (ppo.py:174-186). -/
noncomputable def mean (xs : List ℝ) : ℝ := xs.sum / xs.length
/-- ppo.py:174-186. -/
noncomputable def var (xs : List ℝ) : ℝ := mean (xs.map fun x => (x - mean xs) ^ 2)

/-- `_compute_explained_variance(transitions)` (ppo.py:174-186); none is `nan`. -/
noncomputable def explainedVariance (transitions : List (Full O A S)) : Option ℝ :=
  let t := transitions.map fun tr => tr.vTeacher
  let y := transitions.map fun tr => tr.ann.vPred
  let vart := var t
  if vart = 0 then none else some (1 - var (List.zipWith (· - ·) t y) / vart)

/-! ### Acting -/

/-- What the agent keeps of one environment: the transitions not yet moved to `memory` (with the number of updates made
before their action was selected), the observation, action and recurrent states of the action whose outcome is awaited,
and the recurrent state (ppo.py:344-355, 370-373). -/
structure Slot (O A S : Type) where
  episode : List (Nat × Tr O A S)
  last : Option (Nat × O × A × S × S)
  recurrentState : S

/-- What happens to one environment.  With the single interface `act_and_train` is `observe`, `update` if the dataset is
ready, `select`, and `stop_episode_and_train` is `observe` with `ended`, then `update` if ready; with the batch interface
`batch_act_and_train` is `select` and `batch_observe_and_train` is `observe`, then `update` if ready (C50)
(ppo.py:593-690, 714-807). -/
inductive Event (O A : Type)
  | select (obs : O) (action : A)
  | observe (reward : ℝ) (obs : O) (done ended : Bool)
  | update

/-- One event (ppo.py:593-638, 662-688, 714-745, 758-807, 375-419), after `k` updates, which have led to the network `cell k`
and normalizer `norm k`: what is moved to the memory of the current dataset, and the new slot. -/
def Slot.step (phi : O → F) (norm : Nat → Option (F → F)) {Y : Type} (cell : Nat → S → F → S × Y) (zero : S)
    (k : Nat) (s : Slot O A S) : Event O A → Py (List (List (Nat × Tr O A S)) × Nat × Slot O A S)
  | .select obs action =>
    let rs := (cell k s.recurrentState (pre phi (norm k) obs)).1
    .ok ([], k, { s with last := some (k, obs, action, s.recurrentState, rs), recurrentState := rs })
  | .observe reward obs done ended =>
    match s.last with
    | none => .error .assertionError
    | some (tag, o, a, rs, rs') =>
      let t : Tr O A S := ⟨o, a, reward, obs, if done then 0 else 1, rs, rs'⟩
      let ep := s.episode ++ [(tag, t)]
      if ended then .ok ([ep], k, ⟨[], none, zero⟩)
      else .ok ([], k, { s with episode := ep, last := none })
  | .update =>
    match s.last with
    | some _ => .error .assertionError
    | none => .ok (if s.episode = [] then [] else [s.episode], k + 1, { s with episode := [] })

/-- A history: the fragments moved to memory, each with the number of updates made before the one it is used in
(iterates ppo.py:593-690, 714-807). -/
def Slot.run (phi : O → F) (norm : Nat → Option (F → F)) {Y : Type} (cell : Nat → S → F → S × Y) (zero : S) :
    Nat → Slot O A S → List (Event O A) → Py (List (Nat × List (Nat × Tr O A S)))
  | _, _, [] => .ok []
  | k, s, e :: es => do
    let r ← s.step phi norm cell zero k e
    let rest ← Slot.run phi norm cell zero r.2.1 r.2.2 es
    .ok (r.1.map (fun f => (k, f)) ++ rest)

end Verif.PPODataset
