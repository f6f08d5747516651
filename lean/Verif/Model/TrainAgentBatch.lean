import Mathlib.Order.Defs.LinearOrder
import Verif.Model.TrainAgent
set_option autoImplicit false

/-!
# Model of `chainerrl/experiments/train_agent_batch.py`

As in `Verif.Model.TrainAgent` the outside world decides what every call
returns or raises.  Logging (lines 97-108), `episode_r` and `recent_returns`
(only logged) are not modelled.  Arrays indexed by environment are lists.
-/

namespace Verif.TrainBatch
open Train (StepOut Suffix)

/-- The observable calls (train_agent_batch.py:12-133). -/
inductive Ev (O A K S : Type) where
  /-- `env.reset()` (`mask = none`) or `env.reset(mask)`; it returned `obss` -/
  | reset (mask : Option (List Bool)) (obss : List O)
  | setT (t : Nat)
  /-- `agent.batch_act_and_train(obss)` returned `actions` -/
  | act (obss : List O) (actions : List A)
  /-- `env.step(actions)` returned `outs` -/
  | step (actions : List A) (outs : List (StepOut O K))
  /-- `agent.batch_observe_and_train(obss, rs, dones, resets)` -/
  | observe (obss : List O) (rs : List K) (dones resets : List Bool)
  | hook (i t : Nat)
  /-- `evaluator.evaluate_if_necessary(t, episodes)` returned `score` (`None`
  when no evaluation was due); `evaluator.max_score` is then `maxScore` -/
  | evaluate (t episodes : Nat) (score : Option S) (maxScore : S)
  | save (t : Nat) (suffix : Suffix)
  /-- `env.close()` -/
  | closeEnv
  /-- `evaluator.env.close()` -/
  | closeEvalEnv
  deriving DecidableEq

/-- The outside world in one iteration (train_agent_batch.py:55-124). -/
structure Iter (O A K S X : Type) where
  act : Except X (List A)
  step : Except X (List (StepOut O K))
  observe : Except X Unit
  /-- indexed by the step number `t` -/
  checkpoint : Nat → Except X Unit
  /-- indexed by hook and step number -/
  hook : Nat → Nat → Except X Unit
  evaluate : Except X (Option S × S)
  reset : Except X (List O)

/-- The outside world in one call of `train_agent_batch` (train_agent_batch.py:12-133). -/
structure World (O A K S X : Type) where
  reset : Except X (List O)
  iter : Nat → Iter O A K S X
  saveExcept : Except X Unit
  closeEnv : Except X Unit
  closeEvalEnv : Except X Unit
  saveFinish : Except X Unit

/-- The arguments; `numEnvs` is `env.num_envs` (train_agent_batch.py:12-15). -/
structure Cfg (S : Type) where
  numEnvs : Nat
  steps : Nat
  stepOffset : Nat
  maxEpisodeLen : Option Nat
  checkpointFreq : Option Nat
  hasEvaluator : Bool
  successfulScore : Option S
  numHooks : Nat
  agentHasT : Bool

/-- The local variables that live across iterations (train_agent_batch.py:40-53). -/
structure Loc (O : Type) where
  obss : List O
  episodeLen : List Nat
  /-- `np.sum(episode_idx)`, the only use of `episode_idx` -/
  episodes : Nat

variable {O A K S X : Type} [Zero S] [LinearOrder S]

/-- train_agent_batch.py:12-133. -/
abbrev M (O A K S X : Type) := Eff Nat (Ev O A K S) X

/-- Lines 88-95: the body of `for _ in range(num_envs)`. -/
def tick (c : Cfg S) (w : Iter O A K S X) : M O A K S X Unit := do
  let t0 ← Eff.get
  Eff.set (t0 + 1)
  let t := t0 + 1
  (match c.checkpointFreq with
    | some (f + 1) =>
      if t % (f + 1) = 0 then Eff.call (fun _ => .save t .checkpoint) (w.checkpoint t) else pure ()
    | _ => pure ())
  Eff.forN (fun i => Eff.call (fun _ => .hook i t) (w.hook i t)) 0 c.numHooks

/-- Lines 109-114; `true` when it breaks.  A score is a Python float, so
`if evaluator.evaluate_if_necessary(...)` is false for `None` and for `0.0`. -/
def evalStep (c : Cfg S) (w : Iter O A K S X) (episodes : Nat) : M O A K S X Bool :=
  if c.hasEvaluator then do
    let t ← Eff.get
    let (score, m) ← Eff.call (fun r => .evaluate t episodes r.1 r.2) w.evaluate
    match score with
    | none => pure false
    | some x =>
      if x = 0 then pure false
      else match c.successfulScore with
        | none => pure false
        | some s => pure (decide (m ≥ s))
  else pure false

/-- Lines 64-70: the reset flags. -/
def resetsOf (c : Cfg S) (lens : List Nat) (outs : List (StepOut O K)) : List Bool :=
  List.zipWith (fun len (o : StepOut O K) => some len == c.maxEpisodeLen || o.needsReset) lens outs

/-- Lines 57-122: one iteration; `none` when it breaks. -/
def iter (c : Cfg S) (w : Iter O A K S X) (l : Loc O) : M O A K S X (Option (Loc O)) := do
  let actions ← Eff.call (fun a => .act l.obss a) w.act
  let outs ← Eff.call (fun o => .step actions o) w.step
  let lens := l.episodeLen.map (· + 1)
  let resets := resetsOf c lens outs
  let dones := outs.map (·.done)
  Eff.call (fun _ => .observe (outs.map (·.obs)) (outs.map (·.r)) dones resets) w.observe
  let ends := List.zipWith (· || ·) resets dones
  let episodes := l.episodes + ends.countP id
  Eff.forN (fun _ => tick c w) 0 c.numEnvs
  let stop ← evalStep c w episodes
  if stop then pure none
  else
    let t ← Eff.get
    if t ≥ c.steps then pure none
    else
      let obss ← Eff.call (fun o => .reset (some (ends.map not)) o) w.reset
      pure (some ⟨obss, List.zipWith (fun e len => if e then 0 else len) ends lens, episodes⟩)

/-- Lines 56-122: `while True`.  With `num_envs > 0` at most
`steps - step_offset + 1` iterations are made (`fuel`); with `num_envs = 0` the
code would not terminate and the model stops after that many. -/
def loop (c : Cfg S) (w : Nat → Iter O A K S X) : Nat → Nat → Loc O → M O A K S X Unit
  | 0, _, _ => pure ()
  | fuel + 1, i, l => do
    match ← iter c (w i) l with
    | none => pure ()
    | some l' => loop c w fuel (i + 1) l'

/-- `train_agent_batch.py:12-133` `train_agent_batch`. -/
def trainAgentBatch (c : Cfg S) (w : World O A K S X) : M O A K S X Unit := do
  let o ← Eff.call (fun o => .reset none o) w.reset
  Eff.set c.stepOffset
  (if c.agentHasT then Eff.call (fun _ => .setT c.stepOffset) (.ok ()) else pure ())
  Eff.onError (loop c w.iter (c.steps - c.stepOffset + 1) 0 ⟨o, List.replicate c.numEnvs 0, 0⟩) (do
    let t ← Eff.get
    Eff.call (fun _ => .save t .except) w.saveExcept
    Eff.call (fun _ => .closeEnv) w.closeEnv
    if c.hasEvaluator then Eff.call (fun _ => .closeEvalEnv) w.closeEvalEnv else pure ())
  let t ← Eff.get
  Eff.call (fun _ => .save t .finish) w.saveFinish

/-- A whole execution: the calls made and how it ended (train_agent_batch.py:12-133). -/
def run (c : Cfg S) (w : World O A K S X) : List (Ev O A K S) × Except X Unit :=
  let r := trainAgentBatch c w 0
  (r.1, r.2.2)

end Verif.TrainBatch
