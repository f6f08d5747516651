import Mathlib.Order.Defs.LinearOrder
import Verif.Model.Eff
set_option autoImplicit false

/-!
# Model of `chainerrl/experiments/train_agent.py`

The agent, the environment, the hooks, the evaluator and the file system are
the outside world: for every iteration of the loop a `World` says what each
call returns or raises.  An arbitrary `World` covers every (adaptive, random)
behaviour, since whatever these objects do in one execution is one `World`.
Logging (lines 58-60) is not modelled, nor are `episode_r` (only logged) and
`hasattr(agent, 't')` (a configuration flag here).
-/

namespace Verif.Train

/-- What `env.step` returns; `needsReset` is `info.get('needs_reset', False)` (train_agent.py:46, 54-55). -/
structure StepOut (O K : Type) where
  obs : O
  r : K
  done : Bool
  needsReset : Bool
  deriving DecidableEq

/-- Suffixes of snapshot directories (train_agent.py:76, 80, 84). -/
inductive Suffix where
  | checkpoint | except | finish
  deriving DecidableEq

/-- The calls that can be observed, with arguments and results (train_agent.py:32-84). -/
inductive Ev (O A K S : Type) where
  /-- `env.reset()` returned `obs` -/
  | reset (obs : O)
  /-- `agent.t = t` -/
  | setT (t : Nat)
  /-- `agent.act_and_train(obs, r)` returned `a` -/
  | act (obs : O) (r : K) (a : A)
  /-- `env.step(a)` returned `out` -/
  | step (a : A) (out : StepOut O K)
  /-- the `i`-th hook was called with step number `t` -/
  | hook (i t : Nat)
  /-- `agent.stop_episode_and_train(obs, r, done=done)` -/
  | stop (obs : O) (r : K) (done : Bool)
  /-- `evaluator.evaluate_if_necessary(t, episodes)`, after which
  `evaluator.max_score` is `maxScore` -/
  | evaluate (t episodes : Nat) (maxScore : S)
  /-- `save_agent(agent, t, outdir, suffix=suffix)` -/
  | save (t : Nat) (suffix : Suffix)
  deriving DecidableEq

/-- What the outside world does in one iteration of the loop (train_agent.py:41-76). -/
structure Iter (O A K S X : Type) where
  act : Except X A
  step : Except X (StepOut O K)
  hook : Nat → Except X Unit
  stop : Except X Unit
  evaluate : Except X S
  reset : Except X O
  checkpoint : Except X Unit

/-- What the outside world does in one call of `train_agent` (train_agent.py:22-84). -/
structure World (O A K S X : Type) where
  reset : Except X O
  iter : Nat → Iter O A K S X
  saveExcept : Except X Unit
  saveFinish : Except X Unit

/-- The arguments of `train_agent`: lines 22-24. -/
structure Cfg (S : Type) where
  steps : Nat
  stepOffset : Nat
  maxEpisodeLen : Option Nat
  checkpointFreq : Option Nat
  hasEvaluator : Bool
  successfulScore : Option S
  numHooks : Nat
  agentHasT : Bool

/-- The local variables that live across iterations (`t` is kept apart: it is
also read by the `except` block) (train_agent.py:28-39). -/
structure Loc (O K : Type) where
  obs : O
  r : K
  episodeIdx : Nat
  episodeLen : Nat

variable {O A K S X : Type} [Zero K] [LinearOrder S]

/-- The code of `train_agent`; its persistent variable is `t` (train_agent.py:22-84). -/
abbrev M (O A K S X : Type) := Eff Nat (Ev O A K S) X

/-- Lines 61-66: evaluation; `true` when training succeeded. -/
def evalStep (c : Cfg S) (w : Iter O A K S X) (t episodeIdx : Nat) : M O A K S X Bool :=
  if c.hasEvaluator then do
    let m ← Eff.call (fun m => .evaluate t (episodeIdx + 1) m) w.evaluate
    match c.successfulScore with
    | none => pure false
    | some s => pure (decide (m ≥ s))
  else pure false

/-- Lines 75-76. -/
def checkpointStep (c : Cfg S) (w : Iter O A K S X) (t : Nat) : M O A K S X Unit :=
  match c.checkpointFreq with
  | none => pure ()
  | some 0 => pure ()
  | some (f + 1) =>
    if t % (f + 1) = 0 then Eff.call (fun _ => .save t .checkpoint) w.checkpoint else pure ()

/-- Lines 43-76: one iteration; `none` when it executes `break`. -/
def iter (c : Cfg S) (w : Iter O A K S X) (l : Loc O K) : M O A K S X (Option (Loc O K)) := do
  let a ← Eff.call (fun a => .act l.obs l.r a) w.act
  let out ← Eff.call (fun o => .step a o) w.step
  let t0 ← Eff.get
  Eff.set (t0 + 1)
  let t := t0 + 1
  let len := l.episodeLen + 1
  Eff.forN (fun i => Eff.call (fun _ => .hook i t) (w.hook i)) 0 c.numHooks
  if out.done || (some len == c.maxEpisodeLen || out.needsReset) || t == c.steps then
    Eff.call (fun _ => .stop out.obs out.r out.done) w.stop
    let success ← evalStep c w t l.episodeIdx
    if success then pure none
    else if t == c.steps then pure none
    else
      let o ← Eff.call (fun o => .reset o) w.reset
      checkpointStep c w t
      pure (some ⟨o, 0, l.episodeIdx + 1, 0⟩)
  else
    checkpointStep c w t
    pure (some ⟨out.obs, out.r, l.episodeIdx, len⟩)

/-- Lines 41-76: `while t < steps`.  Every iteration adds one to `t`, so
`steps - t` iterations suffice (`fuel`); `i` numbers the iterations. -/
def loop (c : Cfg S) (w : Nat → Iter O A K S X) : Nat → Nat → Loc O K → M O A K S X Unit
  | 0, _, _ => pure ()
  | fuel + 1, i, l => do
    let t ← Eff.get
    if t < c.steps then
      match ← iter c (w i) l with
      | none => pure ()
      | some l' => loop c w fuel (i + 1) l'
    else pure ()

/-- `train_agent.py:22-84` `train_agent`. -/
def trainAgent (c : Cfg S) (w : World O A K S X) : M O A K S X Unit := do
  let o ← Eff.call (fun o => .reset o) w.reset
  Eff.set c.stepOffset
  (if c.agentHasT then Eff.call (fun _ => .setT c.stepOffset) (.ok ()) else pure ())
  Eff.onError (loop c w.iter (c.steps - c.stepOffset) 0 ⟨o, 0, 0, 0⟩) (do
    let t ← Eff.get
    Eff.call (fun _ => .save t .except) w.saveExcept)
  let t ← Eff.get
  Eff.call (fun _ => .save t .finish) w.saveFinish

/-- A whole execution: the calls made and how it ended (train_agent.py:22-84). -/
def run (c : Cfg S) (w : World O A K S X) : List (Ev O A K S) × Except X Unit :=
  let r := trainAgent c w 0
  (r.1, r.2.2)

end Verif.Train
