import Mathlib.Order.Defs.LinearOrder
import Mathlib.Logic.Function.Basic
import Verif.Model.TrainAgent
set_option autoImplicit false

/-!
# Model of `chainerrl/experiments/train_agent_async.py`

`train_loop` (lines 10-109) runs in `P` processes that share `counter`,
`episodes_counter` and `training_done`.  A process is a small-step machine: one
slice of a process is one call of a user object or one access to shared state
(a `with lock:` block is one slice, since the lock makes it atomic; a single
`training_done.value` read is atomic).  A schedule is a list of (process, what
the call made in that slice returned); every schedule is an interleaving.
Logging is not modelled.  The evaluator is modelled in `AsyncEvaluator`; here
only its result matters.  `train_agent_async` (lines 124-245) creates the shared
values (line 176-178) and starts the processes; agent parameters shared between
processes are not modelled.
-/

namespace Verif.TrainAsync
open Train (StepOut)

/-- The arguments of `train_agent_async` that matter.  `stepOffset` is only
passed to the evaluator (line 195): see `initShared`. -/
structure Cfg (S : Type) where
  steps : Nat
  stepOffset : Nat
  maxEpisodeLen : Option Nat
  hasEvaluator : Bool
  successfulScore : Option S
  numHooks : Nat

/-- Where a process is: what it does in its next slice (train_agent_async.py:21-109). -/
inductive Pc (O A K : Type) where
  /-- line 27 -/
  | start
  /-- line 36, with observation, reward and the length of the episode -/
  | act (obs : O) (r : K) (len : Nat)
  /-- line 38 -/
  | step (a : A) (len : Nat)
  /-- lines 44-46 -/
  | count (out : StepOut O K) (len : Nat)
  /-- lines 48-49, at the `i`-th hook -/
  | hooks (out : StepOut O K) (len i : Nat)
  /-- line 53 -/
  | decide (out : StepOut O K) (len : Nat)
  /-- line 54 -/
  | stop (out : StepOut O K)
  /-- lines 63-69 -/
  | evaluate
  /-- lines 70-76 -/
  | setDone
  /-- lines 78-80 -/
  | episode
  /-- line 82 -/
  | check
  /-- line 88 -/
  | reset
  /-- lines 99-103 -/
  | finish
  /-- lines 105-109 -/
  | success
  /-- `train_loop` returned -/
  | ended
  /-- lines 91-97 -/
  | except
  /-- the process died -/
  | dead
  deriving DecidableEq

/-- A process: program counter and local variables (train_agent_async.py:23-31). -/
structure Worker (O A K : Type) where
  pc : Pc O A K
  globalT : Nat
  globalEpisodes : Nat
  successful : Bool
  deriving DecidableEq

/-- The shared variables (train_agent_async.py:176-178). -/
structure Shared where
  counter : Nat
  episodes : Nat
  done : Bool
  deriving DecidableEq

/-- The observable calls; `count n` is not a call but the moment at which a step
gets its global number (train_agent_async.py:27-109). -/
inductive Ev (O A K : Type) where
  | reset (obs : O)
  | act (obs : O) (r : K) (a : A)
  | step (a : A) (out : StepOut O K)
  | count (n : Nat)
  | hook (i t : Nat)
  | stop (obs : O) (r : K) (done : Bool)
  | evaluate (t episodes : Nat)
  | saveFinish (t : Nat)
  | saveSuccessful
  | saveExcept (t : Nat)
  deriving DecidableEq

/-- What the call made in a slice returns; `raise`: it raises (train_agent_async.py:27-109). -/
structure Inp (O A K S : Type) where
  raise : Bool
  obs : O
  a : A
  out : StepOut O K
  score : Option S

variable {O A K S : Type} [Zero K] [LinearOrder S]

/-- Line 53: does the episode end here? (train_agent_async.py:51-53). -/
def endsEpisode (c : Cfg S) (g : Shared) (w : Worker O A K) (out : StepOut O K) (len : Nat) : Bool :=
  out.done || (some len == c.maxEpisodeLen || out.needsReset) || decide (w.globalT ≥ c.steps) || g.done

/-- Lines 67-69. -/
def isSuccess (c : Cfg S) (score : Option S) : Bool :=
  match score, c.successfulScore with
  | some x, some s => decide (x ≥ s)
  | _, _ => false

/-- `train_loop`, one slice of process `idx` (train_agent_async.py:10-109). -/
def slice (c : Cfg S) (idx : Nat) (i : Inp O A K S) (g : Shared) (w : Worker O A K) :
    List (Ev O A K) × Shared × Worker O A K :=
  let crash : List (Ev O A K) × Shared × Worker O A K := ([], g, { w with pc := .except })
  match w.pc with
  | .start => if i.raise then crash else ([.reset i.obs], g, { w with pc := .act i.obs 0 0 })
  | .act obs r len =>
    if i.raise then crash else ([.act obs r i.a], g, { w with pc := .step i.a len })
  | .step a len =>
    if i.raise then crash else ([.step a i.out], g, { w with pc := .count i.out (len + 1) })
  | .count out len =>
    ([.count (g.counter + 1)], { g with counter := g.counter + 1 },
      { w with pc := .hooks out len 0, globalT := g.counter + 1 })
  | .hooks out len k =>
    if k < c.numHooks then
      if i.raise then crash else ([.hook k w.globalT], g, { w with pc := .hooks out len (k + 1) })
    else ([], g, { w with pc := .decide out len })
  | .decide out len =>
    if endsEpisode c g w out len then ([], g, { w with pc := .stop out })
    else ([], g, { w with pc := .act out.obs out.r len })
  | .stop out =>
    if i.raise then crash else ([.stop out.obs out.r out.done], g, { w with pc := .evaluate })
  | .evaluate =>
    if c.hasEvaluator then
      if i.raise then crash
      else ([.evaluate w.globalT w.globalEpisodes], g,
        { w with pc := if isSuccess c i.score then .setDone else .episode })
    else ([], g, { w with pc := .episode })
  | .setDone =>
    ([], { g with done := true }, { w with pc := .finish, successful := w.successful || !g.done })
  | .episode =>
    ([], { g with episodes := g.episodes + 1 },
      { w with pc := .check, globalEpisodes := g.episodes + 1 })
  | .check =>
    if decide (w.globalT ≥ c.steps) || g.done then ([], g, { w with pc := .finish })
    else ([], g, { w with pc := .reset })
  | .reset => if i.raise then crash else ([.reset i.obs], g, { w with pc := .act i.obs 0 0 })
  | .finish =>
    if w.globalT = c.steps then
      if i.raise then ([], g, { w with pc := .dead })
      else ([.saveFinish c.steps], g, { w with pc := .success })
    else ([], g, { w with pc := .success })
  | .success =>
    if w.successful then
      if i.raise then ([], g, { w with pc := .dead })
      else ([.saveSuccessful], g, { w with pc := .ended })
    else ([], g, { w with pc := .ended })
  | .except =>
    if idx = 0 ∧ i.raise = false then ([.saveExcept w.globalT], g, { w with pc := .dead })
    else ([], g, { w with pc := .dead })
  | .ended => ([], g, w)
  | .dead => ([], g, w)

/-- The whole system (train_agent_async.py:124-245). -/
structure State (P : Nat) (O A K : Type) where
  g : Shared
  w : Fin P → Worker O A K

/-- `train_agent_async.py:176-178`: the shared values.  (The counter starts at 0
whatever `step_offset` is.) -/
def initShared (_c : Cfg S) : Shared := ⟨0, 0, false⟩

/-- Lines 23-31 and 176-178. -/
def init (c : Cfg S) (P : Nat) : State P O A K :=
  ⟨initShared c, fun _ => ⟨.start, 0, 0, false⟩⟩

/-- One slice of process `p` (train_agent_async.py:10-109). -/
def State.slice {P : Nat} (c : Cfg S) (s : State P O A K) (p : Fin P) (i : Inp O A K S) :
    List (Fin P × Ev O A K) × State P O A K :=
  let r := TrainAsync.slice c p.val i s.g (s.w p)
  (r.1.map (p, ·), ⟨r.2.1, Function.update s.w p r.2.2⟩)

/-- A schedule: the calls made, in order, and the final state (iterates train_agent_async.py:10-109). -/
def State.exec {P : Nat} (c : Cfg S) (s : State P O A K) :
    List (Fin P × Inp O A K S) → List (Fin P × Ev O A K) × State P O A K
  | [] => ([], s)
  | (p, i) :: l =>
    let r := s.slice c p i
    let r' := r.2.exec c l
    (r.1 ++ r'.1, r'.2)

/-- `train_agent_async` under a schedule (train_agent_async.py:124-245). -/
def run (c : Cfg S) (P : Nat) (sched : List (Fin P × Inp O A K S)) :
    List (Fin P × Ev O A K) × State P O A K :=
  (init c P).exec c sched

end Verif.TrainAsync
