import Mathlib.Data.Real.Basic
import Verif.Model.Py
set_option autoImplicit false

/-!
# Model of the statistics of `chainerrl/wrappers/monitor.py`

`Monitor` extends `gym.wrappers.Monitor`, and `_StatsRecorder` extends gym's `StatsRecorder`.  gym is
not part of the repository; its `StatsRecorder` and the parts of `Monitor` that call it are modelled
as published (gym 0.9.7 to 0.17, `gym/wrappers/monitor.py` and
`gym/wrappers/monitoring/stats_recorder.py`): this is an assumption.  Videos and time stamps are not
modelled.  Rewards are real numbers.
-/

namespace Verif.Monitor

/-- The attributes of the recorder (monitor.py:45-50 and gym's `StatsRecorder.__init__`).  `file` is the
last written `stats.json` (lengths, rewards and types). -/
structure Rec where
  lengths : List Nat
  rewards : List ℝ
  types : List Char
  type : Char
  steps : Option Nat
  totalSteps : Nat
  rew : ℝ
  done : Option Bool
  closed : Bool
  saveCompleted : Bool
  file : Option (List Nat × List ℝ × List Char)

/-- `_StatsRecorder.__init__` (monitor.py:45-50). -/
def Rec.init : Rec := ⟨[], [], [], 't', none, 0, 0, none, false, true, none⟩

/-- gym's `StatsRecorder.save_complete`: nothing before the first reset
(gym/wrappers/monitoring/stats_recorder.py, called in monitor.py:68-71). -/
def gymSaveComplete (s : Rec) : Rec :=
  match s.steps with
  | none => s
  | some n => { s with lengths := s.lengths ++ [n], rewards := s.rewards ++ [s.rew] }

/-- `save_complete` (monitor.py:68-71). -/
def saveComplete (s : Rec) : Rec :=
  if s.saveCompleted then s else { gymSaveComplete s with saveCompleted := true }

/-- gym's `StatsRecorder.before_step`: `ResetNeeded` (here `runtimeError`) when the episode is over or
before the first reset (gym/wrappers/monitoring/stats_recorder.py, inherited by monitor.py:38). -/
def beforeStep (s : Rec) : Py Unit :=
  if s.closed then .error .assertionError
  else if s.done = some true then .error .runtimeError
  else if s.steps = none then .error .runtimeError
  else .ok ()

/-- `after_step` (monitor.py:64-66) and gym's `StatsRecorder.after_step` with `autoreset=False`.
`self.steps` is not `None` here, because `before_step` has returned. -/
def afterStep (s : Rec) (reward : ℝ) (done : Bool) : Rec :=
  let s := { s with saveCompleted := false, steps := s.steps.map (· + 1), totalSteps := s.totalSteps + 1
                    rew := s.rew + reward, done := some done }
  if done then saveComplete s else s

/-- `before_reset` (monitor.py:52-62).  `self.steps > 0` is a `TypeError` when `steps` is `None`. -/
def beforeReset (s : Rec) : Py Rec :=
  if s.closed then .error .assertionError
  else if s.done = some false then
    match s.steps with
    | none => .error .typeError
    | some n => .ok { (if n > 0 then saveComplete s else s) with done := some false }
  else .ok { s with done := some false }

/-- gym's `StatsRecorder.after_reset` (gym/wrappers/monitoring/stats_recorder.py, inherited by monitor.py:38). -/
def afterReset (s : Rec) : Rec := { s with steps := some 0, rew := 0, types := s.types ++ [s.type] }

/-- `close` (monitor.py:73-75) and gym's `StatsRecorder.close` and `flush`. -/
def close (s : Rec) : Rec :=
  let s := saveComplete s
  { s with file := if s.closed then s.file else some (s.lengths, s.rewards, s.types), closed := true }

/-- A call of a method of `Monitor`, with what the wrapped environment does: `reset` returns or raises,
`step` returns a reward and `done`, or raises (gym/wrappers/monitor.py, inherited by monitor.py:9). -/
inductive Op where
  | reset (returns : Bool)
  | step (outcome : Option (ℝ × Bool))
  | close

/-- What the caller sees: a normal return, the environment's exception or the monitor's
(of the methods inherited by monitor.py:9). -/
inductive Res where
  | ok
  | envError
  | refused (e : PyErr)
deriving DecidableEq

/-- A call of gym's `Monitor.reset`, `Monitor.step` and `Monitor.close`: the recorder is called before
and after the environment; an exception of the environment skips the second call.  A closed monitor
(`enabled` is false) passes everything through without recording, and its `close` does nothing
(gym/wrappers/monitor.py, inherited by monitor.py:9). -/
noncomputable def exec (s : Rec) : Op → Rec × Res
  | .reset returns =>
    if s.closed then (s, if returns then .ok else .envError) else
    match beforeReset s with
    | .error e => (s, .refused e)
    | .ok s' => if returns then (afterReset s', .ok) else (s', .envError)
  | .step outcome =>
    if s.closed then (s, if outcome.isSome then .ok else .envError) else
    match beforeStep s with
    | .error e => (s, .refused e)
    | .ok () =>
      match outcome with
      | none => (s, .envError)
      | some (r, d) => (afterStep s r d, .ok)
  | .close => if s.closed then (s, .ok) else (close s, .ok)

/-- A history of calls, with the caller's view of it (iterates the methods inherited by monitor.py:9). -/
noncomputable def run : Rec → List Op → Rec × List (Op × Res)
  | s, [] => (s, [])
  | s, op :: ops =>
    let r := exec s op
    let r' := run r.1 ops
    (r'.1, (op, r.2) :: r'.2)

end Verif.Monitor
