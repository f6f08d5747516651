import Verif.Model.Evaluator
set_option autoImplicit false

/-!
# Model of what an output directory contains after several training runs

`train_agent_with_evaluation` (`chainerrl/experiments/train_agent.py:87-160`, and `train_agent_batch_with_evaluation`,
`train_agent_batch.py:132-220`) creates the output directory if it does not exist (train_agent.py:133), makes a new `Evaluator`
(141-150) and trains, which calls `evaluate_if_necessary` at some steps.  A training that was interrupted is continued by loading a
snapshot and calling it again with `step_offset` and the same directory.

The evaluator itself is `Model/Evaluator.lean`.
-/

namespace Verif.Results
open Evaluator

variable {A K C X : Type} [LinearOrder K]

/-- A line of `scores.txt` (evaluator.py:258-260, 318-321, 327-335). -/
inductive Line (K C : Type) where
  | header
  | score (t episodes : Nat) (stats : Stats K) (custom : C)
deriving DecidableEq

/-- The output directory: `scores.txt` and the agent in the directory `best` (evaluator.py:258-267). -/
structure Disk (A K C : Type) where
  scores : List (Line K C)
  best : Option A

/-- The effects of the evaluator on it: the header truncates the file (`open(…, 'w')`, evaluator.py:318), lines are appended (`'a+'`, 259),
`best` is replaced (345). -/
def Disk.apply (agent : A) (d : Disk A K C) : Ev K C → Disk A K C
  | .header => { d with scores := [.header] }
  | .record t e s c => { d with scores := d.scores ++ [.score t e s c] }
  | .best => { d with best := some agent }

/-- The constructor of `Evaluator`, called by `train_agent_with_evaluation` (train_agent.py:141-150). -/
def start (d : Disk A K C) : Disk A K C := { d with scores := [.header] }

/-- One training run: the evaluator is made, then `evaluate_if_necessary` is called with the agent as it is at the time
(train_agent.py:138-160, evaluator.py:286-353). -/
def session (c : Cfg) (lo : K) (l : List (Call K C X × A)) (d : Disk A K C) : Disk A K C :=
  (l.zip (run c lo (l.map Prod.fst)).1).foldl (fun d x => x.2.1.foldl (Disk.apply x.1.2) d) (start d)

/-- Several runs in the same directory, one after the other (iterates train_agent.py:87-160). -/
def sessions (lo : K) : List (Cfg × List (Call K C X × A)) → Disk A K C → Disk A K C
  | [], d => d
  | s :: l, d => sessions lo l (session s.1 lo s.2 d)

end Verif.Results
