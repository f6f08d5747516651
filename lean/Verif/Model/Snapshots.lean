import Verif.Model.TrainAgent
set_option autoImplicit false

/-!
# Model of snapshots on disk, with crashes at any point

`save_agent` (`chainerrl/experiments/evaluator.py:263-266`), `AttributeSavingMixin.__save` and `__load`
(`chainerrl/agent.py:104-150`; attributes that are saved themselves as directories are in `Model/AgentSave.lean`) and the saves of `train_agent`.

A crash (kill, power failure) stops the process between two operations on files.  Chainer's `save_npz` opens the file for writing, which
truncates it, and then writes it: these are two operations.  A truncated or half written npz file cannot be read.
That what was written stays in the file after a crash is an assumption.
-/

namespace Verif.Snapshots

variable {D : Type}

/-- A file: half written, or a complete npz file with the state of an object (written by agent.py:117-121). -/
inductive Content (D : Type) where
  | broken
  | full (d : D)
deriving DecidableEq

/-- The npz files in the subdirectories of `outdir`, by directory and attribute (agent.py:104-122). -/
abbrev Files (D : Type) := String → String → Option (Content D)

/-- The operations on files of agent.py:104-122. -/
inductive Op (D : Type) where
  | truncate (dir attr : String)
  | complete (dir attr : String) (d : D)

/-- agent.py:117-121. -/
def put (fs : Files D) (dir attr : String) (c : Content D) : Files D :=
  fun dir' attr' => if dir' = dir ∧ attr' = attr then some c else fs dir' attr'

/-- agent.py:104-122. -/
def Op.exec (fs : Files D) : Op D → Files D
  | .truncate dir attr => put fs dir attr .broken
  | .complete dir attr d => put fs dir attr (.full d)

/-- Several operations (agent.py:104-122). -/
def exec (fs : Files D) (ops : List (Op D)) : Files D := ops.foldl Op.exec fs

/-- `agent.save(dirname)` (agent.py:104-122): an npz file for each of the `saved_attributes`. -/
def saveOps (attrs : List String) (dir : String) (snap : String → D) : List (Op D) :=
  attrs.flatMap fun a => [.truncate dir a, .complete dir a (snap a)]

/-- A call of `save_agent`: the directory and the agent's state (evaluator.py:263-266). -/
structure Save (D : Type) where
  dir : String
  snap : String → D

/-- The operations of calls of `save_agent`, one after the other (evaluator.py:263-266, agent.py:104-122). -/
def allOps (attrs : List String) (saves : List (Save D)) : List (Op D) :=
  saves.flatMap fun s => saveOps attrs s.dir s.snap

/-- `agent.load(dirname)` (agent.py:128-150): the states of the attributes, or an exception if a file is missing or broken. -/
def load (fs : Files D) (dir : String) : List String → Option (List D)
  | [] => some []
  | a :: l =>
    match fs dir a with
    | some (.full d) => (load fs dir l).map (d :: ·)
    | _ => none

/-! ## The saves of `train_agent` -/

/-- The suffixes (train_agent.py:76, 80, 84). -/
def suffix : Train.Suffix → String
  | .checkpoint => "_checkpoint"
  | .except => "_except"
  | .finish => "_finish"

/-- `'{}{}'.format(t, suffix)` (evaluator.py:264). -/
def dirname (t : Nat) (s : Train.Suffix) : String := toString t ++ suffix s

/-- The snapshots that one call of `train_agent` makes, in order, one call being a list of events (`Model/TrainAgent.lean`): its own, and
`best` (evaluator.py:344-345) in those evaluations that improve the score.  `improved` and `snap` say for the number of an event whether it improves the
score, and the agent's state. -/
def savesOf {O A K S : Type} (improved : Nat → Bool) (snap : Nat → String → D) : Nat → List (Train.Ev O A K S) → List (Save D)
  | _, [] => []
  | i, .save t s :: l => ⟨dirname t s, snap i⟩ :: savesOf improved snap (i + 1) l
  | i, .evaluate _ _ _ :: l => (if improved i then [⟨"best", snap i⟩] else []) ++ savesOf improved snap (i + 1) l
  | i, _ :: l => savesOf improved snap (i + 1) l

end Verif.Snapshots
