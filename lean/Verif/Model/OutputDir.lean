import Mathlib.Logic.Function.Basic
set_option autoImplicit false

/-!
# Model of `prepare_output_dir` (`chainerrl/experiments/prepare_output_dir.py` lines 12-95)

Any number of processes call it at the same time on one file system, on which other programs may create files and
directories.  Each step is one file system operation of one process; a process may be killed at any step.

Simplifications: a path is abstract, `join` is `os.path.join` of a directory and a string; texts are abstract;
`os.makedirs` is atomic for the last directory (it fails if something of that name exists); writing a file is one step.
-/

namespace Verif.OutputDir

/-- What a path is (prepare_output_dir.py:51-62). -/
inductive Kind
  | file
  | dir
  deriving DecidableEq

/-- What `git` prints (lines 79-93). -/
structure Git (Text : Type) where
  head : Text
  status : Text
  log : Text
  diff : Text

/-- A call: the directory given by the user, the time (line 50), the arguments as JSON (`none` if they cannot be
represented), the environment, the command line and what `git` prints (`none` if not under git control). -/
structure Call (Path Text : Type) where
  user : Option Path
  time : Text
  args : Option Text
  environ : Text
  command : Text
  git : Option (Git Text)

/-- Where a call is (prepare_output_dir.py:51-95). -/
inductive Pc (Path Text : Type)
  /-- lines 52-55 -/
  | checkUser
  /-- line 57 -/
  | checkOut (d : Path)
  /-- line 60 -/
  | makeDirs (d : Path)
  /-- line 62 -/
  | makeTemp
  /-- lines 65-93: the files still to be written; `none` if the text cannot be produced -/
  | write (d : Path) (l : List (String × Option Text))
  /-- line 95 -/
  | returned (d : Path)
  | raised
  | killed

/-- The file system and the processes (as changed by prepare_output_dir.py:51-95). -/
structure State (Path Text : Type) where
  kind : Path → Option Kind
  /-- the files in a directory written by these calls -/
  files : Path → String → Option Text
  procs : Nat → Option (Call Path Text × Pc Path Text)

/-- The events: process `p` starts its call, makes its next step (`d` is the new path `mkdtemp` finds), is killed;
another program creates something (prepare_output_dir.py:51-95). -/
inductive Act (Path Text : Type)
  | start (p : Nat) (c : Call Path Text)
  | next (p : Nat) (d : Path)
  | kill (p : Nat)
  | other (d : Path) (k : Kind)

variable {Path Text : Type} [DecidableEq Path]

/-- Lines 79-93. -/
def gitFiles : Option (Git Text) → List (String × Option Text)
  | none => []
  | some g => [("git-head.txt", some g.head), ("git-status.txt", some g.status), ("git-log.txt", some g.log),
      ("git-diff.txt", some g.diff)]

/-- Lines 65-93: the files of a call, in order. -/
def filesOf (c : Call Path Text) : List (String × Option Text) :=
  [("args.txt", c.args), ("environ.txt", some c.environ), ("command.txt", some c.command)] ++ gitFiles c.git

/-- Process `p` is now at `pc` (prepare_output_dir.py:51-95). -/
def State.goto (s : State Path Text) (p : Nat) (c : Call Path Text) (pc : Pc Path Text) : State Path Text :=
  { s with procs := Function.update s.procs p (some (c, pc)) }

/-- Line 51: where a call starts (prepare_output_dir.py:51). -/
def entry (c : Call Path Text) : Pc Path Text := if c.user.isSome then .checkUser else .makeTemp

/-- Lines 52-56: `RuntimeError` if the user's path is a file. -/
def checkUser (join : Path → Text → Path) (s : State Path Text) (p : Nat) (c : Call Path Text) :
    Option Path → State Path Text
  | none => s.goto p c .makeTemp
  | some u => if s.kind u = some .file then s.goto p c .raised else s.goto p c (.checkOut (join u c.time))

/-- The next step of a process (prepare_output_dir.py:51-95). -/
def next (join : Path → Text → Path) (s : State Path Text) (p : Nat) (c : Call Path Text) (new : Path) :
    Pc Path Text → Option (State Path Text)
  | .checkUser => some (checkUser join s p c c.user)
  | .checkOut d => if (s.kind d).isSome then some (s.goto p c .raised) else some (s.goto p c (.makeDirs d))
  | .makeDirs d =>
    if (s.kind d).isSome then some (s.goto p c .raised)
    else some { s.goto p c (.write d (filesOf c)) with kind := Function.update s.kind d (some .dir) }
  | .makeTemp =>
    if (s.kind new).isSome then none
    else some { s.goto p c (.write new (filesOf c)) with kind := Function.update s.kind new (some .dir) }
  | .write d [] => some (s.goto p c (.returned d))
  | .write _ ((_, none) :: _) => some (s.goto p c .raised)
  | .write d ((n, some t) :: l) =>
    some { s.goto p c (.write d l) with
      files := Function.update s.files d (Function.update (s.files d) n (some t)) }
  | .returned _ => none
  | .raised => none
  | .killed => none

/-- The events (prepare_output_dir.py:51-95). -/
def step (join : Path → Text → Path) (s : State Path Text) : Act Path Text → Option (State Path Text)
  | .start p c => if (s.procs p).isNone then some (s.goto p c (entry c)) else none
  | .next p d => (s.procs p).bind fun q => next join s p q.1 d q.2
  | .kill p => (s.procs p).map fun q => s.goto p q.1 .killed
  | .other d k => if (s.kind d).isNone then some { s with kind := Function.update s.kind d (some k) } else none

end Verif.OutputDir
