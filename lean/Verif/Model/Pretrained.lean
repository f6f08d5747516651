import Mathlib.Logic.Function.Basic
set_option autoImplicit false

/-!
# Model of the download of pretrained models (`chainerrl/misc/pretrained_models.py` lines 57-130)

Any number of processes call `download_and_store_model` and `cached_download` at the same time on one file system.
The model is a transition system: each step is one file system operation of one process, and at any step a process may
be killed or an operation of the network or of the extraction may raise.

Simplifications: a model is identified by a key (the algorithm, environment and type; the URL and its md5 hash are
assumed to determine it and to differ between models); the entries of a model's archive are files of that model's own
directory (`root/<model_type>`); `mkdtemp` and `makedirs` succeed; `filelock` locks are released when their owner is
killed; renaming inside one file system (`shutil.move`, `os.rename`) is atomic.
-/

namespace Verif.Pretrained

/-- What is at a file's path: nothing, a file being written, a complete file
(the files of pretrained_models.py:81-97, 118-130). -/
inductive FileState (Data : Type)
  | absent
  | partly
  | full (d : Data)

/-- The calls: `cached_download` of a model's archive and `download_and_store_model` (pretrained_models.py:57, 100). -/
inductive Call (Key : Type)
  | download (k : Key)
  | store (k : Key)

/-- The model a call is about (the file names of pretrained_models.py:78-79, 118-122). -/
def Call.key {Key : Type} : Call Key → Key
  | .download k => k
  | .store k => k

/-- Where a call is (pretrained_models.py:57-97, 100-130). -/
inductive Pc (Name Data : Type)
  /-- line 115: waiting for `models.lock` -/
  | lockModels
  /-- line 123 -/
  | testPath
  /-- line 80: waiting for the lock of the cache -/
  | lockCache
  /-- line 81 -/
  | testCache
  /-- line 84 -/
  | makeTemp
  /-- line 90 -/
  | fetch
  /-- line 91: waiting for the lock of the cache -/
  | lockMove
  /-- line 92 -/
  | move
  /-- line 94, after lines 85-92 succeeded -/
  | cleanup
  /-- line 94, after an exception -/
  | cleanupRaise
  /-- line 127 -/
  | rename
  /-- line 129: the entries that are still to be extracted -/
  | extract (l : List (Name × Data))
  /-- line 129: the file of this entry has been opened (and truncated) -/
  | writing (n : Name) (d : Data) (l : List (Name × Data))
  /-- returned; for `download_and_store_model`, with this `is_cached` -/
  | returned (cached : Bool)
  | raised
  | killed

/-- A process in a call (pretrained_models.py:57-97, 100-130). -/
structure Proc (Key Name Data : Type) where
  call : Call Key
  pc : Pc Name Data

/-- The file system, the locks' owners and the processes (as changed by pretrained_models.py:57-130). -/
structure State (Key Name Data : Type) where
  /-- `cache_path` (line 78) -/
  cache : Key → Option (List (Name × Data))
  /-- `path` (line 122) -/
  zip : Key → Option (List (Name × Data))
  /-- the files under the path returned (line 130) -/
  dir : Key → Name → FileState Data
  /-- the temporary directories (line 84): with the complete file or without -/
  temp : Nat → Option (Option (List (Name × Data)))
  modelsLock : Option Nat
  cacheLock : Option Nat
  procs : Nat → Option (Proc Key Name Data)

/-- The events: a process starts a call, makes its next step, meets an exception, or is killed
(pretrained_models.py:57-130). -/
inductive Act (Key : Type)
  | start (p : Nat) (c : Call Key)
  | next (p : Nat)
  | fail (p : Nat)
  | kill (p : Nat)

variable {Key Name Data : Type} [DecidableEq Key] [DecidableEq Name]

/-- Before any call (pretrained_models.py:57-130). -/
def State.init : State Key Name Data :=
  ⟨fun _ => none, fun _ => none, fun _ _ => .absent, fun _ => none, none, none, fun _ => none⟩

/-- Process `p` is now at `pc` (pretrained_models.py:57-130). -/
def State.goto (s : State Key Name Data) (p : Nat) (c : Call Key) (pc : Pc Name Data) : State Key Name Data :=
  { s with procs := Function.update s.procs p (some ⟨c, pc⟩) }

/-- The owner of a lock after process `p` has ended (pretrained_models.py:81, 92, 115). -/
def release (l : Option Nat) (p : Nat) : Option Nat := if l = some p then none else l

/-- A call ends: the `with` statements release the locks (pretrained_models.py:81, 92, 115). -/
def State.finish (s : State Key Name Data) (p : Nat) (c : Call Key) (pc : Pc Name Data) : State Key Name Data :=
  { s.goto p c pc with modelsLock := release s.modelsLock p, cacheLock := release s.cacheLock p }

/-- Lines 82 and 96: `cached_download` returns `cache_path`; `download_and_store_model` goes on at line 127. -/
def afterCached (s : State Key Name Data) (p : Nat) : Call Key → State Key Name Data
  | .download k => s.finish p (.download k) (.returned true)
  | .store k => s.goto p (.store k) .rename

/-- Where a call starts: line 115 for `download_and_store_model`, line 80 for `cached_download`. -/
def entry : Call Key → Pc Name Data
  | .download _ => .lockCache
  | .store _ => .lockModels

/-- The next step of a process (`none` if it waits for a lock or has ended); `remote` is what the server offers
(pretrained_models.py:71-97, 115-130). -/
def next (remote : Key → List (Name × Data)) (s : State Key Name Data) (p : Nat) (c : Call Key) :
    Pc Name Data → Option (State Key Name Data)
  | .lockModels =>
    if s.modelsLock = none then some { s.goto p c .testPath with modelsLock := some p } else none
  | .testPath =>
    if (s.zip c.key).isSome then some (s.finish p c (.returned true)) else some (s.goto p c .lockCache)
  | .lockCache =>
    if s.cacheLock = none then some { s.goto p c .testCache with cacheLock := some p } else none
  | .testCache =>
    if (s.cache c.key).isSome then some (afterCached { s with cacheLock := none } p c)
    else some { s.goto p c .makeTemp with cacheLock := none }
  | .makeTemp => some { s.goto p c .fetch with temp := Function.update s.temp p (some none) }
  | .fetch => some { s.goto p c .lockMove with temp := Function.update s.temp p (some (some (remote c.key))) }
  | .lockMove =>
    if s.cacheLock = none then some { s.goto p c .move with cacheLock := some p } else none
  | .move =>
    some { s.goto p c .cleanup with
      cache := Function.update s.cache c.key (s.temp p).join, temp := Function.update s.temp p (some none),
      cacheLock := none }
  | .cleanup => some (afterCached { s with temp := Function.update s.temp p none } p c)
  | .cleanupRaise => some (({ s with temp := Function.update s.temp p none }).finish p c .raised)
  | .rename =>
    match s.cache c.key with
    | none => some (s.finish p c .raised)
    | some z =>
      some { s.goto p c (.extract z) with
        zip := Function.update s.zip c.key (some z), cache := Function.update s.cache c.key none }
  | .extract [] => some (s.finish p c (.returned false))
  | .extract ((n, d) :: l) =>
    some { s.goto p c (.writing n d l) with
      dir := Function.update s.dir c.key (Function.update (s.dir c.key) n .partly) }
  | .writing n d l =>
    some { s.goto p c (.extract l) with
      dir := Function.update s.dir c.key (Function.update (s.dir c.key) n (.full d)) }
  | .returned _ => none
  | .raised => none
  | .killed => none

/-- An exception: the download fails (line 90, then line 94), or the extraction does (line 129). -/
def fail (s : State Key Name Data) (p : Nat) (c : Call Key) : Pc Name Data → Option (State Key Name Data)
  | .fetch => some (s.goto p c .cleanupRaise)
  | .extract _ => some (s.finish p c .raised)
  | .writing _ _ _ => some (s.finish p c .raised)
  | _ => none

/-- The call is over (pretrained_models.py:83, 97, 130). -/
def Pc.over : Pc Name Data → Bool
  | .returned _ => true
  | .raised => true
  | .killed => true
  | _ => false

/-- A process without a call, or whose last call is over, may start one; a killed process does nothing more
(pretrained_models.py:57, 100). -/
def canStart : Option (Proc Key Name Data) → Bool
  | none => true
  | some ⟨_, .killed⟩ => false
  | some q => q.pc.over

/-- The events (pretrained_models.py:57-130). -/
def step (remote : Key → List (Name × Data)) (s : State Key Name Data) : Act Key → Option (State Key Name Data)
  | .start p c => if canStart (s.procs p) then some (s.goto p c (entry c)) else none
  | .next p => (s.procs p).bind fun q => next remote s p q.call q.pc
  | .fail p => (s.procs p).bind fun q => fail s p q.call q.pc
  | .kill p => (s.procs p).bind fun q => if q.pc.over then none else some (s.finish p q.call .killed)

end Verif.Pretrained
