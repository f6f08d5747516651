import Verif.Model.Py
set_option autoImplicit false

/-!
# Model of `run_async` and of seeding

`chainerrl/misc/async_.py` lines 163-197, `chainerrl/misc/random_seed.py` lines 8-36 and the set-up of the workers in
`chainerrl/experiments/train_agent_async.py` lines 171-245.

The random number generators are abstract: what a seed makes of them and what `randint` draws.  Processes are made by
`fork` (the nested functions cannot be pickled, so no other start method works): a process starts with a copy of its
parent's generators.  A child process may exit at any moment with any exit code; the parent may be arbitrarily slow. Not
modelled: exceptions in the parent, `mp.Process` failing to start. -/

namespace Verif.RunAsync

/-- The states of the generators of `random`, `numpy.random`, `cupy.random` on each device, and the environment variable
`CHAINER_SEED` (random_seed.py:24-33). -/
structure Gens (R N C : Type) where
  random : R
  numpy : N
  cupy : Nat → C
  chainerSeed : Option Int

/-- What the generators do (the functions called in random_seed.py:24-33). -/
structure Algo (R N C : Type) where
  /-- `random.seed` -/
  random : Int → R
  /-- `np.random.seed` -/
  numpy : Int → N
  /-- `cupy.random.seed` -/
  cupy : Int → C
  /-- `np.random.randint(0, 2 ** 32)` -/
  randint : N → Nat × N

variable {R N C : Type}

/-- `for gpu in gpus` (random_seed.py:30-33). -/
def seedGpus (a : Algo R N C) (seed : Int) : List Int → (Nat → C) → Nat → C
  | [], f => f
  | g :: gs, f => seedGpus a seed gs (if g ≥ 0 then fun i => if i = g.toNat then a.cupy seed else f i else f)

/-- `set_random_seed(seed, gpus)` (random_seed.py:8-36); `np.random.seed` raises for seeds outside `[0, 2 ** 32)`, then
`random` has been seeded but nothing else (not modelled: the error keeps no state). -/
def setRandomSeed (a : Algo R N C) (seed : Int) (gpus : List Int) (g : Gens R N C) : Py (Gens R N C) :=
  if 0 ≤ seed ∧ seed.toNat < 2 ^ 32 then
    .ok ⟨a.random seed, a.numpy seed, seedGpus a seed gpus g.cupy, some seed⟩
  else .error .valueError

/-- `set_seed_and_run` up to the call of `run_func` (async_.py:173-175): the generators that `run_func` finds. -/
def childGens (a : Algo R N C) (g : Gens R N C) : Py (Gens R N C) :=
  let d := a.randint g.numpy
  setRandomSeed a d.1 [] { g with numpy := d.2 }

/-- The first statement of `run_func` in `train_agent_async` (train_agent_async.py:201). -/
def workerGens (a : Algo R N C) (processIdx : Nat) (g : Gens R N C) : Py (Gens R N C) :=
  setRandomSeed a processIdx [] g

/-- A child process (async_.py:173-182). -/
inductive Child (R N C : Type)
  | notStarted
  /-- started; these are the generators it has inherited -/
  | forked (g : Gens R N C)
  /-- it has called `run_func` with these generators -/
  | inFunc (g : Gens R N C)
  | exited (code : Int)

/-- The two warnings (async_.py:186-197). -/
inductive Warning
  | status (processIdx : Nat) (code : Int)
  | signal (processIdx : Nat) (signal : Int)
  deriving DecidableEq

/-- Where the parent is: the loop of lines 181-182, the loop of lines 184-197, or after it. -/
inductive Pc
  | start (i : Nat)
  | join (i : Nat)
  | returned
  deriving DecidableEq

/-- async_.py:163-197. -/
structure State (R N C : Type) where
  gens : Gens R N C
  pc : Pc
  children : Nat → Child R N C
  warnings : List Warning

/-- `run_async` has been called (async_.py:163-172). -/
def State.init (g : Gens R N C) : State R N C := ⟨g, .start 0, fun _ => .notStarted, []⟩

/-- Lines 186-197. -/
def warn (i : Nat) (code : Int) : List Warning :=
  if code > 0 then [.status i code] else if code < 0 then [.signal i (-code)] else []

/-- The next step of the parent (async_.py:181-197); none if it waits. -/
def parentStep (n : Nat) (s : State R N C) : Option (State R N C) :=
  match s.pc with
  | .start i =>
    if i < n then
      some { s with pc := .start (i + 1), children := fun j => if j = i then .forked s.gens else s.children j }
    else some { s with pc := .join 0 }
  | .join i =>
    if i < n then
      match s.children i with
      | .exited code => some { s with pc := .join (i + 1), warnings := s.warnings ++ warn i code }
      | _ => none
    else some { s with pc := .returned }
  | .returned => none

/-- What happens: the parent goes on, a child calls `run_func`, a child exits (async_.py:173-197). -/
inductive Act
  | parent
  | enter (i : Nat)
  | exit (i : Nat) (code : Int)

/-- The events (async_.py:173-197). -/
def step (a : Algo R N C) (n : Nat) (s : State R N C) : Act → Option (State R N C)
  | .parent => parentStep n s
  | .enter i =>
    match s.children i with
    | .forked g =>
      match childGens a g with
      | .ok g' => some { s with children := fun j => if j = i then .inFunc g' else s.children j }
      | .error _ => none
    | _ => none
  | .exit i code =>
    match s.children i with
    | .forked _ => some { s with children := fun j => if j = i then .exited code else s.children j }
    | .inFunc _ => some { s with children := fun j => if j = i then .exited code else s.children j }
    | _ => none

/-- The states that can be reached (by async_.py:163-197). -/
inductive Reach (a : Algo R N C) (n : Nat) (g : Gens R N C) : State R N C → Prop
  | init : Reach a n g (.init g)
  | step {s s' : State R N C} (x : Act) : Reach a n g s → step a n s x = some s' → Reach a n g s'

/-! ### `train_agent_async` -/

/-- The calls that `train_agent_async` and its workers make (train_agent_async.py:176-243). -/
inductive Call
  /-- `make_agent(process_idx)` -/
  | makeAgent (idx : Nat)
  /-- the agent's shared attributes are moved to shared memory (lines 184-185) -/
  | share
  | makeEnv (idx : Nat) (test : Bool)
  /-- the local agent is attached to the shared memory (line 210) -/
  | attach (idx : Nat)
  | trainLoop (idx : Nat)
  | closeEnv (idx : Nat) (test : Bool)
  deriving DecidableEq

/-- `run_func(process_idx)` (train_agent_async.py:200-241) if nothing raises; whether there is an evaluator, and whether
`make_agent` was given. -/
def runFunc (evaluator makeAgent : Bool) (idx : Nat) : List Call :=
  [.makeEnv idx false] ++ (if evaluator then [.makeEnv idx true] else []) ++
    (if makeAgent then [.makeAgent idx, .attach idx] else []) ++ [.trainLoop idx] ++
    [.closeEnv idx false] ++ (if evaluator then [.closeEnv idx true] else [])

/-- `train_agent_async` before it starts the workers (train_agent_async.py:180-185). -/
def setUp (agentGiven makeAgent : Bool) : Py (List Call) :=
  if agentGiven then .ok [.share]
  else pyAssert makeAgent (.ok [.makeAgent 0, .share])

end Verif.RunAsync
