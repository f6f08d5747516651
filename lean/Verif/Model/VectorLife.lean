import Mathlib.Logic.Function.Basic
import Verif.Model.Py
set_option autoImplicit false

/-!
# Model of the life of `MultiprocessVectorEnv`: seeding, failures and `close`

`chainerrl/envs/multiprocess_vector_env.py` with environments that may raise, and the seeding of
`serial_vector_env.py`.  (`Model/VectorEnv.lean` models the results of `step` and `reset` when nothing
fails.)  An environment is any function that handles requests: all random numbers are in its
state.  Values of all kinds are one type `V`.  Pipes are unbounded queues.  The parent keeps its copies of
the workers' ends (`self.work_remotes`, line 56), so writing to the pipe of a worker that has exited
succeeds, and reading from it waits for ever.
-/

namespace Verif.VectorLife

/-- A request to one worker's environment (lines 19-32). -/
inductive Req (A : Type) where
  | step (a : A)
  | reset
  | spaces
  | spec
  | seed (s : Option Int)
deriving DecidableEq

/-- What an environment does with a request; `none`: it raises (multiprocess_vector_env.py:12-38). -/
abbrev Env (S A V : Type) := S → Req A → Option (S × V)

/-- A message to a worker (multiprocess_vector_env.py:17-32). -/
inductive Cmd (A : Type) where
  | req (r : Req A)
  | close
deriving DecidableEq

variable {S A V : Type}

/-- A worker process: its environment, whether it has exited, how often the environment's `close` was
called, and the two directions of its pipe, oldest first (multiprocess_vector_env.py:12-38). -/
structure Worker (S A V : Type) where
  env : S
  exited : Bool
  closes : Nat
  inq : List (Cmd A)
  outq : List V
deriving DecidableEq

/-- Lines 17-36: one round of the loop.  `none`: it waits, or has exited.  An exception of the environment and
the command `close` end the loop; `finally` closes the environment. -/
def Worker.move (E : Env S A V) (w : Worker S A V) : Option (Worker S A V) :=
  if w.exited then none else
  match w.inq with
  | [] => none
  | .close :: q => some { w with inq := q, exited := true, closes := w.closes + 1 }
  | .req r :: q =>
    match E w.env r with
    | none => some { w with inq := q, exited := true, closes := w.closes + 1 }
    | some (s, v) => some { w with env := s, inq := q, outq := w.outq ++ [v] }

/-- What the parent does next (multiprocess_vector_env.py:68-128). -/
inductive Act (A : Type) where
  | send (i : Nat) (c : Cmd A)
  | recv (i : Nat)
  | join (i : Nat)
deriving DecidableEq

/-- The parent and its workers; only those below `num` exist (multiprocess_vector_env.py:48-66). -/
structure Multi (S A V : Type) where
  num : Nat
  workers : Nat → Worker S A V
  closed : Bool
  todo : List (Act A)
  got : List V

/-- Lines 58-62 (and the first lines of `worker`, 13-15). -/
def Multi.init (envs : List S) (dflt : S) : Multi S A V :=
  ⟨envs.length, fun i => ⟨(envs[i]?).getD dflt, false, 0, [], []⟩, false, [], []⟩

/-- The argument of `seed` (multiprocess_vector_env.py:108-122). -/
inductive SeedArg where
  | none
  | int (k : Int)
  | list (l : List Int)
  | other

/-- Lines 110-122: the seeds of all environments. -/
def seedsOf (n : Nat) : SeedArg → Py (List (Option Int))
  | .none => .ok (List.replicate n Option.none)
  | .int k => .ok (List.replicate n (some k))
  | .list l => if l.length ≠ n then .error .valueError else .ok (l.map some)
  | .other => .error .typeError

/-- A call of the user (multiprocess_vector_env.py:68-128). -/
inductive Call (A : Type) where
  | step (actions : List A)
  | reset (mask : List Bool)
  | seed (arg : SeedArg)
  | spec
  | close

/-- Sends of requests, in order (multiprocess_vector_env.py:79-128). -/
def sends (n : Nat) (f : Nat → Option (Req A)) : List (Act A) :=
  (List.range n).filterMap fun i => (f i).map fun r => .send i (.req r)

/-- Reads of the workers `i` with `f i` (multiprocess_vector_env.py:79-128). -/
def reads (n : Nat) (f : Nat → Bool) : List (Act A) := ((List.range n).filter f).map .recv

/-- The request of a masked reset to worker `i` (lines 91-93). -/
def resetReq (mask : List Bool) (i : Nat) : Option (Req A) :=
  match mask[i]? with
  | some false => some .reset
  | _ => none

/-- The parent's side of a call: `step` (lines 79-84) sends to as many workers as there are actions and
reads from all; `reset` (87-98); `seed` (124-127); `spec` (73-77); `close` (100-106). -/
def plan (n : Nat) : Call A → Py (List (Act A))
  | .step actions =>
    .ok (sends n (fun i => (actions[i]?).map .step) ++ reads n (fun _ => true))
  | .reset mask => .ok (sends n (resetReq mask) ++ reads n (fun i => (resetReq (A := A) mask i).isSome))
  | .seed arg => do
    let seeds ← seedsOf n arg
    .ok (sends n (fun i => (seeds[i]?).map .seed) ++ reads n (fun _ => true))
  | .spec => .ok [.send 0 (.req .spec), .recv 0]
  | .close => .ok ((List.range n).map (fun i => .send i .close) ++ (List.range n).map .join)

/-- The call begins: `_assert_not_closed` (lines 133-134), then the plan; `close` sets `closed` first
(line 102). -/
def Multi.begin (c : Multi S A V) (call : Call A) : Py (Multi S A V) := do
  if c.closed then throw .assertionError
  let p ← plan c.num call
  .ok { c with todo := p, got := [], closed := match call with | .close => true | _ => c.closed }

/-- The parent's next action: `send` always succeeds, `recv` waits for a reply, `join` for the exit
(multiprocess_vector_env.py:68-128). -/
def Multi.parent (c : Multi S A V) : Option (Multi S A V) :=
  match c.todo with
  | [] => none
  | .send i cmd :: t =>
    let w := c.workers i
    some { c with todo := t, workers := Function.update c.workers i { w with inq := w.inq ++ [cmd] } }
  | .recv i :: t =>
    let w := c.workers i
    match w.outq with
    | [] => none
    | v :: q =>
      some { c with todo := t, got := c.got ++ [v], workers := Function.update c.workers i { w with outq := q } }
  | .join i :: t => if (c.workers i).exited then some { c with todo := t } else none

/-- Who moves next (multiprocess_vector_env.py:12-38, 68-128). -/
inductive Who where
  | parent
  | worker (i : Nat)

/-- One move; `none`: the chosen process cannot move (multiprocess_vector_env.py:12-38, 68-128). -/
def Multi.move (E : Env S A V) (c : Multi S A V) : Who → Option (Multi S A V)
  | .parent => c.parent
  | .worker i => if i < c.num then
      ((c.workers i).move E).map fun w => { c with workers := Function.update c.workers i w } else none

/-- A schedule (iterates multiprocess_vector_env.py:12-38, 68-128). -/
def Multi.moves (E : Env S A V) (c : Multi S A V) : List Who → Option (Multi S A V)
  | [] => some c
  | x :: l => (c.move E x).bind fun c' => c'.moves E l

/-- An exception in the middle of a call (`KeyboardInterrupt`): the rest of the call is dropped
(multiprocess_vector_env.py:68-128). -/
def Multi.interrupt (c : Multi S A V) : Multi S A V := { c with todo := [], got := [] }

/-! ## SerialVectorEnv -/

/-- `SerialVectorEnv.seed` (serial_vector_env.py:36-38): `zip` needs an iterable and stops with the shorter
one.  `none` as an environment's answer: it raises. -/
def serialSeed (E : Env S A V) (envs : List S) : SeedArg → Py (List (Option S))
  | .list l => .ok (((envs.zip l).map fun x => (E x.1 (.seed (some x.2))).map (·.1)) ++ (envs.drop l.length).map some)
  | _ => .error .typeError

/-- The attributes that the constructors take from the first environment: `SerialVectorEnv`
(serial_vector_env.py:19-21) and `MultiprocessVectorEnv` (lines 64-65, 73-77). -/
structure Attrs (V : Type) where
  actionSpace : V
  observationSpace : V
  spec : V

/-- serial_vector_env.py:19-21. -/
def serialAttrs (env : Attrs V) : Attrs V := ⟨env.actionSpace, env.observationSpace, env.observationSpace⟩

/-- multiprocess_vector_env.py:64-65 and 73-77. -/
def multiAttrs (env : Attrs V) : Attrs V := ⟨env.actionSpace, env.observationSpace, env.spec⟩

end Verif.VectorLife
