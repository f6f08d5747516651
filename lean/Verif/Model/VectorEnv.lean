set_option autoImplicit false

/-!
# Models of `chainerrl/envs/serial_vector_env.py` and `multiprocess_vector_env.py`

An environment is a deterministic machine: its random numbers are part of its
state `S`, and environments of different kinds are one `Env` whose state says
which kind it is.  `step` returns an observation and the rest `I` (reward, done,
info).  Exceptions in environments, seeding, `spec` and `close` are not modelled.
-/

namespace Verif.VectorEnv

/-- The environments of serial_vector_env.py:16-21. -/
structure Env (S O A I : Type) where
  reset : S → S × O
  step : S → A → S × (O × I)

/-- A call on the vector environment; `reset none` is `reset()` (serial_vector_env.py:23, 28). -/
inductive Op (A : Type) where
  | step (actions : List A)
  | reset (mask : Option (List Bool))

/-- What a call returns (an observation is `None` before the first reset) (serial_vector_env.py:23-34). -/
inductive Out (O I : Type) where
  | step (outs : List (O × I))
  | reset (obs : List (Option O))
  deriving DecidableEq

variable {S O A I : Type}

/-- `if mask is None: mask = np.zeros(self.num_envs)`
(serial_vector_env.py lines 29-30, multiprocess_vector_env.py lines 89-90). -/
def maskOf (n : Nat) : Option (List Bool) → List Bool
  | none => List.replicate n false
  | some m => m

/-! ## SerialVectorEnv -/

/-- serial_vector_env.py lines 16-18. -/
structure Serial (S O : Type) where
  envs : List S
  last : List (Option O)
  deriving DecidableEq

/-- Line 18 (serial_vector_env.py:18). -/
def Serial.init (envs : List S) : Serial S O := ⟨envs, List.replicate envs.length none⟩

/-- Line 24 (serial_vector_env.py:24). -/
def stepAll (dyn : Env S O A I) (envs : List S) (actions : List A) : List (S × (O × I)) :=
  (envs.zip actions).map fun x => dyn.step x.1 x.2

/-- Lines 23-26.  Environments without an action are not stepped. -/
def Serial.step (dyn : Env S O A I) (v : Serial S O) (actions : List A) : Serial S O × Out O I :=
  let results := stepAll dyn v.envs actions
  (⟨results.map (·.1) ++ v.envs.drop actions.length, results.map fun r => some r.2.1⟩,
    .step (results.map (·.2)))

/-- Lines 31-32: one environment: its state and observation. -/
def resetOne (dyn : Env S O A I) (m : Bool) (s : S) (o : Option O) : S × Option O :=
  if m then (s, o) else ((dyn.reset s).1, some (dyn.reset s).2)

/-- Lines 31-32. -/
def resetAll (dyn : Env S O A I) (mask : List Bool) (envs : List S) (last : List (Option O)) :
    List (S × Option O) :=
  (mask.zip (envs.zip last)).map fun x => resetOne dyn x.1 x.2.1 x.2.2

/-- Lines 28-34. -/
def Serial.reset (dyn : Env S O A I) (v : Serial S O) (mask : Option (List Bool)) :
    Serial S O × Out O I :=
  let results := resetAll dyn (maskOf v.envs.length mask) v.envs v.last
  (⟨results.map (·.1) ++ v.envs.drop results.length, results.map (·.2)⟩, .reset (results.map (·.2)))

/-- serial_vector_env.py:23-34. -/
def Serial.call (dyn : Env S O A I) (v : Serial S O) : Op A → Serial S O × Out O I
  | .step actions => v.step dyn actions
  | .reset mask => v.reset dyn mask

/-- A sequence of calls (iterates serial_vector_env.py:23-34). -/
def Serial.run (dyn : Env S O A I) : Serial S O → List (Op A) → Serial S O × List (Out O I)
  | v, [] => (v, [])
  | v, op :: ops =>
    let r := v.call dyn op
    let rs := Serial.run dyn r.1 ops
    (rs.1, r.2 :: rs.2)

/-! ## MultiprocessVectorEnv -/

/-- A command in a pipe (multiprocess_vector_env.py lines 82, 93). -/
inductive Cmd (A : Type) where
  | step (a : A)
  | reset

/-- A reply in a pipe (lines 21, 24). -/
inductive Reply (O I : Type) where
  | out (o : O × I)
  | obs (o : O)

/-- A worker process and the two directions of its pipe, oldest first (multiprocess_vector_env.py:12-38, 57-62). -/
structure Worker (S O A I : Type) where
  env : S
  inq : List (Cmd A)
  outq : List (Reply O I)

/-- What the parent does next in the current call (multiprocess_vector_env.py:79-98). -/
inductive Act (A : Type) where
  /-- `remote.send(cmd)` on the i-th pipe -/
  | send (i : Nat) (c : Cmd A)
  /-- `remote.recv()` on the i-th pipe -/
  | recv (i : Nat)
  /-- take `self.last_obs[i]` (line 95, `else o`) -/
  | keep (i : Nat)

/-- What the parent has got in the current call (multiprocess_vector_env.py:79-98). -/
inductive Got (O I : Type) where
  | reply (r : Reply O I)
  | kept (o : Option O)

/-- multiprocess_vector_env.py:48-66. -/
structure Multi (S O A I : Type) where
  workers : List (Worker S O A I)
  last : List (Option O)
  todo : List (Act A)
  got : List (Got O I)

/-- Lines 48-66; every worker has its environment and empty pipes. -/
def Multi.init (envs : List S) : Multi S O A I :=
  ⟨envs.map fun s => ⟨s, [], []⟩, List.replicate envs.length none, [], []⟩

/-- Lines 81-83: send to as many as there are actions, receive from all. -/
def stepPlan (n : Nat) (actions : List A) : List (Act A) :=
  ((List.range n).zip actions).map (fun x => .send x.1 (.step x.2)) ++ (List.range n).map .recv

/-- Lines 91-96. -/
def resetPlan (n : Nat) (mask : List Bool) : List (Act A) :=
  (((List.range n).zip mask).filter (fun x => !x.2)).map (fun x => .send x.1 .reset) ++
    ((List.range n).zip mask).map fun x => if x.2 then .keep x.1 else .recv x.1

/-- The parent's side of a call (multiprocess_vector_env.py:79-98). -/
def plan (n : Nat) : Op A → List (Act A)
  | .step actions => stepPlan n actions
  | .reset mask => resetPlan n (maskOf n mask)

/-- Lines 18-24: the worker handles a command. -/
def handle (dyn : Env S O A I) (s : S) : Cmd A → S × Reply O I
  | .step a => ((dyn.step s a).1, .out (dyn.step s a).2)
  | .reset => ((dyn.reset s).1, .obs (dyn.reset s).2)

/-- Lines 17-24: one round of the worker's loop; blocked on an empty pipe. -/
def Worker.move (dyn : Env S O A I) (w : Worker S O A I) : Option (Worker S O A I) :=
  match w.inq with
  | [] => none
  | c :: q => some ⟨(handle dyn w.env c).1, q, w.outq ++ [(handle dyn w.env c).2]⟩

/-- Who moves next: the scheduler's choice (multiprocess_vector_env.py:12-38, 79-98). -/
inductive Who where
  | parent
  | worker (i : Nat)

/-- The parent's next action; `recv` blocks on an empty pipe (multiprocess_vector_env.py:79-98). -/
def Multi.parent (c : Multi S O A I) : Option (Multi S O A I) :=
  match c.todo with
  | [] => none
  | .send i cmd :: t =>
    some { c with todo := t, workers := c.workers.modify i fun w => { w with inq := w.inq ++ [cmd] } }
  | .keep i :: t => some { c with todo := t, got := c.got ++ [.kept ((c.last[i]?).getD none)] }
  | .recv i :: t =>
    match c.workers[i]? with
    | none => none
    | some w =>
      match w.outq with
      | [] => none
      | r :: q =>
        some { c with todo := t, got := c.got ++ [.reply r], workers := c.workers.set i { w with outq := q } }

/-- One move; `none`: the chosen process cannot move (multiprocess_vector_env.py:12-38, 79-98). -/
def Multi.move (dyn : Env S O A I) (c : Multi S O A I) : Who → Option (Multi S O A I)
  | .parent => c.parent
  | .worker i =>
    match c.workers[i]? with
    | none => none
    | some w => (w.move dyn).map fun w' => { c with workers := c.workers.set i w' }

/-- A schedule: every move is possible when it is made (iterates multiprocess_vector_env.py:12-38, 79-98). -/
def Multi.moves (dyn : Env S O A I) (c : Multi S O A I) : List Who → Option (Multi S O A I)
  | [] => some c
  | x :: l =>
    match c.move dyn x with
    | none => none
    | some c' => c'.moves dyn l

/-- The observation in what was got (multiprocess_vector_env.py:84-98). -/
def Got.obs : Got O I → Option O
  | .reply (.out o) => some o.1
  | .reply (.obs o) => some o
  | .kept o => o

/-- `(ob, reward, done, info)` of a reply to `step` (multiprocess_vector_env.py:83-85). -/
def Got.out : Got O I → Option (O × I)
  | .reply (.out o) => some o
  | _ => none

/-- Lines 84-85 and 97-98: the call's result, from what was got. -/
def outOf (op : Op A) (got : List (Got O I)) : Out O I :=
  match op with
  | .step _ => .step (got.filterMap Got.out)
  | .reset _ => .reset (got.map Got.obs)

/-- The call begins (multiprocess_vector_env.py:79, 87). -/
def Multi.begin (c : Multi S O A I) (op : Op A) : Multi S O A I :=
  { c with todo := plan c.workers.length op, got := [] }

/-- The parent returns from the call if nothing is left to do (multiprocess_vector_env.py:85, 98). -/
def Multi.finish (c : Multi S O A I) (op : Op A) : Option (Multi S O A I × Out O I) :=
  match c.todo with
  | [] => some ({ c with last := c.got.map Got.obs, got := [] }, outOf op c.got)
  | _ :: _ => none

/-- A call under a schedule; `none`: the schedule is impossible or does not
finish the call (multiprocess_vector_env.py:79-98). -/
def Multi.call (dyn : Env S O A I) (c : Multi S O A I) (op : Op A) (sched : List Who) :
    Option (Multi S O A I × Out O I) :=
  match (c.begin op).moves dyn sched with
  | none => none
  | some c' => c'.finish op

/-- A sequence of calls, each with its schedule (iterates multiprocess_vector_env.py:79-98). -/
def Multi.run (dyn : Env S O A I) (c : Multi S O A I) :
    List (Op A × List Who) → Option (Multi S O A I × List (Out O I))
  | [] => some (c, [])
  | (op, sched) :: ops =>
    match c.call dyn op sched with
    | none => none
    | some r =>
      match Multi.run dyn r.1 ops with
      | none => none
      | some rs => some (rs.1, r.2 :: rs.2)

end Verif.VectorEnv
