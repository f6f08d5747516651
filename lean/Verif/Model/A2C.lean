import Mathlib.Algebra.Ring.Defs
import Verif.Model.Py
set_option autoImplicit false

/-! # Model: rollout storage and returns of A2C

`chainerrl/agents/a2c.py`, lines 136-276, for one process: every operation of the
code on the storage arrays is elementwise in the process dimension, so the model
follows one column of them.  Not modelled: states and actions (only stored and fed
to the network), the losses computed from the returns, statistics. -/

namespace Verif.A2C
variable {K : Type} [Ring K]

/-- The storage arrays (a2c.py:146-153), one column. -/
structure Store (K : Type) where
  rewards : List K
  values : List K
  returns : List K
  masks : List K

/-- `_flush_storage` (a2c.py:136-156). -/
def flush (n : Nat) : Store K :=
  ⟨List.replicate n 0, List.replicate (n + 1) 0, List.replicate (n + 1) 0, List.replicate n 1⟩

/-- The loop of the GAE branch (a2c.py:162-167), from index `i - 1` down to 0. -/
def gaeLoop (gamma tau : K) (st : Store K) : Nat → K → List K → List K
  | 0, _, ret => ret
  | i + 1, gae, ret =>
    let delta := st.rewards.getD i 0 + gamma * st.values.getD (i + 1) 0 * st.masks.getD i 0
      - st.values.getD i 0
    let gae' := delta + gamma * tau * st.masks.getD i 0 * gae
    gaeLoop gamma tau st i gae' (ret.set i (gae' + st.values.getD i 0))

/-- The loop of the other branch (a2c.py:170-172). -/
def retLoop (gamma : K) (st : Store K) : Nat → List K → List K
  | 0, ret => ret
  | i + 1, ret =>
    retLoop gamma st i (ret.set i (st.rewards.getD i 0 + gamma * ret.getD (i + 1) 0 * st.masks.getD i 0))

/-- `_compute_returns(next_value)` (a2c.py:158-172); `n` is `update_steps`, `tau`
is `none` for `use_gae=False`. -/
def computeReturns (gamma : K) (tau : Option K) (n : Nat) (next : K) (st : Store K) : Store K :=
  match tau with
  | some tau =>
    let st := { st with values := st.values.set n next }
    { st with returns := gaeLoop gamma tau st n 0 st.returns }
  | none => { st with returns := retLoop gamma st n (st.returns.set n next) }

/-- The agent (a2c.py:128-129); the storage exists from the first action on. -/
structure St (K : Type) where
  t : Nat
  tStart : Nat
  store : Option (Store K)

/-- A new agent (a2c.py:112-134). -/
def St.init : St K := ⟨0, 0, none⟩

/-- `update()` (a2c.py:174-206): `next` is the value the model gives to
`states[-1]`; the output is `returns[:-1]`, which the losses are computed from. -/
def update (gamma : K) (tau : Option K) (n : Nat) (next : K) (s : St K) (st : Store K) :
    St K × List K :=
  let st := computeReturns gamma tau n next st
  (⟨s.t, s.t, some st⟩, st.returns.take n)

/-- The update check (a2c.py:231-232, 271-272). -/
def maybeUpdate (gamma : K) (tau : Option K) (n : Nat) (next : K) (s : St K) (st : Store K) :
    St K × List (List K) :=
  if s.t - s.tStart = n then
    let r := update gamma tau n next s st
    (r.1, [r.2])
  else (⟨s.t, s.tStart, some st⟩, [])

/-- One call. `act` is `batch_act_and_train` with `value` the model's value of the
observation; `observe` is `batch_observe_and_train`; `next` is the model's value of
the observation if the call makes an update (the methods of a2c.py:219-244, 253-272). -/
inductive Call (K : Type) where
  | act (value next : K)
  | observe (reward : K) (done reset : Bool) (next : K)

/-- The storage used by `batch_act_and_train`: a new one at `t = 0` (a2c.py:223-227). -/
def actStore (n : Nat) (s : St K) : Py (Store K) :=
  if s.t = 0 then .ok (flush n)
  else match s.store with
    | some st => .ok st
    | none => .error .attributeError

/-- The storage used by `batch_observe_and_train` (a2c.py:253-272). -/
def getStore (s : St K) : Py (Store K) :=
  match s.store with
  | some st => .ok st
  | none => .error .attributeError

/-- The storage after an update check (a2c.py:136-156, 231-232). -/
def afterStore (s : St K) : Store K := s.store.getD ⟨[], [], [], []⟩

/-- One call (a2c.py:219-244 and 253-272). -/
def step (gamma : K) (tau : Option K) (n : Nat) (s : St K) : Call K → Py (St K × List (List K))
  | .act value next => do
    let st ← actStore n s
    let r := maybeUpdate gamma tau n next s st
    let st := afterStore r.1
    let vals ← pySet st.values ((r.1.t : Int) - r.1.tStart) value
    pure (⟨r.1.t + 1, r.1.tStart, some { st with values := vals }⟩, r.2)
  | .observe reward done reset next => do
    let st ← getStore s
    let masks ← pySet st.masks ((s.t : Int) - s.tStart - 1) (if done || reset then 0 else 1)
    let rewards ← pySet st.rewards ((s.t : Int) - s.tStart - 1) reward
    pure (maybeUpdate gamma tau n next s { st with masks := masks, rewards := rewards })

/-- A sequence of calls: the return arrays of the updates, in order (iterates the calls of a2c.py:219-272). -/
def run (gamma : K) (tau : Option K) (n : Nat) : St K → List (Call K) → Py (St K × List (List K))
  | s, [] => .ok (s, [])
  | s, c :: cs => do
    let r ← step gamma tau n s c
    let r' ← run gamma tau n r.1 cs
    pure (r'.1, r.2 ++ r'.2)

end Verif.A2C
