import Mathlib.Algebra.Ring.Defs
import Verif.Model.Py
set_option autoImplicit false

/-! # Model: rollouts and returns of A3C and NSQ

`chainerrl/agents/a3c.py`, lines 156-292, and `chainerrl/agents/nsq.py`, lines
81-182.  Both keep the same book: dictionaries of past rewards and past network
outputs indexed by the step counter `t`, and an `update` over the steps
`t_start .. t-1`.  Not modelled: the gradient step itself (the pairs it is
computed from are the output here), the logger, the statistics, recurrent state,
and `use_average_reward=True` of A3C. -/

namespace Verif.NStepAgent
variable {X K : Type} [Semiring K]

/-- The agent's book.  `past` holds what the network returned for the action taken
at a step: `(past_action_log_prob, past_action_entropy, past_values)` of A3C
(a3c.py:133-139), `past_action_values` of NSQ (nsq.py:65-69).  Python dicts are
partial functions on integers. -/
structure St (X K : Type) where
  t : Nat
  tStart : Nat
  past : Int → Option X
  pastRewards : Int → Option K

/-- The book of a new agent (a3c.py:133-139, nsq.py:65-69). -/
def St.init : St X K := ⟨0, 0, fun _ => none, fun _ => none⟩

/-- `d[k] = v` (a3c.py:240-267, nsq.py:126-157). -/
def put {V : Type} (d : Int → Option V) (k : Int) (v : V) : Int → Option V :=
  fun i => if i = k then some v else d i

/-- `d[k]` (a3c.py:168-176, nsq.py:90-110). -/
def look {V : Type} (d : Int → Option V) (k : Int) : Py V :=
  match d k with
  | some v => .ok v
  | none => .error .keyError

/-- The loop `for i in reversed(range(t_start, t))` (a3c.py:168-188, nsq.py:92-99),
`n` steps down from `t_start + n - 1`: the pairs (network output, return target `R`)
in the order in which they enter the loss. -/
def loop (gamma : K) (s : St X K) : Nat → K → Py (List (X × K))
  | 0, _ => .ok []
  | n + 1, R => do
    let r ← look s.pastRewards (s.tStart + n)
    let R' := R * gamma + r
    let x ← look s.past (s.tStart + n)
    let rest ← loop gamma s n R'
    pure ((x, R') :: rest)

/-- `update(statevar)` (a3c.py:156-238, nsq.py:81-124).  `boot` is `none` for
`statevar is None` and else the value the network gives to the state: `vout` of
the model in A3C (a3c.py:162-164), the maximum of the target network in NSQ
(nsq.py:88-89). -/
def update (gamma : K) (s : St X K) (boot : Option K) : Py (St X K × List (X × K)) :=
  pyAssert (decide (s.tStart < s.t)) do
    let items ← loop gamma s (s.t - s.tStart) (boot.getD 0)
    pure (⟨s.t, s.t, fun _ => none, fun _ => none⟩, items)

/-- One call of the agent.  `act` is `act_and_train(obs, reward)`; `boot` is the
value of `obs` used if the call updates, and `x` what the network returns for the
selected action.  `stop` is `stop_episode_and_train(state, reward, done)` with
`boot` the value of `state`; `stopEval` is `stop_episode()` and `actEval` is
`act(obs)` (a3c.py:240, 279, nsq.py:126, 165). -/
inductive Call (X K : Type) where
  | act (reward : K) (boot : K) (x : X)
  | stop (reward : K) (done : Bool) (boot : K)
  | actEval
  | stopEval

/-- The update inside `act_and_train` (a3c.py:246-247, nsq.py:132-133). -/
def maybeUpdate (gamma : K) (tMax : Nat) (s : St X K) (boot : K) :
    Py (St X K × List (List (X × K))) :=
  if s.t - s.tStart = tMax then do
    let r ← update gamma s (some boot)
    pure (r.1, [r.2])
  else pure (s, [])

/-- One call: the new book and the updates made (a3c.py:240-292, nsq.py:126-182). -/
def step (gamma : K) (tMax : Nat) (s : St X K) : Call X K → Py (St X K × List (List (X × K)))
  | .act reward boot x => do
    let s := { s with pastRewards := put s.pastRewards (s.t - 1) reward }
    let r ← maybeUpdate gamma tMax s boot
    pure ({ r.1 with past := put r.1.past r.1.t x, t := r.1.t + 1 }, r.2)
  | .stop reward done boot => do
    let s := { s with pastRewards := put s.pastRewards (s.t - 1) reward }
    let r ← update gamma s (if done then none else some boot)
    pure (r.1, [r.2])
  | .actEval => pure (s, [])
  | .stopEval => pure (s, [])

/-- A sequence of calls: the updates in order (iterates a3c.py:240-288, nsq.py:126-176). -/
def run (gamma : K) (tMax : Nat) : St X K → List (Call X K) → Py (St X K × List (List (X × K)))
  | s, [] => .ok (s, [])
  | s, c :: cs => do
    let r ← step gamma tMax s c
    let r' ← run gamma tMax r.1 cs
    pure (r'.1, r.2 ++ r'.2)

end Verif.NStepAgent
