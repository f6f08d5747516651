import Mathlib.Algebra.Field.Defs
import Mathlib.Order.Defs.LinearOrder
import Verif.Model.Py
set_option autoImplicit false

/-!
# Model of `chainerrl/explorers/epsilon_greedy.py`

Epsilons are in a linearly ordered field instead of floats.  The uniform draw
of `np.random.rand()` is an input.
-/

namespace Verif.EpsGreedy
variable {A K : Type} [Field K] [LinearOrder K]

/-- The calls of user functions that a selection makes (epsilon_greedy.py:8-13). -/
inductive Call where
  | random | greedy
  deriving DecidableEq

/-- `epsilon_greedy.py:8-13`: action, greedy flag and the calls made, in order.
`rand` and `greedy` are the values the two functions would return. -/
def select (epsilon u : K) (rand greedy : A) : A × Bool × List Call :=
  if u < epsilon then (rand, false, [.random]) else (greedy, true, [.greedy])

/-- `epsilon_greedy.py:54-64`. -/
structure LinearDecay (K : Type) where
  start : K
  stop : K
  decaySteps : Nat
  deriving DecidableEq

/-- `epsilon_greedy.py:54-59`: the constructor's assertions. -/
def LinearDecay.mk? (start stop : K) (decaySteps : Int) : Py (LinearDecay K) :=
  if ¬ (start ≥ 0 ∧ start ≤ 1) then .error .assertionError
  else if ¬ (stop ≥ 0 ∧ stop ≤ 1) then .error .assertionError
  else if ¬ decaySteps ≥ 0 then .error .assertionError
  else .ok ⟨start, stop, decaySteps.toNat⟩

/-- `epsilon_greedy.py:66-71` `compute_epsilon`. -/
def LinearDecay.epsilon (c : LinearDecay K) (t : Nat) : Py K :=
  if t > c.decaySteps then .ok c.stop
  else if c.decaySteps = 0 then .error .zeroDivisionError
  else .ok (c.start + (c.stop - c.start) * ((t : K) / (c.decaySteps : K)))

/-- `epsilon_greedy.py:73-79` `select_action`. -/
def LinearDecay.selectAction (c : LinearDecay K) (t : Nat) (u : K) (rand greedy : A) :
    Py (A × Bool × List Call) :=
  match c.epsilon t with
  | .error e => .error e
  | .ok eps => .ok (select eps u rand greedy)

end Verif.EpsGreedy
