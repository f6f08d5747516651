import Verif.Model.Py
import Mathlib.Data.Real.Basic
import Mathlib.Algebra.BigOperators.Fin
set_option autoImplicit false

/-! # Model: the value heads of ACER's models

`chainerrl/agents/acer.py`, lines 110-157, and `SingleActionValue` (`chainerrl/action_value.py`, lines 324-362), for one row
of a batch.  Samples of the policy are arguments. -/

namespace Verif.SDN
open scoped BigOperators
noncomputable section
variable {A : Type}

/-- `evaluator(action)` of `ACERSDNSeparateModel.__call__` (acer.py:148-151); `samples` are the draws of `action_distrib.sample()` in this call.
Python's `sum` of nothing is the integer 0, and 0 / 0 raises. -/
def evaluator (n : Nat) (v : ℝ) (adv : A → ℝ) (samples : Fin n → A) (action : A) : Py ℝ :=
  if n = 0 then .error .zeroDivisionError
  else
    let advMean := (∑ i, adv (samples i)) / (n : ℝ)
    .ok (v + adv action - advMean)

/-- `compute_double_advantage` of `SingleActionValue` (action_value.py:348-350): the evaluator is called twice, each time with new draws. -/
def doubleAdvantage (n : Nat) (v : ℝ) (adv : A → ℝ) (samples samples' : Fin n → A) (action action' : A) : Py ℝ := do
  let q ← evaluator n v adv samples action
  let q' ← evaluator n v adv samples' action'
  pure (q - q')

/-- `greedy_actions` of `SingleActionValue` (action_value.py:331-334), and with it `max` and `compute_advantage`: ACER gives no
maximizer, and `None()` raises. -/
def greedy (maximizer : Option A) : Py A :=
  match maximizer with
  | none => .error .typeError
  | some a => .ok a

/-- `v` of `ACERSeparateModel.__call__` (acer.py:123-128), for actions `0, …, k - 1` with probabilities `p` and values `q`. -/
def discreteV {k : Nat} (p q : Fin k → ℝ) : ℝ := ∑ i, p i * q i

end
end Verif.SDN
