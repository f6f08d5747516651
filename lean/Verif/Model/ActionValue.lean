import Mathlib.Algebra.Field.Defs
import Mathlib.Algebra.Order.Ring.Defs
import Mathlib.Algebra.BigOperators.Group.List.Basic
set_option autoImplicit false

/-!
# Model of the discrete action values (`chainerrl/action_value.py:44-234`)

One row of the batch: every operation of these classes works row by row.  A row
of `q_values` is a list of numbers in a linearly ordered field instead of
floats.  numpy's `argmax` of an empty row and `select_item` with an index out of
range raise; here they give 0, and the theorems exclude these cases.
-/

namespace Verif.ActionValue
variable {K : Type} [Field K] [LinearOrder K]

/-- numpy's `argmax` along a row: scan from position `i`, the best value so far
being `bv` at `best`; a later value replaces it only when strictly larger
(`self.q_values.array.argmax(axis=1)`, action_value.py:60-62). -/
def argmaxFrom (best : Nat) (bv : K) : Nat → List K → Nat
  | _, [] => best
  | i, x :: xs => if bv < x then argmaxFrom i x (i + 1) xs else argmaxFrom best bv (i + 1) xs

/-- `action_value.py:60-62` (and `121-123`) `greedy_actions`. -/
def greedy : List K → Nat
  | [] => 0
  | x :: xs => argmaxFrom 0 x 1 xs

/-- `action_value.py:69-70` (and `142-143`) `evaluate_actions`: `F.select_item`. -/
def evaluate (q : List K) (a : Nat) : K := (q[a]?).getD 0

/-- `action_value.py:65-67` (and `126-128`) `max`. -/
def maxQ (q : List K) : K := evaluate q (greedy q)

/-- `action_value.py:72-73` (and `158-159`) `compute_advantage`. -/
def advantage (q : List K) (a : Nat) : K := evaluate q a - maxQ q

/-- `action_value.py:75-77` (and `161-163`) `compute_double_advantage`. -/
def doubleAdvantage (q : List K) (a argmaxA : Nat) : K := evaluate q a - evaluate q argmaxA

/-- `action_value.py:115`: the `q_values` of a `DistributionalDiscreteActionValue`
are the expectations of the atoms `z` under each action's probabilities. -/
def distQ (z : List K) (dist : List (List K)) : List K :=
  dist.map (fun p => (List.zipWith (· * ·) p z).sum)

/-- `action_value.py:131-140` `max_as_distribution`. -/
def maxAsDistribution (z : List K) (dist : List (List K)) : List K :=
  (dist[greedy (distQ z dist)]?).getD []

/-- `action_value.py:201-203`: the `q_values` of a `QuantileDiscreteActionValue`
are the means over the quantile thresholds; `quantiles[j]` is the row of action
values for the `j`-th threshold and `nActions` their number. -/
def quantileQ (nActions : Nat) (quantiles : List (List K)) : List K :=
  (List.range nActions).map (fun a =>
    (quantiles.map (fun row => (row[a]?).getD 0)).sum / (quantiles.length : K))

/-- `action_value.py:216-219` `evaluate_actions_as_quantiles`. -/
def evaluateQuantiles (quantiles : List (List K)) (a : Nat) : List K :=
  quantiles.map (fun row => (row[a]?).getD 0)

end Verif.ActionValue
