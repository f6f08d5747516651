import Mathlib.Analysis.SpecialFunctions.Exp
import Mathlib.Analysis.SpecialFunctions.Trigonometric.Basic
import Verif.Model.ActionValue
import Verif.Model.NumericFns

/-!
Model of the last layers of the Q-functions in `/repo/chainerrl/q_functions/dueling_dqn.py` and
`/repo/chainerrl/q_functions/state_q_functions.py`: from the outputs of the linear layers to the action value, for one
batch element.  Numbers are real; the layers before are not modelled.
-/

set_option autoImplicit false

namespace Verif.QHeads
open Verif.Numeric

/-- `DuelingDQN.__call__` after the two streams (dueling_dqn.py:40-53): `ya` is the output of the advantage
stream, `ys` of the value stream; the `q_values` of the action value. -/
noncomputable def dueling (ya : List ℝ) (ys : ℝ) : List ℝ :=
  let mean := ya.sum / ya.length
  ya.map fun a => a - mean + ys

/-- `np.linspace(v_min, v_max, num=n_atoms)` (called in dueling_dqn.py:62-87, state_q_functions.py:103-117). -/
noncomputable def linspace (vMin vMax : ℝ) (n : Nat) : List ℝ :=
  (List.range n).map fun i : Nat => vMin + (i : ℝ) * ((vMax - vMin) / ((n : ℝ) - 1))

/-- The `z_values` made by the constructors of the distributional Q-functions (dueling_dqn.py:64-76;
state_q_functions.py:106-108). -/
noncomputable def zValues (vMin vMax : ℝ) (nAtoms : Nat) : Py (List ℝ) :=
  pyAssert (decide (2 ≤ nAtoms)) <| if vMin < vMax then .ok (linspace vMin vMax nAtoms) else .error .assertionError

/-- `F.softmax` along a row (called in dueling_dqn.py:89-112, state_q_functions.py:103-117). -/
noncomputable def softmaxRow (xs : List ℝ) : List ℝ :=
  xs.map fun x => Real.exp x / (xs.map Real.exp).sum

/-- `F.reshape(x, (-1, n_actions, n_atoms))` for one batch element
(called in dueling_dqn.py:89-112, state_q_functions.py:103-117). -/
def rows (nAtoms : Nat) : Nat → List ℝ → List (List ℝ)
  | 0, _ => []
  | nActions + 1, xs => xs.take nAtoms :: rows nAtoms nActions (xs.drop nAtoms)

/-- `DistributionalFCStateQFunctionWithDiscreteAction` after the last layer (state_q_functions.py:109-117): the
probabilities of the atoms, for each action. -/
noncomputable def distributional (nActions nAtoms : Nat) (out : List ℝ) : List (List ℝ) :=
  (rows nAtoms nActions out).map softmaxRow

/-- The mean over the actions, for each atom: `F.sum(ya, axis=1) / n_actions` (dueling_dqn.py:102). -/
noncomputable def atomMeans (nActions nAtoms : Nat) (ya : List (List ℝ)) : List ℝ :=
  (List.range nAtoms).map fun j => (ya.map fun row => row.getD j 0).sum / nActions

/-- `DistributionalDuelingDQN.__call__` after the streams (dueling_dqn.py:98-112). -/
noncomputable def distributionalDueling (nActions nAtoms : Nat) (aOut vOut : List ℝ) : List (List ℝ) :=
  let ya := rows nAtoms nActions aOut
  let mean := atomMeans nActions nAtoms ya
  let ya := ya.map fun row => List.zipWith (fun a m => a - m) row mean
  ya.map fun row => softmaxRow (List.zipWith (fun a s => a + s) row vOut)

/-- `scale_by_tanh` (state_q_functions.py:18-24). -/
noncomputable def scaleByTanh {n : Nat} (x low high : Fin n → ℝ) (i : Fin n) : ℝ :=
  Real.tanh (x i) * ((high i - low i) / 2) + (high i + low i) / 2

/-- `FCQuadraticStateQFunction.__call__` after the last layers (state_q_functions.py:197-213; the same code in
`FCBNQuadraticStateQFunction`): `mu`, `diag` and `nonDiag` are the outputs of these layers. -/
noncomputable def quadratic {n : Nat} (scaleMu : Bool) (low high : Fin n → ℝ) (v : ℝ) (mu : Fin n → ℝ)
    (diag nonDiag : List ℝ) : Py (Quadratic ℝ n) := do
  let mu := if scaleMu then scaleByTanh mu low high else mu
  let matDiag := diag.map Real.exp
  if 0 < n * (n - 1) / 2 then
    let tril ← lowerTriangular matDiag nonDiag
    .ok ⟨mu, fun i j => ((List.range n).map fun k => tril i k * tril j k).sum, v, some low, some high⟩
  else
    .ok ⟨mu, fun i _ => (matDiag.getD i 0) ^ 2, v, some low, some high⟩

end Verif.QHeads
