import Mathlib.Algebra.Order.Field.Basic
import Mathlib.Data.Matrix.Mul
import Verif.Model.Py
set_option autoImplicit false

/-! # Model: numeric functions

`chainerrl/functions/lower_triangular_matrix.py`, `chainerrl/action_value.py` 237-322,
`chainerrl/functions/invert_gradients.py`, `chainerrl/experiments/hooks.py`.  Arithmetic is
exact; the CPU code paths are modelled. -/

namespace Verif.Numeric

/-! ## Lower triangular matrices -/

section Tril
variable {K : Type} [Zero K]

/-- A square matrix, as a function of row and column (lower_triangular_matrix.py:125-150, action_value.py:237-271). -/
abbrev Mat (K : Type) := Nat → Nat → K

/-- `np.tril_indices(n, -1)`: positions below the diagonal, row by row (lower_triangular_matrix.py:77-88). -/
def trilIndices (n : Nat) : List (Nat × Nat) :=
  (List.range n).flatMap fun i => (List.range i).map fun j => (i, j)

/-- `np.diag_indices(n)` (lower_triangular_matrix.py:9-21). -/
def diagIndices (n : Nat) : List (Nat × Nat) := (List.range n).map fun i => (i, i)

/-- Assign one element (lower_triangular_matrix.py:16-21, 84-88). -/
def assign (m : Mat K) (e : (Nat × Nat) × K) : Mat K :=
  fun i j => if i = e.1.1 ∧ j = e.1.2 then e.2 else m i j

/-- `array[rows, cols] = val` (lower_triangular_matrix.py:20, 88); broadcasting of a single
value is not modelled. -/
def setAt (m : Mat K) (idx : List (Nat × Nat)) (val : List K) : Py (Mat K) :=
  if idx.length = val.length then .ok ((idx.zip val).foldl assign m) else .error .valueError

/-- `array[rows, cols]` (lower_triangular_matrix.py:13, 81). -/
def getAt (m : Mat K) (idx : List (Nat × Nat)) : List K := idx.map fun e => m e.1 e.2

/-- `LowerTriangularMatrix.forward` for one batch element (lower_triangular_matrix.py:135-143). -/
def lowerTriangular (diag nonDiag : List K) : Py (Mat K) := do
  let y : Mat K := fun _ _ => 0
  let y ← setAt y (trilIndices diag.length) nonDiag
  setAt y (diagIndices diag.length) diag

/-- `LowerTriangularMatrix.backward` for one batch element (lower_triangular_matrix.py:145-150). -/
def lowerTriangularBackward (n : Nat) (gy : Mat K) : List K × List K :=
  (getAt gy (diagIndices n), getAt gy (trilIndices n))

end Tril

/-! ## Quadratic action values -/

section Quadratic
variable {K : Type} [Field K] [LinearOrder K] {n : Nat}

/-- `QuadraticActionValue` for one batch element (action_value.py:256-270). -/
structure Quadratic (K : Type) (n : Nat) where
  mu : Fin n → K
  mat : Matrix (Fin n) (Fin n) K
  v : K
  minAction : Option (Fin n → K)
  maxAction : Option (Fin n → K)

/-- `F.maximum(min_action, a)` when there is a minimum (action_value.py:276-278). -/
def clipLow (lo : Option (Fin n → K)) (a : Fin n → K) : Fin n → K :=
  match lo with
  | some l => fun i => max (l i) (a i)
  | none => a

/-- `F.minimum(max_action, a)` when there is a maximum (action_value.py:279-281). -/
def clipHigh (hi : Option (Fin n → K)) (a : Fin n → K) : Fin n → K :=
  match hi with
  | some h => fun i => min (h i) (a i)
  | none => a

/-- `greedy_actions` (action_value.py:272-282). -/
def Quadratic.greedy (q : Quadratic K n) : Fin n → K := clipHigh q.maxAction (clipLow q.minAction q.mu)

/-- `evaluate_actions` (action_value.py:292-298). -/
def Quadratic.evaluate (q : Quadratic K n) (u : Fin n → K) : K :=
  -(1 / 2) * (Matrix.vecMul (u - q.mu) q.mat ⬝ᵥ (u - q.mu)) + q.v

/-- `max` (action_value.py:284-290). -/
def Quadratic.max (q : Quadratic K n) : K :=
  if q.minAction.isNone && q.maxAction.isNone then q.v else q.evaluate q.greedy

/-- `compute_advantage` (action_value.py:300-301). -/
def Quadratic.advantage (q : Quadratic K n) (u : Fin n → K) : K := q.evaluate u - q.max

end Quadratic

/-! ## Inverting gradients, linear interpolation -/

section Small
variable {K : Type} [Field K] [LinearOrder K]

/-- `InvertGradients.backward` for one element (invert_gradients.py:28-37). -/
def invertGradient (lo hi x gy : K) : K :=
  let increasing : K := if gy < 0 then 1 else 0
  gy * ((hi - x) / (hi - lo) * increasing + (x - lo) / (hi - lo) * (1 - increasing))

/-- `np.interp(x, [x0, x1], [y0, y1])`: constant outside, the last point at and beyond
`x1`, linear between (called in hooks.py:55-57). -/
def interp2 (x x0 x1 y0 y1 : K) : K :=
  if x1 < x then y1
  else if x < x0 then y0
  else if x1 ≤ x then y1
  else if x0 = x then y0
  else (y1 - y0) / (x1 - x0) * (x - x0) + y0

/-- The value `LinearInterpolationHook` passes to its setter (hooks.py:54-58). -/
def hookValue (totalSteps : Nat) (start stop : K) (step : Nat) : K :=
  interp2 (step : K) 1 (totalSteps : K) start stop

end Small

end Verif.Numeric
