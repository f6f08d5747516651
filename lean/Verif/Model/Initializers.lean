import Mathlib.Data.Real.Basic
import Mathlib.Data.Real.Sign
import Mathlib.LinearAlgebra.Matrix.Notation
import Verif.Model.Py
set_option autoImplicit false

/-!
# Model of the orthogonal initializer (`chainerrl/initializers/orthogonal.py`)

An array with more than two axes is the matrix of its reshaped form (first axis by the product of the others).  Real
numbers; the random matrix and numpy's QR decomposition are arguments.
-/

namespace Verif.Init

open Matrix

/-- orthogonal.py lines 19-24. -/
inductive Mode where
  | auto | projection | embedding | basis

/-- Lines 19-24: (assert embedding, assert projection). -/
def Mode.checks : Mode → Bool × Bool
  | .auto => (false, false)
  | .projection => (false, true)
  | .embedding => (true, false)
  | .basis => (true, true)

noncomputable section

/-- `numpy.copysign` (no negative zeros) (orthogonal.py:101). -/
def copysign (x y : ℝ) : ℝ := if y < 0 then -|x| else |x|

/-- Line 101: `q *= numpy.copysign(self.scale, numpy.diag(r))` (orthogonal.py:101). -/
def scaledColumns {m n : Nat} (scale : ℝ) (q : Matrix (Fin m) (Fin n) ℝ) (r : Matrix (Fin n) (Fin n) ℝ) :
    Matrix (Fin m) (Fin n) ℝ := Matrix.of fun i j => q i j * copysign scale (r j j)

/-- Lines 86-104 for an array of `outDim` rows and `inDim` columns; `qr` is `numpy.linalg.qr` for matrices with at least
as many rows as columns, `a` the random matrix. -/
def orthogonal (mode : Mode) (scale : ℝ) (outDim inDim : Nat) (a : Matrix (Fin outDim) (Fin inDim) ℝ)
    (qr : ∀ m n : Nat, Matrix (Fin m) (Fin n) ℝ → Matrix (Fin m) (Fin n) ℝ × Matrix (Fin n) (Fin n) ℝ) :
    Py (Matrix (Fin outDim) (Fin inDim) ℝ) :=
  if outDim = 0 ∨ inDim = 0 then .error .valueError
  else if (inDim > outDim ∧ mode.checks.1 = true) ∨ (inDim < outDim ∧ mode.checks.2 = true) then .error .valueError
  else if inDim > outDim then
    let f := qr inDim outDim a.transpose
    .ok (scaledColumns scale f.1 f.2).transpose
  else
    let f := qr outDim inDim a
    .ok (scaledColumns scale f.1 f.2)

end

end Verif.Init
