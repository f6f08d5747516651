import Mathlib.Data.Real.Sqrt
import Mathlib.Algebra.BigOperators.Fin
import Verif.Model.Py
set_option autoImplicit false

/-!
# Model of a call of `FactorizedNoisyLinear` (`chainerrl/links/noisy_linear.py` lines 52-79)

and of the initial noise scales (lines 34-41 with `chainerrl/initializers/constant.py`).  Real numbers, CPU code; the
standard normal draws are an argument.  The conversion of whole networks is `Model/Noisy.lean`.
-/

namespace Verif.NoisyLinear

noncomputable section

/-- The parameters of the links `mu` and `sigma` (lines 31-41); without a bias (`nobias`) the two last are not used. -/
structure Params (inSize outSize : Nat) where
  nobias : Bool
  muW : Fin outSize → Fin inSize → ℝ
  sigmaW : Fin outSize → Fin inSize → ℝ
  mub : Fin outSize → ℝ
  sigmab : Fin outSize → ℝ

/-- `xp.copysign(xp.sqrt(xp.abs(r)), r)`: line 56. -/
def noiseFn (r : ℝ) : ℝ := if r < 0 then -√|r| else √|r|

variable {n o : Nat}

/-- Line 72: `eps[:in_size]` (noisy_linear.py:72). -/
def epsX (z : Fin (n + o) → ℝ) (i : Fin n) : ℝ := noiseFn (z (Fin.castAdd o i))

/-- Line 73: `eps[in_size:]` (noisy_linear.py:73). -/
def epsY (z : Fin (n + o) → ℝ) (j : Fin o) : ℝ := noiseFn (z (Fin.natAdd n j))

/-- Line 74: `muladd(self.sigma.W, outer(eps_y, eps_x), self.mu.W)` (noisy_linear.py:74). -/
def weight (p : Params n o) (z : Fin (n + o) → ℝ) (j : Fin o) (i : Fin n) : ℝ :=
  p.sigmaW j i * (epsY z j * epsX z i) + p.muW j i

/-- Lines 75-79. -/
def bias (p : Params n o) (z : Fin (n + o) → ℝ) (j : Fin o) : ℝ :=
  if p.nobias then 0 else p.sigmab j * epsY z j + p.mub j

/-- Lines 71-79: a call with the rows `x` of a batch; `z` are the draws of line 55. -/
def call {m : Nat} (p : Params n o) (z : Fin (n + o) → ℝ) (x : Fin m → Fin n → ℝ) : Fin m → Fin o → ℝ :=
  fun k j => ∑ i, weight p z j i * x k i + bias p z j

/-- constant.py lines 11-20: the value an array of a given shape is filled with; `get_fans` refuses an array of no
axes, and the fan-in of the others is the size of all axes but the first.  The division by the root of a zero size is
not modelled (numpy gives an infinity, here 0). -/
def varianceScaling (scale : ℝ) : List Nat → Py ℝ
  | [] => .error .valueError
  | [k] => .ok (scale / √k)
  | _ :: k => .ok (scale / √(k.prod : ℕ))

/-- Lines 26-41: the noise scales of a new link: the weights' and the bias's. -/
def initialScales (scale : ℝ) (inSize outSize : Nat) : Py (ℝ × ℝ) := do
  let w ← varianceScaling scale [outSize, inSize]
  let b ← varianceScaling scale [outSize]
  pure (w, b)

end

end Verif.NoisyLinear
