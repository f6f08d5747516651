import Mathlib.Algebra.Order.Field.Basic
import Mathlib.Algebra.Order.Group.Unbundled.Abs
set_option autoImplicit false

/-! # Specification: quantile Huber regression (https://arxiv.org/abs/1806.06923, eq. 3-4) -/

namespace Verif.IQN
variable {K : Type} [Field K] [LinearOrder K]

/-- The Huber loss of an error `u`. -/
def huberOf (kappa u : K) : K :=
  if |u| ≤ kappa then u * u / 2 else kappa * (|u| - kappa / 2)

/-- The paper's quantile Huber loss (times `kappa`) of a prediction `y` of the
`tau`-quantile and a target `t`: under-estimation (`y < t`) weighs `tau`,
over-estimation weighs `1 - tau`. -/
def paperLoss (kappa y t tau : K) : K :=
  (if t < y then 1 - tau else tau) * huberOf kappa (t - y)

end Verif.IQN
