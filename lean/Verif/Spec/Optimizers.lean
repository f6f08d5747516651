import Verif.Model.Optimizers
import Mathlib.Algebra.BigOperators.Group.Finset.Basic

/-!
Specification of RMSprop: the update written with the exponential average of the squared gradients.
-/

set_option autoImplicit false

namespace Verif.Optimizers
open Real

variable {ι : Type}

/-- One update for each of the given gradients, one after the other (a new gradient replaces the
old one). -/
noncomputable def updates (hp : Hyper) : List (ι → ℝ) → Param ι → Param ι
  | [], p => p
  | g :: gs, p => updates hp gs (updateCore hp { p with grad := some g })

/-- The exponential average of the squares of `gs`, the last one weighted `1 - alpha`, the one
before `(1 - alpha) * alpha` and so on. -/
noncomputable def meanSquare (alpha : ℝ) (gs : List (ι → ℝ)) (i : ι) : ℝ :=
  ∑ j ∈ Finset.range gs.length, (1 - alpha) * alpha ^ (gs.length - 1 - j) * ((gs[j]?.map fun g => g i ^ 2).getD 0)

/-- The documented update ("the epsilon is outside the square root"). -/
noncomputable def documented (hp : Hyper) (gs : List (ι → ℝ)) (g x : ι → ℝ) (i : ι) : ℝ :=
  x i - hp.lr * g i / (sqrt (meanSquare hp.alpha (gs ++ [g]) i) + hp.eps)

end Verif.Optimizers
