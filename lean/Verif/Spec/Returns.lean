import Mathlib.Algebra.Ring.Defs
set_option autoImplicit false

/-! # Specification: discounted returns -/

namespace Verif

/-- The discounted sum `r₀ + γ (r₁ + γ (r₂ + …))`. -/
def discounted {R : Type _} [Semiring R] (gamma : R) : List R → R
  | [] => 0
  | r :: rs => r + gamma * discounted gamma rs

end Verif
