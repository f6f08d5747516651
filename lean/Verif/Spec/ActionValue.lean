import Mathlib.Order.Bounds.Basic
set_option autoImplicit false

/-! # Specification: maxima of rows of action values -/

namespace Verif

/-- `v` is the largest number of the list. -/
def IsMaxOf {K : Type} [LinearOrder K] (v : K) (l : List K) : Prop := v ∈ l ∧ ∀ x ∈ l, x ≤ v

end Verif
