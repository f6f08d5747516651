import Mathlib.Algebra.Order.Field.Basic
import Mathlib.Algebra.Order.Group.Unbundled.Abs
set_option autoImplicit false

/-! # Specification: the projection of Bellemare et al., equation 7 -/

namespace Verif.Categorical
variable {K : Type} [Field K] [LinearOrder K]

/-- The evenly spaced support `vMin, vMin + dz, ...` of `n` atoms. -/
def support (vMin dz : K) (n : Nat) : List K := (List.range n).map (fun (i : Nat) => vMin + i * dz)

/-- `y` moved into the range of the support. -/
def clipped (vMin dz : K) (n : Nat) (y : K) : K := max vMin (min (vMin + (n - 1) * dz) y)

/-- The share of a unit mass at `y` that goes to atom `m`: a triangular kernel of
width `dz` around the atom. -/
def share (vMin dz : K) (n : Nat) (y : K) (m : Nat) : K :=
  max 0 (1 - |clipped vMin dz n y - (vMin + m * dz)| / dz)

/-- The projection of one row: equation 7 of https://arxiv.org/abs/1707.06887. -/
def paperRow (vMin dz : K) (n : Nat) (yr pr : List K) : List K :=
  (List.range n).map (fun m => (List.zipWith (fun y p => p * share vMin dz n y m) yr pr).sum)

end Verif.Categorical
