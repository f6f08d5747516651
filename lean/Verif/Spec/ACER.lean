import Verif.Model.ACER
set_option autoImplicit false

/-! # Specification: ACER (C52, C72, C73) -/

namespace Verif.ACER
variable {K : Type} [Field K]

/-- Two lists of arrays have the same shapes. -/
def SameShape (a b : List (List K)) : Prop := a.map List.length = b.map List.length

/-- The inner product of two lists of arrays, seen as two long vectors. -/
def inner (a b : List (List K)) : K := (List.zipWith (· * ·) a.flatten b.flatten).sum

/-- The squared distance of two lists of arrays. -/
def dist2 (a b : List (List K)) : K :=
  (List.zipWith (fun x y => (x - y) ^ 2) a.flatten b.flatten).sum

/-- The temporal difference errors `r_j + gamma V(x_{j+1}) - Q(x_j, a_j)`; the value
after the last step is `R`. -/
def tdErrors (gamma R : K) : List (Step K) → List K
  | [] => []
  | [s] => [s.r + gamma * R - s.q]
  | s :: s' :: ss => (s.r + gamma * s'.v - s.q) :: tdErrors gamma R (s' :: ss)

/-- `sum_{j >= 0} gamma^j (prod_{1 <= l <= j} c_l) d_j`: the discounted sum of `ds` in which
the `j`-th term is cut by the trace coefficients `cs` after the first. -/
def traced (gamma : K) (cs ds : List K) : K :=
  ((List.range ds.length).map
    (fun j => gamma ^ j * ((cs.drop 1).take j).prod * ds.getD j 0)).sum

end Verif.ACER
