import Mathlib.Algebra.Order.Field.Basic
import Mathlib.Data.Matrix.Mul
import Verif.Model.Py
set_option autoImplicit false

/-! # Model: conjugate gradient and the line search of TRPO

`chainerrl/misc/conjugate_gradient.py` and `chainerrl/agents/trpo.py`, lines 39-57 and
555-650.  Arithmetic is exact. -/

namespace Verif.TRPO

/-! ## Conjugate gradient -/

section CG
variable {K : Type} [Field K] [LinearOrder K] {n : Nat}

/-- `xp.linalg.norm(v) < tol` (conjugate_gradient.py:29), without the square root. -/
def normLt (v : Fin n → K) (tol : K) : Prop := 0 < tol ∧ v ⬝ᵥ v < tol * tol

instance (v : Fin n → K) (tol : K) : Decidable (normLt v tol) :=
  inferInstanceAs (Decidable (_ ∧ _))

/-- The loop (conjugate_gradient.py:25-34) for `k` more iterations.  A division by zero
makes every later value NaN or infinite: the result is then `none`. -/
def cgLoop (A : (Fin n → K) → (Fin n → K)) (tol : K) : Nat → (Fin n → K) → (Fin n → K) → (Fin n → K) →
    Option (Fin n → K)
  | 0, x, _, _ => some x
  | k + 1, x, r, p =>
    if A p ⬝ᵥ p = 0 then none
    else
      let a := (r ⬝ᵥ r) / (A p ⬝ᵥ p)
      let x := x + a • p
      let r1 := r - a • A p
      if normLt r1 tol then some x
      else if r ⬝ᵥ r = 0 then (if k = 0 then some x else none)
      else cgLoop A tol k x r1 (r1 + ((r1 ⬝ᵥ r1) / (r ⬝ᵥ r)) • p)

/-- `conjugate_gradient(A_product_func, b, tol, max_iter)` (conjugate_gradient.py:4-34). -/
def conjugateGradient (A : (Fin n → K) → (Fin n → K)) (b : Fin n → K) (tol : K) (maxIter : Nat) :
    Option (Fin n → K) :=
  cgLoop A tol maxIter 0 (b - A 0) (b - A 0)

end CG

/-! ## Line search -/

section LineSearch
variable {K : Type} [Field K] [LinearOrder K]

/-- A floating point number (as compared in trpo.py:619-635). -/
inductive Fl (K : Type) where
  | fin (x : K)
  | nan
  | pinf
  | ninf
deriving DecidableEq

/-- `xp.isfinite(x)` (trpo.py:623, 626). -/
def Fl.isFinite : Fl K → Bool
  | .fin _ => true
  | _ => false

/-- `x - y < 0` in IEEE arithmetic (trpo.py:619, 629). -/
def Fl.subNeg : Fl K → Fl K → Bool
  | .fin x, .fin y => decide (x - y < 0)
  | .fin _, .pinf => true
  | .ninf, .fin _ => true
  | .ninf, .pinf => true
  | _, _ => false

/-- `x > y` for a finite `y` (trpo.py:632). -/
def Fl.gt : Fl K → K → Bool
  | .fin x, y => decide (y < x)
  | .pinf, _ => true
  | _, _ => false

/-- A parameter array: shape, and elements in C order (trpo.py:19-57). -/
structure Arr (K : Type) where
  shape : List Nat
  data : List K
deriving DecidableEq

/-- `_flatten_and_concat_ndarrays` (trpo.py:39-42). -/
def flattenAll (ps : List (Arr K)) : List K := (ps.map Arr.data).flatten

/-- `v.reshape(shape)` (trpo.py:45-50). -/
def reshape (v : List K) (shape : List Nat) : Py (Arr K) :=
  if v.length = shape.prod then .ok ⟨shape, v⟩ else .error .valueError

/-- The pieces of `xp.split(flat_v, np.cumsum(sizes))` that start at `pos`, paired with the
shapes (trpo.py:48-50); the piece after the last section is dropped by `zip`. -/
def splitReshape (flat : List K) : Nat → List Nat → List (List Nat) → Py (List (Arr K))
  | pos, size :: sizes, shape :: shapes => do
    let v ← reshape ((flat.take (pos + size)).drop pos) shape
    let vs ← splitReshape flat (pos + size) sizes shapes
    pure (v :: vs)
  | _, _, _ => .ok []

/-- `_split_and_reshape_to_ndarrays` (trpo.py:45-50). -/
def splitAll (flat : List K) (sizes : List Nat) (shapes : List (List Nat)) : Py (List (Arr K)) :=
  splitReshape flat 0 sizes shapes

/-- `_replace_params_data` (trpo.py:53-57). -/
def replaceAll : List (Arr K) → List (Arr K) → Py (List (Arr K))
  | p :: ps, q :: qs => pyAssert (p.shape == q.shape) do
    let rest ← replaceAll ps qs
    pure ({ p with data := q.data } :: rest)
  | ps, _ => .ok ps

/-- What the line search does besides changing the parameters: the values appended to
`policy_step_size_record` and `kl_record` (trpo.py:636-643). -/
structure Outcome (K : Type) where
  params : List (Arr K)
  stepSize : K
  kl : Option (Fl K)

/-- The loop (trpo.py:599-650) for `k` more iterations.  `evaluate` gives the surrogate
objective and the KL divergence for given parameters (trpo.py:609-617), `gain` is the
objective of the old parameters. -/
def search (evaluate : List (Arr K) → Fl K × Fl K) (gain : Fl K) (maxKl : K) (flat step : List K)
    (sizes : List Nat) (shapes : List (List Nat)) : Nat → K → List (Arr K) → Py (Outcome K)
  | 0, _, params => do
    let old ← splitAll flat sizes shapes
    let params ← replaceAll params old
    pure ⟨params, 0, none⟩
  | k + 1, size, params => do
    let new ← splitAll (List.zipWith (fun p d => p + size * d) flat step) sizes shapes
    let params ← replaceAll params new
    let r := evaluate params
    if !r.1.isFinite then search evaluate gain maxKl flat step sizes shapes k (size * (1 / 2)) params
    else if !r.2.isFinite then search evaluate gain maxKl flat step sizes shapes k (size * (1 / 2)) params
    else if r.1.subNeg gain then search evaluate gain maxKl flat step sizes shapes k (size * (1 / 2)) params
    else if r.2.gt maxKl then search evaluate gain maxKl flat step sizes shapes k (size * (1 / 2)) params
    else pure ⟨params, size, some r.2⟩

/-- `_line_search` (trpo.py:555-650). -/
def lineSearch (evaluate : List (Arr K) → Fl K × Fl K) (gain : Fl K) (maxKl : K) (maxBacktrack : Nat)
    (step : List K) (params : List (Arr K)) : Py (Outcome K) :=
  search evaluate gain maxKl (flattenAll params) step (params.map (fun p => p.data.length))
    (params.map Arr.shape) (maxBacktrack + 1) 1 params

end LineSearch

end Verif.TRPO
