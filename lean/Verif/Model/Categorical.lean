import Mathlib.Algebra.Order.Floor.Defs
import Mathlib.Algebra.Order.Field.Basic
import Verif.Model.Py
set_option autoImplicit false

/-! # Model: categorical projection

`chainerrl/agents/categorical_dqn.py`, lines 9-66.  Arithmetic is exact (the
code uses float32). -/

namespace Verif.Categorical
variable {K : Type} [Field K] [LinearOrder K] [FloorRing K]

/-- `xp.clip(x, lo, hi)` for one element: `minimum(maximum(x, lo), hi)` (categorical_dqn.py:33). -/
def clip (x lo hi : K) : K := min (max x lo) hi

/-- `bj` for one atom value (categorical_dqn.py:33, 36, 39). -/
def bj (vMin vMax dz : K) (n : Nat) (y : K) : K :=
  clip ((clip y vMin vMax - vMin) / dz) 0 (n - 1)

/-- One step of `np.add.at(a, idx, vals)` (categorical_dqn.py:49, 57, 62). -/
def addAt (a : List K) (iv : Int × K) : Py (List K) :=
  match pyIndex a.length iv.1 with
  | none => .error .indexError
  | some k => .ok (a.modify k (· + iv.2))

/-- `np.add.at(a, idx, vals)`: repeated indices accumulate (categorical_dqn.py:49, 57, 62). -/
def scatterAdd (a : List K) (ivs : List (Int × K)) : Py (List K) := ivs.foldlM addAt a

/-- The `ravel()`ed indices `(l + offset)` and values of one `scatter_add`, row by
row from row `r` (categorical_dqn.py:52-53, 57-60, 62-65).  `round` is `floor` or
`ceil`; `weight bj` multiplies the probability. -/
def flat (b : K → K) (round : K → Int) (weight : K → K) (n : Nat) :
    Nat → List (List K) → List (List K) → List (Int × K)
  | r, yr :: ys, pr :: ps =>
    List.zipWith (fun y p => (round (b y) + (r * n : Nat), p * weight (b y))) yr pr ++
      flat b round weight n (r + 1) ys ps
  | _, _, _ => []

/-- `z_probs` seen as `(batch_size, n_atoms)` again (categorical_dqn.py:51, 66). -/
def toRows (n : Nat) : Nat → List K → List (List K)
  | 0, _ => []
  | r + 1, a => a.take n :: toRows n r (a.drop n)

/-- `_apply_categorical_projection(y, y_probs, z)` (categorical_dqn.py:9-66).
Arrays are lists of rows. -/
def project (y p : List (List K)) (z : List K) : Py (List (List K)) :=
  pyAssert (y.all (fun r => r.length == z.length))
    (pyAssert (p.length == y.length && p.all (fun r => r.length == z.length)) do
      let z1 ← pyGet z 1
      let z0 ← pyGet z 0
      let vMax ← pyGet z (-1)
      let b := bj z0 vMax (z1 - z0) z.length
      let a ← scatterAdd (List.replicate (y.length * z.length) 0)
        (flat b Int.floor (fun x => 1 - (x - (Int.floor x : K))) z.length 0 y p)
      let a ← scatterAdd a
        (flat b Int.ceil (fun x => x - (Int.floor x : K)) z.length 0 y p)
      pure (toRows z.length y.length a))

end Verif.Categorical
