import Verif.Model.NumericFns
import Verif.Model.Functions
import Verif.Model.Optimizers
set_option autoImplicit false

/-!
# Model of ChainerRL's own GPU kernels

`chainerrl/functions/lower_triangular_matrix.py`, `sum_arrays.py`, `weighted_sum_arrays.py`, `mul_add.py`, `chainerrl/optimizers/rmsprop_async.py`.

An elementwise kernel of CuPy runs its code once for each element of its non-raw arguments, which have one shape; `i` is the number of the element
in C order.  A `raw` argument is indexed by the number of the element in C order as well.  Pointers (`x.data.ptr`) are to the memory of the array: an
array is a memory together with the offset of each of its elements, which for a contiguous array is the number of the element.
Integers do not overflow, and the cache of index arrays (`lru_cache`, lower_triangular_matrix.py:23, 33) is not modelled.
-/

namespace Verif.Gpu
open Numeric

section Tril
variable {K : Type} [Zero K]

/-- `np.arange(start=0, stop=stop, step=step)` for a positive step (lower_triangular_matrix.py:24-31). -/
def arange (stop step : Nat) : List Nat := (List.range ((stop + step - 1) / step)).map (· * step)

/-- `np.ravel_multi_index(idx, (n, n))` (lower_triangular_matrix.py:34-40). -/
def ravel (n : Nat) (idx : List (Nat × Nat)) : List Nat := idx.map fun p => p.1 * n + p.2

/-- `_diagonal_idx_array` and `_non_diagonal_idx_array` (lower_triangular_matrix.py:23-40): `idx + idx_offsets`, a row for each batch element. -/
def idxArray (batch n : Nat) (idx : List (Nat × Nat)) : List (List Nat) :=
  (arange (batch * n * n) (n * n)).map fun off => (ravel n idx).map (· + off)

/-- Corresponding elements of two two-dimensional arrays (mul_add.py:25-48). -/
def pairs (idx : List (List Nat)) (val : List (List K)) : List (Nat × K) :=
  (idx.zip val).flatMap fun r => r.1.zip r.2

/-- Both have the same shape (mul_add.py:25-48). -/
def sameShape (idx : List (List Nat)) (val : List (List K)) : Bool := idx.map List.length == val.map List.length

/-- The kernel `mat[idx] = val` (lower_triangular_matrix.py:43-49, 91-97).  Broadcasting is not modelled. -/
def scatter (mat : Nat → K) (idx : List (List Nat)) (val : List (List K)) : Py (Nat → K) :=
  if sameShape idx val then .ok ((pairs idx val).foldl (fun m e => fun k => if k = e.1 then e.2 else m k) mat) else .error .valueError

/-- The kernel `val = mat[idx]` (lower_triangular_matrix.py:52-58, 100-106). -/
def gather (mat : Nat → K) (idx : List (List Nat)) : List (List K) := idx.map fun r => r.map mat

/-- `LowerTriangularMatrix.forward` on a GPU (lower_triangular_matrix.py:135-143 with 69-74, 117-122); `n` is `diag.shape[1]`. -/
def lowerTriangularGpu (n : Nat) (diag nonDiag : List (List K)) : Py (Nat → K) := do
  let y : Nat → K := fun _ => 0
  let y ← scatter y (idxArray diag.length n (trilIndices n)) nonDiag
  scatter y (idxArray diag.length n (diagIndices n)) diag

/-- `LowerTriangularMatrix.backward` on a GPU (lower_triangular_matrix.py:145-150 with 61-66, 109-114). -/
def lowerTriangularBackwardGpu (batch n : Nat) (gy : Nat → K) : List (List K) × List (List K) :=
  (gather gy (idxArray batch n (diagIndices n)), gather gy (idxArray batch n (trilIndices n)))

end Tril

/-- An array on the GPU: memory from its pointer on, and where its elements (in C order) are
(the arrays of lower_triangular_matrix.py:43-58, 91-106). -/
structure Arr (K : Type) where
  mem : Nat → K
  offset : Nat → Nat

namespace Arr
variable {K : Type}

/-- Element number `i` (in the kernels of lower_triangular_matrix.py:43-58, 91-106). -/
def at' (a : Arr K) (i : Nat) : K := a.mem (a.offset i)

/-- A contiguous array (checked in lower_triangular_matrix.py:43-58, 91-106). -/
def Contiguous (a : Arr K) (size : Nat) : Prop := ∀ i < size, a.offset i = i

/-- `a.T` for an array with the given number of rows and columns: the same memory, element `(i, j)` is element `(j, i)` of the array
(what a caller may give to lower_triangular_matrix.py:43-58). -/
def transpose (a : Arr K) (rows cols : Nat) : Arr K := ⟨a.mem, fun k => a.offset (k % rows * cols + k / rows)⟩

end Arr

/-- `SumArrays.forward_gpu` (sum_arrays.py:22-34): element `i` of the result. -/
def sumArraysGpu (xs : List (Arr ℝ)) (i : Nat) : ℝ := xs.foldl (fun y x => y + x.mem i) 0

/-- `WeightedSumArrays.forward_gpu` (weighted_sum_arrays.py:25-41), for as many weights as arrays. -/
def weightedSumGpu (weights : List ℝ) (xs : List (Arr ℝ)) (i : Nat) : ℝ :=
  (xs.zip weights).foldl (fun y x => y + x.1.mem i * x.2) 0

/-- `MulAdd.forward_gpu` (mul_add.py:25-32): the arguments are not pointers. -/
def muladdGpu (x y z : Arr ℝ) (i : Nat) : ℝ := x.at' i * y.at' i + z.at' i

/-- `MulAdd.backward_gpu` (mul_add.py:34-48). -/
def muladdBackwardGpu (x y _z gw : Arr ℝ) (i : Nat) : ℝ × ℝ × ℝ := (y.at' i * gw.at' i, x.at' i * gw.at' i, gw.at' i)

/-- `RMSpropAsyncRule.update_core_gpu` (rmsprop_async.py:40-50). -/
noncomputable def updateCoreGpu {ι : Type} (hp : Optimizers.Hyper) (p : Optimizers.Param ι) : Optimizers.Param ι :=
  match p.grad with
  | none => p
  | some g =>
    let ms := fun i => hp.alpha * p.ms i + (1 - hp.alpha) * g i * g i
    { p with ms := ms, array := fun i => p.array i - hp.lr * g i / Real.sqrt (ms i + hp.eps) }

end Verif.Gpu
