import Mathlib.Algebra.Order.Field.Basic
import Mathlib.Algebra.Order.Group.Unbundled.Abs
set_option autoImplicit false

/-! # Model: the losses of implicit quantile networks

`chainerrl/agents/iqn.py`, lines 182-265.  Arithmetic is exact. -/

namespace Verif.IQN
variable {K : Type} [Field K] [LinearOrder K]

/-- `F.huber_loss(y, t, delta, reduce='no')` for one element (Chainer:
`0.5 a²` if `|a| <= delta`, else `delta (|a| - 0.5 delta)` with `a = y - t`) (called in iqn.py:182-217). -/
def huber (delta y t : K) : K :=
  if |y - t| ≤ delta then (y - t) * (y - t) / 2 else delta * (|y - t| - delta / 2)

/-- One element of `compute_eltwise_huber_quantile_loss` (iqn.py:213-216):
`I_delta` is 1 when the target is larger than the prediction. -/
def eltwise (kappa y t tau : K) : K :=
  |tau - if 0 < t - y then 1 else 0| * huber kappa y t

/-- `compute_eltwise_huber_quantile_loss(y, t, taus, huber_loss_threshold)`
(iqn.py:182-217) for one row of the batch: prediction `i`, target `j` at `[i][j]`. -/
def eltwiseRow (kappa : K) (y taus t : List K) : List (List K) :=
  List.zipWith (fun yi tau => t.map (fun tj => eltwise kappa yi tj tau)) y taus

/-- `F.mean` of a list (called in iqn.py:220-265). -/
def mean (l : List K) : K := l.sum / l.length

/-- `compute_value_loss` (iqn.py:220-240) on a `(batch, N, N')` array: `'sum'` takes
the mean over `N'` and sums; `'mean'` takes the mean over batch and `N'` and sums
over `N` (written here as the sum divided by the batch size, which is the same for
arrays). -/
def valueLoss (sumMode : Bool) (loss : List (List (List K))) : K :=
  let s := (loss.map (fun b => (b.map mean).sum)).sum
  if sumMode then s else s / loss.length

/-- `compute_weighted_value_loss` (iqn.py:243-265). -/
def weightedValueLoss (sumMode : Bool) (loss : List (List (List K))) (weights : List K) : K :=
  let s := (List.zipWith (fun b w => (b.map mean).sum * w) loss weights).sum
  if sumMode then s else s / loss.length

end Verif.IQN
