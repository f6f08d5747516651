import Mathlib.Algebra.Order.Field.Basic
import Mathlib.Algebra.BigOperators.Group.List.Basic
import Mathlib.Algebra.Group.Pi.Basic
set_option autoImplicit false

/-! # Model: `EmpiricalNormalization`

`chainerrl/links/empirical_normalization.py`.  A value is a function from component indices
to an ordered field, a batch is a list of values (the batch axis is the list); arithmetic
is exact.  `x ** -0.5` and `sqrt` are parameters. -/

namespace Verif.EmpNorm
variable {K I : Type} [Field K] [LinearOrder K]

/-- The powers used by the link (empirical_normalization.py:44-49). -/
structure Roots (K : Type) where
  /-- `x ** -0.5`. -/
  invSqrt : K → K
  /-- `sqrt(x)`. -/
  sqrt : K → K

/-- Constructor arguments (empirical_normalization.py:17-24). -/
structure Config (K : Type) where
  eps : K
  untilCount : Option Nat
  clip : Option K

/-- The state of the link: the persistent `_mean`, `_var` and `count`, and the cache (empirical_normalization.py:25-33). -/
structure State (K I : Type) where
  mean : I → K
  var : I → K
  count : Nat
  cache : Option (I → K)

/-- `__init__` (empirical_normalization.py:25-33). -/
def init : State K I := ⟨fun _ => 0, fun _ => 1, 0, none⟩

/-- `xp.mean(x, axis=batch_axis)` of one component (empirical_normalization.py:69). -/
def batchMean (x : List (I → K)) (i : I) : K := (x.map (fun v => v i)).sum / (x.length : K)

/-- `xp.var(x, axis=batch_axis)` of one component (empirical_normalization.py:70). -/
def batchVar (x : List (I → K)) (i : I) : K :=
  (x.map (fun v => (v i - batchMean x i) * (v i - batchMean x i))).sum / (x.length : K)

/-- The limit has been reached (empirical_normalization.py:54). -/
def full (c : Config K) (count : Nat) : Bool :=
  match c.untilCount with
  | some u => decide (u ≤ count)
  | none => false

/-- `experience(x)` (empirical_normalization.py:51-79). -/
def experience (c : Config K) (s : State K I) (x : List (I → K)) : State K I :=
  if full c s.count then s
  else if x.length = 0 then s
  else
    let count := s.count + x.length
    let rate : K := (x.length : K) / (count : K)
    let delta := fun i => batchMean x i - s.mean i
    let mean := fun i => s.mean i + rate * delta i
    let var := fun i => s.var i + rate * (batchVar x i - s.var i + delta i * (batchMean x i - mean i))
    ⟨mean, var, count, none⟩

/-- `_std_inverse` (empirical_normalization.py:44-49): the state with the cache filled, and
its content. -/
def stdInverse (r : Roots K) (c : Config K) (s : State K I) : State K I × (I → K) :=
  match s.cache with
  | some v => (s, v)
  | none =>
    let v := fun i => r.invSqrt (s.var i + c.eps)
    ({ s with cache := some v }, v)

/-- `xp.clip(v, -t, t)` (empirical_normalization.py:100-102). -/
def clipTo (c : Config K) (v : K) : K :=
  match c.clip with
  | some t => min (max v (-t)) t
  | none => v

/-- `__call__(x, update)` (empirical_normalization.py:81-103).  `mean` is a view of
`self._mean`, which `experience` updates in place, so it is read after the update; `std_inv`
is a view of the cached array, which `experience` does not change. -/
def call (r : Roots K) (c : Config K) (s : State K I) (x : List (I → K)) (update : Bool) :
    State K I × List (I → K) :=
  let (s, stdInv) := stdInverse r c s
  let s := if update then experience c s x else s
  (s, x.map fun v i => clipTo c ((v i - s.mean i) * stdInv i))

/-- `inverse(y)` (empirical_normalization.py:105-109). -/
def inverse (r : Roots K) (c : Config K) (s : State K I) (y : List (I → K)) : List (I → K) :=
  y.map fun v i => v i * r.sqrt (s.var i + c.eps) + s.mean i

/-- Loading saved statistics (`serializers.load_npz`): the persistent values are replaced,
the cache is not (empirical_normalization.py:28-33). -/
def load (s : State K I) (mean var : I → K) (count : Nat) : State K I :=
  { s with mean := mean, var := var, count := count }

end Verif.EmpNorm
