import Mathlib.Algebra.Field.Basic
import Verif.Model.Py
set_option autoImplicit false

/-! # Model: copying parameters between links

`chainerrl/misc/copy_param.py`.  A link is the list of its named parameters and the list of
its named sublinks, of which only batch normalisation statistics matter.  Arrays are flat;
broadcasting between different shapes is not modelled: it raises `ValueError` here. -/

namespace Verif.CopyParam
variable {K : Type} [Field K]

/-- A parameter: `array` and `grad`, either of which may be `None` (copy_param.py:7-14). -/
structure Param (K : Type) where
  array : Option (List K)
  grad : Option (List K)
deriving DecidableEq

/-- The running statistics of a `BatchNormalization` link (copy_param.py:17-22). -/
structure BN (K : Type) where
  avgMean : List K
  avgVar : List K
deriving DecidableEq

/-- A link: `namedparams()` and `namedlinks()`; a sublink is `some` statistics when it is a
`BatchNormalization`, else `none` (copy_param.py:6-18). -/
structure Link (K : Type) where
  params : List (String × Param K)
  links : List (String × Option (BN K))
deriving DecidableEq

/-- Replace the value stored under a name (copy_param.py:9-14). -/
def setNamed {V : Type} (name : String) (v : V) (l : List (String × V)) : List (String × V) :=
  l.map fun e => if e.1 = name then (e.1, v) else e

/-- `dst[...] = src`, `dst[...] op= src`: shapes must agree (copy_param.py:14, 35-36, 53-62). -/
def combine (f : K → K → K) (dst src : List K) : Py (List K) :=
  if dst.length = src.length then .ok (List.zipWith f dst src) else .error .valueError

/-- The elementwise update of `copy_param` (copy_param.py:14). -/
def hard (_dst src : K) : K := src

/-- The elementwise update of `soft_copy_param` (copy_param.py:35-36). -/
def soft (tau : K) (dst src : K) : K := dst * (1 - tau) + tau * src

/-- The new value of one target parameter (copy_param.py:8-14 and 29-36).  An
uninitialised source array cannot be assigned. -/
def updateParam (f : K → K → K) (target : Option (Param K)) (source : Param K) : Py (Param K) :=
  match target, source.array with
  | none, _ => .error .keyError
  | some ⟨none, _⟩, _ => .error .typeError
  | some ⟨some _, _⟩, none => .error .typeError
  | some ⟨some dst, g⟩, some src => do
    let a ← combine f dst src
    pure ⟨some a, g⟩

/-- The loop over the parameters (copy_param.py:7-14 and 28-36). -/
def copyParams (f : K → K → K) : List (String × Param K) → List (String × Param K) →
    Py (List (String × Param K))
  | target, [] => .ok target
  | target, (name, p) :: source => do
    let q ← updateParam f (target.lookup name) p
    copyParams f (setNamed name q target) source

/-- The new statistics of one target link (copy_param.py:19-22 and 41-46). -/
def updateLink (f : K → K → K) (target : Option (Option (BN K))) (bn : BN K) : Py (BN K) :=
  match target with
  | none => .error .keyError
  | some none => .error .attributeError
  | some (some t) => do
    let m ← combine f t.avgMean bn.avgMean
    let v ← combine f t.avgVar bn.avgVar
    pure ⟨m, v⟩

/-- The loop over the links (copy_param.py:17-22 and 39-46). -/
def copyLinks (f : K → K → K) : List (String × Option (BN K)) → List (String × Option (BN K)) →
    Py (List (String × Option (BN K)))
  | target, [] => .ok target
  | target, (_, none) :: source => copyLinks f target source
  | target, (name, some bn) :: source => do
    let q ← updateLink f (target.lookup name) bn
    copyLinks f (setNamed name (some q) target) source

/-- Both loops (copy_param.py:4-22, 25-46). -/
def copyWith (f : K → K → K) (target source : Link K) : Py (Link K) := do
  let ps ← copyParams f target.params source.params
  let ls ← copyLinks f target.links source.links
  pure ⟨ps, ls⟩

/-- `copy_param(target_link, source_link)` (copy_param.py:4-22). -/
def copyParam (target source : Link K) : Py (Link K) := copyWith hard target source

/-- `soft_copy_param(target_link, source_link, tau)` (copy_param.py:25-46). -/
def softCopyParam (target source : Link K) (tau : K) : Py (Link K) := copyWith (soft tau) target source

/-- The new gradient of one target parameter (copy_param.py:53-62). -/
def updateGrad (target : Option (Param K)) (source : Param K) : Py (Param K) :=
  match target, source.grad with
  | none, _ => .error .keyError
  | some ⟨a, _⟩, none => .ok ⟨a, none⟩
  | some ⟨a, none⟩, some g => .ok ⟨a, some g⟩
  | some ⟨a, some old⟩, some g => do
    let g ← combine hard old g
    pure ⟨a, some g⟩

/-- The loop of `copy_grad` (copy_param.py:51-62). -/
def copyGrads : List (String × Param K) → List (String × Param K) → Py (List (String × Param K))
  | target, [] => .ok target
  | target, (name, p) :: source => do
    let q ← updateGrad (target.lookup name) p
    copyGrads (setNamed name q target) source

/-- `copy_grad(target_link, source_link)` (copy_param.py:49-62). -/
def copyGrad (target source : Link K) : Py (Link K) := do
  let ps ← copyGrads target.params source.params
  pure ⟨ps, target.links⟩

/-- `synchronize_parameters(src, dst, method, tau)` (copy_param.py:65-68). -/
def synchronizeParameters (src dst : Link K) (method : String) (tau : Option K) : Py (Link K) :=
  if method = "hard" then copyParam dst src
  else if method = "soft" then
    match tau with
    | some tau => softCopyParam dst src tau
    | none => .error .typeError
  else .error .keyError

end Verif.CopyParam
