import Mathlib.Analysis.SpecialFunctions.Pow.Real
import Mathlib.Algebra.BigOperators.Fin
import Verif.Model.Distrib

/-!
Model of the explorers that add noise to continuous actions or sample discrete actions:
`/repo/chainerrl/explorers/additive_gaussian.py`, `additive_ou.py`, `boltzmann.py`.

Simplifications: an action is a vector of reals (float32 rounding is not modelled); random
numbers are arguments: a call `np.random.normal(loc, scale)` is `loc + scale * z` for a
standard normal `z`, and `np.random.choice(n, p=p)` is a function of a uniform draw.
-/

set_option autoImplicit false

namespace Verif.Explorers

open Real

noncomputable section

variable {n : Nat}

/-- `np.clip(x, low, high)`: `minimum(maximum(x, low), high)`, where a bound may be `None`
(called in additive_gaussian.py:30-33). -/
def npClip (low high : Option (Fin n → ℝ)) (x : Fin n → ℝ) (i : Fin n) : ℝ :=
  let y := match low with
    | some l => max (x i) (l i)
    | none => x i
  match high with
  | some h => min y (h i)
  | none => y

/-- `AdditiveGaussian.__init__` (additive_gaussian.py:21-24). -/
structure AdditiveGaussian (n : Nat) where
  scale : Fin n → ℝ
  low : Option (Fin n → ℝ)
  high : Option (Fin n → ℝ)

/-- `AdditiveGaussian.select_action` (additive_gaussian.py:26-33) with the standard normal
draws `z`. -/
def AdditiveGaussian.select (c : AdditiveGaussian n) (a z : Fin n → ℝ) : Fin n → ℝ :=
  if c.low.isSome || c.high.isSome then npClip c.low c.high (fun i => a i + c.scale i * z i)
  else fun i => a i + c.scale i * z i

/-- `AdditiveOU.__init__` (additive_ou.py:20-27). -/
structure OU (n : Nat) where
  mu : ℝ
  theta : ℝ
  sigma : Fin n → ℝ
  startWithMu : Bool

/-- The first value of `ou_state` (additive_ou.py:39-46); no number is drawn when starting
with `mu`, `z` is then ignored. -/
def OU.first (c : OU n) (z : Fin n → ℝ) : Fin n → ℝ :=
  if c.startWithMu then fun _ => c.mu
  else fun i => c.mu + c.sigma i / √(2 * c.theta - c.theta ^ 2) * z i

/-- `evolve` (additive_ou.py:29-34). -/
def OU.evolve (c : OU n) (x z : Fin n → ℝ) : Fin n → ℝ :=
  fun i => x i + (c.theta * (c.mu - x i) + c.sigma i * z i)

/-- `AdditiveOU.select_action` (additive_ou.py:36-51): the new `ou_state` and the action. -/
def OU.select (c : OU n) (s : Option (Fin n → ℝ)) (a z : Fin n → ℝ) : (Fin n → ℝ) × (Fin n → ℝ) :=
  let x := match s with
    | none => c.first z
    | some x => c.evolve x z
  (x, fun i => a i + x i)

/-- `ou_state` before the `k`-th call (counted from zero) of a new explorer, when the `j`-th
call has greedy action `a j` and draws `z j` (additive_ou.py:20-51). -/
def OU.stateBefore (c : OU n) (a z : Nat → Fin n → ℝ) : Nat → Option (Fin n → ℝ)
  | 0 => none
  | k + 1 => some (c.select (c.stateBefore a z k) (a k) (z k)).1

/-- The action selected in the `k`-th call (additive_ou.py:36-51). -/
def OU.action (c : OU n) (a z : Nat → Fin n → ℝ) (k : Nat) : Fin n → ℝ :=
  (c.select (c.stateBefore a z k) (a k) (z k)).2

/-- `probs` of `Boltzmann.select_action` (boltzmann.py:23-25). -/
def boltzmannProb (T : ℝ) (q : Fin n → ℝ) : Fin n → ℝ := Distrib.softmax (fun i => q i / T)

/-- `np.random.choice(np.arange(n), p=p)` (boltzmann.py:26): numpy normalises the cumulative
sums by the last one and returns the number of entries that are at most the uniform draw
`u` (`searchsorted(..., side='right')`). -/
def choice (p : Fin n → ℝ) (u : ℝ) : Nat :=
  (Finset.univ.filter fun k => (∑ j ∈ Finset.Iic k, p j) / (∑ j, p j) ≤ u).card

/-- `Boltzmann.select_action` (boltzmann.py:18-26) with the uniform draw `u`. -/
def boltzmannSelect (T : ℝ) (q : Fin n → ℝ) (u : ℝ) : Nat := choice (boltzmannProb T q) u

end

end Verif.Explorers
