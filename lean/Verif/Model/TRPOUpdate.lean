import Mathlib.Analysis.Calculus.FDeriv.Basic
import Verif.Model.TRPOStep
import Verif.Model.Distrib

/-!
Model of the policy update of TRPO: `_hessian_vector_product`, `_compute_kl_constrained_step` with the gradients it
takes, and `_update_policy` / `_update_policy_recurrent` (`/repo/chainerrl/agents/trpo.py`, lines 60-66,
388-444 and 446-553).

Parameters are one vector of real numbers, in the order of `_get_ordered_params` and `_flatten_and_concat_variables`
(trpo.py:19-31).  `chainer.grad` is the mathematical gradient.  The policy is a function from parameters and inputs to
distributions: for a recurrent policy the input is a position in a sequence together with the observations before it.
-/

set_option autoImplicit false

namespace Verif.TRPO

variable {n : Nat}

/-- `chainer.grad([f], params)`, flattened: the partial derivatives (called in trpo.py:523, 533). -/
noncomputable def gradient (f : (Fin n → ℝ) → ℝ) (θ : Fin n → ℝ) : Fin n → ℝ :=
  fun i => fderiv ℝ f θ (Pi.single i 1)

/-- `_hessian_vector_product` (trpo.py:60-66), with the gradients of `f` as `flat_grads`: the gradient of their
product with `vec`. -/
noncomputable def hessianVectorProduct (f : (Fin n → ℝ) → ℝ) (θ vec : Fin n → ℝ) : Fin n → ℝ :=
  gradient (fun θ' => gradient f θ' ⬝ᵥ vec) θ

/-- What TRPO uses of a class of distributions: `kl`, `log_prob` and `entropy` (trpo.py:395-443, 511). -/
structure Kind (D A : Type) where
  kl : D → D → ℝ
  logProb : D → A → ℝ
  entropy : D → ℝ

/-- `CategoricalDistribution` (distribution.py:137-165). -/
noncomputable def categoricalKind (k : Nat) : Kind (Distrib.Categorical k) (Fin k) where
  kl := Distrib.Categorical.kl
  logProb d a := d.allLogProb a
  entropy := Distrib.Categorical.entropy

/-- `GaussianDistribution` (distribution.py:262-319). -/
noncomputable def gaussianKind (k : Nat) : Kind (Distrib.Gaussian k) (Fin k → ℝ) where
  kl := Distrib.Gaussian.kl
  logProb := Distrib.Gaussian.logProb
  entropy := Distrib.Gaussian.entropy

/-- A transition of the dataset: what the policy is applied to, `action`, `log_prob` and `adv` (trpo.py:395-443). -/
structure Sample (S A : Type) where
  input : S
  action : A
  logProbOld : ℝ
  adv : ℝ

variable {D A S : Type}

/-- `F.mean(action_distrib_old.kl(action_distrib))` (trpo.py:511 and 617) as a function of the parameters; `θ₀` are
the parameters of `action_distrib_old`. -/
noncomputable def meanKl (K : Kind D A) (policy : (Fin n → ℝ) → S → D) (data : List (Sample S A))
    (θ₀ θ : Fin n → ℝ) : ℝ :=
  mean (data.map fun r => K.kl (policy θ₀ r.input) (policy θ r.input))

/-- `_compute_gain` (trpo.py:388-393) as a function of the parameters. -/
noncomputable def gainAt (K : Kind D A) (policy : (Fin n → ℝ) → S → D) (coef : ℝ) (data : List (Sample S A))
    (θ : Fin n → ℝ) : ℝ :=
  computeGain coef (data.map fun r =>
    ⟨K.logProb (policy θ r.input) r.action, r.logProbOld, K.entropy (policy θ r.input), r.adv⟩)

/-- The vector with the elements of all arrays (trpo.py:39-42). -/
noncomputable def vec (n : Nat) (ps : List (Arr ℝ)) : Fin n → ℝ := fun i => (flattenAll ps).getD i 0

/-- `conjugate_gradient_damping`, `max_kl`, `conjugate_gradient_max_iter`, `line_search_max_backtrack`,
`entropy_coef` (trpo.py:507-553, 599-643). -/
structure UpdateConfig where
  damping : ℝ
  maxKl : ℝ
  maxIter : Nat
  maxBacktrack : Nat
  coef : ℝ

/-- `_update_policy` and `_update_policy_recurrent` (trpo.py:395-505) after the advantages are standardized.
`none`: the step is not a vector of real numbers. -/
noncomputable def updatePolicy (K : Kind D A) (policy : (Fin n → ℝ) → S → D) (cfg : UpdateConfig)
    (data : List (Sample S A)) (ps : List (Arr ℝ)) : Option (Py (Outcome ℝ)) :=
  let θ₀ := vec n ps
  match klStep (hessianVectorProduct (meanKl K policy data θ₀) θ₀) cfg.damping cfg.maxKl cfg.maxIter
    (gradient (gainAt K policy cfg.coef data) θ₀) with
  | none => none
  | some s => some (lineSearch
      (fun qs => (.fin (gainAt K policy cfg.coef data (vec n qs)), .fin (meanKl K policy data θ₀ (vec n qs))))
      (.fin (gainAt K policy cfg.coef data θ₀)) cfg.maxKl cfg.maxBacktrack (List.ofFn s) ps)

end Verif.TRPO
