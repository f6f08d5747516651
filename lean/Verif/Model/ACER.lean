import Mathlib.Algebra.Order.Field.Basic
import Verif.Model.Py
set_option autoImplicit false

/-! # Model: losses of ACER

`chainerrl/agents/acer.py`.  Arithmetic is exact (the code uses float32 and
float64).  Where the code multiplies a constant with a differentiable quantity
(`log_prob`, `all_log_prob`) the model multiplies it with an element `f` of the field,
so that every statement holds for the value and for each component of the gradient. -/

namespace Verif.ACER
variable {K : Type} [Field K] [LinearOrder K]

/-! ## The KL constraint -/

/-- `np.dot(a.ravel(), b.ravel())` (as in acer.py:209-215). -/
def dot (a b : List K) : K := (List.zipWith (· * ·) a b).sum

/-- The sum of the dot products of the arrays of two lists (acer.py:209-211). -/
def dots (a b : List (List K)) : K := (List.zipWith dot a b).sum

/-- `k_factor` (acer.py:209-215). -/
def kFactor (k g : List (List K)) (delta : K) : K :=
  if 0 < dots k k then max 0 ((dots k g - delta) / dots k k) else 0

/-- `z` of `compute_loss_with_kl_constraint` (acer.py:216): one ravelled array for each
parameter array of the distribution. -/
def direction (k g : List (List K)) (delta : K) : List (List K) :=
  List.zipWith (List.zipWith (fun kp gp => gp - kFactor k g delta * kp)) k g

/-! ## Importance weights -/

/-- `compute_importance(pi, mu, x)` (acer.py:20-21): the probabilities are Python
floats, whose division by zero raises. -/
def importance (pi mu : K) : Py K :=
  if mu = 0 then .error .zeroDivisionError else .ok (pi / mu)

/-- One entry of `compute_full_importance(pi, mu)` (acer.py:24-29): numpy division,
`0 / 0` replaced by one and `x / 0` by the largest float `big`. -/
def fullImportance (big pi mu : K) : K :=
  if mu = 0 then (if pi = 0 then 1 else big) else pi / mu

/-- One action: its probability under the current policy and under the behaviour
policy, the differentiable quantity and the advantage (`q_values[a] - v`) (the arguments of acer.py:32-70). -/
structure Act (K : Type) where
  pi : K
  mu : K
  f : K
  adv : K

/-- `compute_policy_gradient_full_correction` (acer.py:32-48) with truncation
threshold `c`. -/
def fullCorrection (big c : K) (as : List (Act K)) : K :=
  -(as.map (fun a => max (1 - c * fullImportance big a.mu a.pi) 0 * a.pi * a.f * a.adv)).sum

/-- `compute_policy_gradient_sample_correction` (acer.py:51-70) for the sampled action. -/
def sampleCorrection (c : K) (a : Act K) : Py K := do
  let rho ← importance a.mu a.pi
  if 0 < c ∧ 1 / c ≤ rho then pure 0
  else pyAssert (max 0 (1 - c * rho) ≤ 1) (pure (-(max 0 (1 - c * rho) * a.f * a.adv)))

/-- The truncated term for the taken action (acer.py:82-89). -/
def truncatedTerm (c : Option K) (a : Act K) : Py K := do
  let rho ← importance a.pi a.mu
  pure (-((match c with
    | none => rho
    | some c => min c rho) * a.f * a.adv))

/-! ## Retrace -/

/-- What the loop of `compute_loss` reads at one step (acer.py:406-419, 440, 456-459):
reward, value, `Q` of the taken action and the trace coefficient `c`. -/
structure Step (K : Type) where
  r : K
  v : K
  q : K
  c : K

/-- The trace coefficient of a discrete policy (acer.py:457). -/
def traceCoef (rho : K) : K := min 1 rho

/-- The values at one step of the loop: `Q_ret` and `Q_opc` after acer.py:421-422. -/
structure Target (K : Type) where
  qRet : K
  qOpc : K

/-- The backward loop of `compute_loss` (acer.py:405-461): the values of `Q_ret` and
`Q_opc` carried to the step before the first, and the targets of every step. -/
def loop (gamma R : K) : List (Step K) → (K × K) × List (Target K)
  | [] => ((R, R), [])
  | s :: ss =>
    let rest := loop gamma R ss
    let qRet := s.r + gamma * rest.1.1
    let qOpc := s.r + gamma * rest.1.2
    ((s.c * (qRet - s.q) + s.v, qOpc - s.q + s.v), ⟨qRet, qOpc⟩ :: rest.2)

/-- The targets of `compute_loss`, first step first (acer.py:392-461). -/
def targets (gamma R : K) (ss : List (Step K)) : List (Target K) := (loop gamma R ss).2

/-- The advantages (acer.py:426-429). -/
def advantages (useOpc : Bool) (gamma R : K) (ss : List (Step K)) : List K :=
  List.zipWith (fun s t => (if useOpc then t.qOpc else t.qRet) - s.v) ss (targets gamma R ss)

/-- `Q_loss` of a discrete policy before scaling (acer.py:442). -/
def qLoss (gamma R : K) (ss : List (Step K)) : K :=
  (List.zipWith (fun s t => (t.qRet - s.q) ^ 2 / 2) ss (targets gamma R ss)).sum

end Verif.ACER
