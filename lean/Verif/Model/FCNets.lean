import Mathlib.Analysis.SpecialFunctions.Log.Basic
import Mathlib.Analysis.Complex.Trigonometric
set_option autoImplicit false

/-!
# Models of fully connected networks

`chainerrl/links/mlp.py`, `chainerrl/q_functions/state_action_q_functions.py` (FCSAQFunction, FCLateActionSAQFunction),
`chainerrl/policies/deterministic_policy.py` (FCDeterministicPolicy), `chainerrl/policies/gaussian_policy.py`.

One row of a batch at a time; real numbers.  Weights are arbitrary: a network is given by the shapes of its layers
(what the constructors compute) and parameters of these shapes.  A linear layer fails (`none`) when the input does not
have the expected size.  Batch normalisation and LSTM layers are not modelled.
-/

namespace Verif.FCNets

noncomputable section

/-- A shape `(in_size, out_size)` of `L.Linear` (mlp.py:10-29). -/
abbrev Shape := Nat × Nat

/-- Parameters of `L.Linear` (mlp.py:10-29). -/
structure Lin where
  W : List (List ℝ)
  b : List ℝ

/-- The parameters of a layer of a shape (mlp.py:10-29). -/
def Lin.HasShape (l : Lin) (s : Shape) : Prop :=
  l.W.length = s.2 ∧ l.b.length = s.2 ∧ ∀ row ∈ l.W, row.length = s.1

/-- `x ↦ W x + b`; Chainer's type check fails when the sizes differ (called in mlp.py:31-37). -/
def Lin.apply (l : Lin) (x : List ℝ) : Option (List ℝ) :=
  if l.W.all (fun row => row.length == x.length) then
    some (List.zipWith (fun row b => (List.zipWith (fun w v => w * v) row x).sum + b) l.W l.b)
  else none

/-- A nonlinearity: any function on rows (mlp.py:10, 31-37). -/
abbrev Nonlin := List ℝ → List ℝ

/-! ## MLP -/

/-- mlp.py lines 19-24: the shapes of the hidden layers. -/
def hiddenShapes (inSize : Nat) (hidden : List Nat) : List Shape :=
  match hidden with
  | [] => []
  | h :: _ => (inSize, h) :: List.zip hidden hidden.tail

/-- mlp.py lines 25-29: the shape of the output layer. -/
def outputShape (inSize outSize : Nat) (hidden : List Nat) : Shape :=
  match hidden.getLast? with
  | none => (inSize, outSize)
  | some h => (h, outSize)

/-- Parameters of an MLP (mlp.py:10-29). -/
structure MLP where
  hidden : List Lin
  output : Lin

/-- The parameters fit the shapes of the constructor (mlp.py lines 10-29). -/
def MLP.HasShape (m : MLP) (inSize outSize : Nat) (hidden : List Nat) : Prop :=
  List.Forall₂ Lin.HasShape m.hidden (hiddenShapes inSize hidden) ∧ m.output.HasShape (outputShape inSize outSize hidden)

/-- mlp.py lines 33-35. -/
def hiddenCall (σ : Nonlin) : List Lin → List ℝ → Option (List ℝ)
  | [], h => some h
  | l :: ls, h =>
    match l.apply h with
    | none => none
    | some y => hiddenCall σ ls (σ y)

/-- mlp.py lines 31-36. -/
def MLP.call (m : MLP) (σ : Nonlin) (x : List ℝ) : Option (List ℝ) :=
  match hiddenCall σ m.hidden x with
  | none => none
  | some h => m.output.apply h

/-! ## State-action Q-functions -/

/-- state_action_q_functions.py lines 44-57: `hidden_sizes` and `in_size` of FCSAQFunction. -/
def saqShape (m : MLP) (nObs nAction nHidden nLayers : Nat) : Prop :=
  m.HasShape (nObs + nAction) 1 (List.replicate nLayers nHidden)

/-- Lines 59-61. -/
def saqCall (m : MLP) (σ : Nonlin) (state action : List ℝ) : Option (List ℝ) := m.call σ (state ++ action)

/-- Lines 216-238: the shapes of FCLateActionSAQFunction (`n_hidden_layers ≥ 1` is asserted in line 218). -/
def lateShape (obs m : MLP) (nObs nAction nHidden nLayers : Nat) : Prop :=
  1 ≤ nLayers ∧ obs.HasShape nObs nHidden [] ∧ m.HasShape (nHidden + nAction) 1 (List.replicate (nLayers - 1) nHidden)

/-- Lines 240-243. -/
def lateCall (obs m : MLP) (σ : Nonlin) (state action : List ℝ) : Option (List ℝ) :=
  match obs.call σ state with
  | none => none
  | some h => m.call σ (σ h ++ action)

/-! ## Policies -/

/-- `bound_by_tanh` (functions/bound_by_tanh.py lines 6-23) on a row. -/
def boundByTanh (x low high : List ℝ) : List ℝ :=
  List.zipWith (fun v lh => Real.tanh v * ((lh.2 - lh.1) / 2) + (lh.2 + lh.1) / 2) x (List.zip low high)

/-- The bounds if there are any: deterministic_policy.py lines 84-89 and 44-45, gaussian_policy.py lines 97-98. -/
def filtered (bound : Option (List ℝ × List ℝ)) (y : List ℝ) : List ℝ :=
  match bound with
  | none => y
  | some (low, high) => boundByTanh y low high

/-- deterministic_policy.py lines 71-99 with lines 37-47: FCDeterministicPolicy. -/
def deterministicCall (m : MLP) (σ : Nonlin) (bound : Option (List ℝ × List ℝ)) (x : List ℝ) : Option (List ℝ) :=
  match m.call σ x with
  | none => none
  | some h => some (filtered bound h)

/-- `F.softplus` (called in gaussian_policy.py:92-101, 282-294). -/
def softplus (x : ℝ) : ℝ := Real.log (1 + Real.exp x)

/-- gaussian_policy.py line 69. -/
inductive VarType where
  | spherical | diagonal

/-- gaussian_policy.py line 69 (and 150, 278). -/
def varSize (actionSize : Nat) : VarType → Nat
  | .spherical => 1
  | .diagonal => actionSize

/-- `F.broadcast_to` of one row (`none`: sizes do not fit) (gaussian_policy.py:92-101, 282-294). -/
def broadcast (v : List ℝ) (n : Nat) : Option (List ℝ) :=
  match v with
  | [a] => some (List.replicate n a)
  | _ => if v.length = n then some v else none

/-- gaussian_policy.py lines 71-87: the shapes of the hidden layers. -/
def gaussianHidden (nIn nHidden nLayers : Nat) : List Shape :=
  if 0 < nLayers then (nIn, nHidden) :: List.replicate (nLayers - 1) (nHidden, nHidden) else []

/-- Lines 77-87: the input size of the mean and of the variance layer. -/
def gaussianFeatures (nIn nHidden nLayers : Nat) : Nat := if 0 < nLayers then nHidden else nIn

/-- FCGaussianPolicy's parameters (gaussian_policy.py:52-90). -/
structure Gaussian where
  hidden : List Lin
  mean : Lin
  var : Lin

/-- Lines 52-90. -/
def Gaussian.HasShape (g : Gaussian) (nIn actionSize nLayers nHidden : Nat) (vt : VarType) : Prop :=
  List.Forall₂ Lin.HasShape g.hidden (gaussianHidden nIn nHidden nLayers) ∧
  g.mean.HasShape (gaussianFeatures nIn nHidden nLayers, actionSize) ∧
  g.var.HasShape (gaussianFeatures nIn nHidden nLayers, varSize actionSize vt)

/-- Lines 92-101: mean and variance. -/
def Gaussian.call (g : Gaussian) (σ : Nonlin) (bound : Option (List ℝ × List ℝ)) (minVar : ℝ) (x : List ℝ) :
    Option (List ℝ × List ℝ) :=
  match hiddenCall σ g.hidden x with
  | none => none
  | some h =>
    match g.mean.apply h, g.var.apply h with
    | some y, some z =>
      let mean := filtered bound y
      match broadcast (z.map softplus) mean.length with
      | none => none
      | some v => some (mean, v.map (· + minVar))
    | _, _ => none

/-- Lines 152-161: the shapes of the linear layers of FCGaussianPolicyWithStateIndependentCovariance (the last one gives
the mean); a nonlinearity follows each but the last. -/
def independentShapes (nIn actionSize nLayers nHidden : Nat) : List Shape :=
  (nIn, nHidden) :: (List.replicate (nLayers - 1) (nHidden, nHidden) ++ [(nHidden, actionSize)])

/-- Lines 214-230: the same for FCGaussianPolicyWithFixedCovariance. -/
def fixedShapes (nIn actionSize nLayers nHidden : Nat) : List Shape :=
  if 0 < nLayers then (nIn, nHidden) :: (List.replicate (nLayers - 1) (nHidden, nHidden) ++ [(nHidden, actionSize)])
  else [(nIn, actionSize)]

/-- Lines 173-176 and 282-294: the variance from the parameter. -/
def independentVar (varFunc : ℝ → ℝ) (param : List ℝ) (n : Nat) : Option (List ℝ) := broadcast (param.map varFunc) n

end

end Verif.FCNets
