import Mathlib.Analysis.SpecialFunctions.Trigonometric.Basic
import Verif.Model.ActionValue
import Verif.Model.BatchExperiences
import Verif.Model.IQN
set_option autoImplicit false

/-! # Model: the networks, targets, loss and actions of IQN and DoubleIQN

`chainerrl/agents/iqn.py` lines 11-172 and 267-422, `chainerrl/agents/double_iqn.py` lines 17-65, over the reals.  An array is
the list of its rows, so that `F.reshape` is `List.flatten` or cutting into rows of equal length.  Random thresholds are
arguments, in the order in which they are drawn.  Not modelled: recurrent models (their `psi_x` comes from
`n_step_forward`, everything else is the same), data types, gradients. -/

namespace Verif.IQNUpdate
open ActionValue

/-- An array with two axes, and one with three (as in iqn.py:46-81). -/
abbrev Mat := List (List ℝ)
/-- As in iqn.py:46-81. -/
abbrev Ten := List (List (List ℝ))

/-- `cosine_basis_functions(x, n_basis_functions)` at one number (iqn.py:22-26). -/
noncomputable def cosBasis (n : Nat) (x : ℝ) : List ℝ :=
  ((List.range n).map fun i => ((i + 1 : Nat) : ℝ) * Real.pi).map fun iPi => Real.cos (x * iPi)

/-- The size of the second axis (iqn.py:46-81). -/
def width (m : Mat) : Nat := (m.head?.getD []).length

/-- `F.reshape` from `(m * n,)` rows to `(m, n)`: `m` times the next `n` rows (iqn.py:46-81). -/
def rows {α : Type} (n : Nat) : Nat → List α → List (List α)
  | 0, _ => []
  | m + 1, l => l.take n :: rows n m (l.drop n)

/-- `CosineBasisLinear.__call__(x)` (iqn.py:46-59) for an `x` of shape `(batch_size, n_taus)`; `linear` is the linear layer,
on a batch. -/
noncomputable def cosineBasisLinear (nBasis : Nat) (linear : Mat → Mat) (x : Mat) : Ten :=
  let h := x.map fun r => r.map (cosBasis nBasis)
  let h := h.flatten
  let out := linear h
  rows (width x) x.length out

/-- `_evaluate_psi_x_with_quantile_thresholds(psi_x, phi, f, taus)` (iqn.py:62-81).  The result is the array `quantiles` of the action value. -/
noncomputable def evaluatePsi (phi : Mat → Ten) (f : Mat → Mat) (psiX taus : Mat) : Py Ten :=
  let batchSize := psiX.length
  let hidden := width psiX
  let nTaus := width taus
  pyAssert (taus.length == batchSize) <|
  let phiTaus := phi taus
  pyAssert (phiTaus.length == batchSize && phiTaus.all fun m => m.length == nTaus && m.all fun r => r.length == hidden) <|
  let h := List.zipWith (fun p m => m.map fun r => List.zipWith (· * ·) p r) psiX phiTaus
  let h := h.flatten
  let h := f h
  pyAssert (h.length == batchSize * nTaus) <|
  .ok (rows nTaus batchSize h)

/-- `ImplicitQuantileQFunction.__call__(x)` (iqn.py:108-125), applied to the thresholds. -/
noncomputable def implicitQuantile {F : Type} (psi : List F → Mat) (phi : Mat → Ten) (f : Mat → Mat)
    (x : List F) (taus : Mat) : Py Ten :=
  let psiX := psi x
  pyAssert (psiX.length == x.length) <| evaluatePsi phi f psiX taus

/-- `_compute_target_values(exp_batch)`: `greedyModel` is the target model in IQN (iqn.py:300-340) and the model in
DoubleIQN (double_iqn.py:17-65); a model takes a batch of states and one row of thresholds per state. -/
noncomputable def targetValues {F A : Type} (nActions : Nat) (greedyModel targetModel : List F → Mat → Py Ten)
    (b : ExpBatch F A ℝ) (tausTilde tausPrime : Mat) : Py Mat := do
  let av ← greedyModel b.nextState tausTilde
  let greedyActions := av.map fun q => greedy (quantileQ nActions q)
  let av' ← targetModel b.nextState tausPrime
  let maxz := List.zipWith evaluateQuantiles av' greedyActions
  .ok (List.zipWith (fun r dz => dz.map fun x => r + x) b.reward
    (List.zipWith (fun (dt : ℝ) z => z.map fun x => dt * x)
      (List.zipWith (fun d t => d * (1 - t)) b.discount b.terminal) maxz))

/-- `_compute_y_and_taus(exp_batch)` (iqn.py:342-370): the predictions `y` at thresholds `taus`. -/
noncomputable def predictions {F : Type} (model : List F → Mat → Py Ten) (b : ExpBatch F Nat ℝ) (taus : Mat) : Py Mat := do
  let av ← model b.state taus
  .ok (List.zipWith evaluateQuantiles av b.action)

/-- `compute_eltwise_huber_quantile_loss(y, t, taus)` (iqn.py:182-217) of the batch, with the default threshold 1. -/
noncomputable def eltwiseLoss (y taus t : Mat) : Ten :=
  List.zipWith (fun (yt : List ℝ × List ℝ) tr => IQN.eltwiseRow 1 yt.1 yt.2 tr) (y.zip taus) t

/-- `F.mean(eltwise_loss, axis=(1, 2))` for one row (iqn.py:385). -/
noncomputable def meanRow (m : Mat) : ℝ := m.flatten.sum / m.flatten.length

/-- `_compute_loss(exp_batch, errors_out)` (iqn.py:372-395) after `y`, `taus` and `t` have been computed: the new content of
`errors_out` and the loss. `weights` is `exp_batch['weights']`, if there. -/
noncomputable def computeLoss (sumMode : Bool) (y taus t : Mat) (weights : Option (List ℝ)) : List ℝ × ℝ :=
  let e := eltwiseLoss y taus t
  (e.map meanRow,
    match weights with
    | some w => IQN.weightedValueLoss sumMode e w
    | none => IQN.valueLoss sumMode e)

/-- `np.linspace(0, 1, num=k)`; for `k = 1` it is `[0]`, and so is this (`0 / 0 = 0`). -/
noncomputable def linspace (k : Nat) : List ℝ :=
  (List.range k).map fun i : Nat => (i : ℝ) / ((k - 1 : Nat) : ℝ)

/-- The thresholds with which actions are chosen for a batch of observations (iqn.py:409-422); `drawn` is what
`random.uniform` gives if it is called. -/
noncomputable def actingTaus (actDeterministically test : Bool) (k batch : Nat) (drawn : Mat) : Mat :=
  if test && actDeterministically then List.replicate batch (linspace k) else drawn

/-- The greedy actions of `batch_act` (iqn.py:397-422 with dqn.py:465-470 and action_value.py:60-62). -/
noncomputable def greedyActions {F : Type} (nActions k : Nat) (actDeterministically test : Bool)
    (model : List F → Mat → Py Ten) (obs : List F) (drawn : Mat) : Py (List Nat) := do
  let av ← model obs (actingTaus actDeterministically test k obs.length drawn)
  .ok (av.map fun q => greedy (quantileQ nActions q))

end Verif.IQNUpdate
