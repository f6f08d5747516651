import Mathlib.Analysis.SpecialFunctions.Pow.Real
import Verif.Model.Py
set_option autoImplicit false

/-!
# Model of `PriorityWeightError` (`chainerrl/replay_buffers/prioritized.py:9-68`)

Floats are real numbers.  Line numbers are those of
`chainerrl/replay_buffers/prioritized.py`.
-/

namespace Verif

/-- The three accepted values of `normalize_by_max` (lines 39-42; `True` means
`'batch'`). -/
inductive Normalize where
  | no | batch | memory
  deriving DecidableEq

/-- Lines 28-44. -/
structure PWE where
  alpha : ℝ
  beta : ℝ
  betaAdd : ℝ
  eps : ℝ
  norm : Normalize
  errorMin : Option ℝ
  errorMax : Option ℝ

namespace PWE

/-- Lines 28-44 `__init__`.  `betasteps = 0` makes line 37 raise
`ZeroDivisionError`. -/
noncomputable def mk? (alpha beta0 : ℝ) (betasteps : Option ℝ) (eps : ℝ) (norm : Normalize)
    (errorMin errorMax : Option ℝ) : Py PWE :=
  if ¬ 0 ≤ alpha then .error .assertionError
  else if ¬ (0 ≤ beta0 ∧ beta0 ≤ 1) then .error .assertionError
  else match betasteps with
    | none => .ok ⟨alpha, beta0, 0, eps, norm, errorMin, errorMax⟩
    | some s =>
      if s = 0 then .error .zeroDivisionError
      else .ok ⟨alpha, beta0, (1 - beta0) / s, eps, norm, errorMin, errorMax⟩

/-- Lines 48-53 `_clip_error`. -/
noncomputable def clipError (p : PWE) (d : ℝ) : ℝ :=
  let d := match p.errorMin with | none => d | some m => max m d
  match p.errorMax with | none => d | some m => min m d

/-- Lines 46-55 `priority_from_errors`.  (Python's `**` of a negative number is
complex; the theorems are about positive bases.) -/
noncomputable def priorityFromErrors (p : PWE) (errors : List ℝ) : List ℝ :=
  errors.map (fun d => (p.clipError d + p.eps) ^ p.alpha)

/-- Lines 57-68 `weights_from_probabilities`; `len` is `len(self.memory)`.
`np.min` of an empty list raises `ValueError`. -/
noncomputable def weights (p : PWE) (len : Nat) (probs : List ℝ) (minProb : ℝ) : Py (List ℝ × PWE) :=
  let p' := { p with beta := min 1 (p.beta + p.betaAdd) }
  match p.norm with
  | .no => .ok (probs.map (fun q => (len * q) ^ (-p.beta)), p')
  | .memory => .ok (probs.map (fun q => (q / minProb) ^ (-p.beta)), p')
  | .batch =>
    match probs.min? with
    | none => .error .valueError
    | some m => .ok (probs.map (fun q => (q / m) ^ (-p.beta)), p')

/-- The object after calls of `weights_from_probabilities`, each given by the length of the
memory, the probabilities and the smallest probability (iterates replay_buffers/prioritized.py:57-68). -/
noncomputable def runCalls (p : PWE) : List (Nat × List ℝ × ℝ) → Py PWE
  | [] => .ok p
  | c :: cs => do
    let r ← p.weights c.1 c.2.1 c.2.2
    runCalls r.2 cs

end PWE
end Verif
