import Mathlib.Analysis.SpecialFunctions.Log.Basic
import Verif.Model.QHeads
import Verif.Model.Targets
set_option autoImplicit false

/-! # Model of the operators of dynamic policy programming: `chainerrl/agents/dpp.py` lines 82-123, on one row of action values -/

namespace Verif.DPPOperators

/-- `DPP._l_operator` (dpp.py:95-96): `compute_expectation(eta)` (action_value.py:79-80, 165-166). -/
noncomputable def soft (eta : ℝ) (q : List ℝ) : ℝ :=
  (List.zipWith (· * ·) (QHeads.softmaxRow (q.map (eta * ·))) q).sum

/-- `DPPL._l_operator` (dpp.py:112-113): `F.logsumexp(eta * q_values) / eta`. -/
noncomputable def logSum (eta : ℝ) (q : List ℝ) : ℝ := Real.log ((q.map fun x => Real.exp (eta * x)).sum) / eta

/-- `DPPGreedy._l_operator` (dpp.py:122-123). -/
noncomputable def hard (q : List ℝ) : ℝ := ActionValue.maxQ q

end Verif.DPPOperators
