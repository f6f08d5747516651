import Mathlib.Analysis.SpecialFunctions.Pow.Real
set_option autoImplicit false

/-!
# Models of `chainerrl/misc/reward_filter.py` and
`chainerrl/wrappers/normalize_action_space.py`

Over the real numbers: rounding is not modelled.
-/

namespace Verif.RewardFilter

/-- The attributes that change (lines 7-8). -/
structure State where
  avg : ℝ
  avgSq : ℝ

/-- reward_filter.py:4-9. -/
def State.init : State := ⟨0, 0⟩

/-- Lines 12-15. -/
noncomputable def State.update (s : State) (tau reward : ℝ) : State :=
  ⟨s.avg * (1 - tau) + tau * reward, s.avgSq * (1 - tau) + tau * reward ^ 2⟩

/-- Lines 16-17; `min(…) ** 0.5`. -/
noncomputable def State.stdev (s : State) (eps : ℝ) : ℝ := min (s.avgSq - s.avg ^ 2) eps ^ (0.5 : ℝ)

/-- Lines 11-18: the filtered reward; `none` is ZeroDivisionError. -/
noncomputable def State.call (s : State) (tau scale eps reward : ℝ) : State × Option ℝ :=
  let s' := s.update tau reward
  (s', if s'.stdev eps = 0 then none else some (scale * (reward - s'.avg) / s'.stdev eps))

/-- The state after a sequence of rewards (iterates reward_filter.py:11-18). -/
noncomputable def State.after (tau : ℝ) (s : State) (rewards : List ℝ) : State :=
  rewards.foldl (fun s r => s.update tau r) s

/-- AverageRewardFilter, lines 27-30. -/
noncomputable def averageCall (avg tau reward : ℝ) : ℝ × ℝ :=
  let avg' := avg * (1 - tau) + tau * reward
  (avg', reward - avg')

end Verif.RewardFilter

namespace Verif.NormalizeAction
variable {K : Type} [Add K] [Mul K] [Sub K] [Div K] [One K] [OfNat K 2]

/-- normalize_action_space.py lines 17-28, one coordinate. -/
def action (low high a : K) : K := (a + 1) * ((high - low) / 2) + low

/-- All coordinates (normalize_action_space.py:17-28). -/
def actions (low high a : List K) : List K :=
  List.zipWith (fun b x => action b.1 b.2 x) (low.zip high) a

end Verif.NormalizeAction
