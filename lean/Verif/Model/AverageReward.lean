import Mathlib.Data.Real.Basic
set_option autoImplicit false

/-!
# Model of A3C with `use_average_reward=True`

`chainerrl/agents/a3c.py`, lines 156-190, over the reals.  The book-keeping around the loop is in `Model/NStep.lean` and the losses in
`Model/PolicyGradient.lean`; here is what the loop adds with `use_average_reward`, an estimate of the reward per step that is kept across updates.
-/

namespace Verif.AverageReward

/-- A step of the rollout: `past_rewards[i]` and `past_values[i]` (a3c.py:168-176). -/
structure Step where
  reward : ℝ
  value : ℝ

/-- The constructor arguments (a3c.py:94-101, 126-127). -/
structure Args where
  gamma : ℝ
  useAverageReward : Bool
  averageRewardTau : ℝ

/-- What the losses use of a step: `R` and `advantage` (a3c.py:168-186). -/
structure Out where
  ret : ℝ
  advantage : ℝ

/-- The body of the loop (a3c.py:169-177), from `R` and `average_reward` to their new values. -/
def body (c : Args) (R avg : ℝ) (s : Step) : ℝ × ℝ × Out :=
  let R := R * c.gamma
  let R := R + s.reward
  let R := if c.useAverageReward then R - avg else R
  let advantage := R - s.value
  let avg := if c.useAverageReward then avg + c.averageRewardTau * advantage else avg
  (R, avg, ⟨R, advantage⟩)

/-- `for i in reversed(range(t_start, t))` (a3c.py:168-190); the steps are listed from the last to the first. -/
def loop (c : Args) : ℝ → ℝ → List Step → ℝ × List Out
  | _, avg, [] => (avg, [])
  | R, avg, s :: l =>
    let r := body c R avg s
    let r' := loop c r.1 r.2.1 l
    (r'.1, r.2.2 :: r'.2)

/-- `update(statevar)` (a3c.py:156-190) for the steps of the rollout in their order: the new `average_reward`, and the steps' returns and
advantages in their order.  `boot` is the value of the last state, none after a terminal state. -/
def update (c : Args) (avg : ℝ) (boot : Option ℝ) (steps : List Step) : ℝ × List Out :=
  let r := loop c (boot.getD 0) avg steps.reverse
  (r.1, r.2.reverse)

/-- A history of updates, from `average_reward = 0` (a3c.py:140). -/
def run (c : Args) : ℝ → List (Option ℝ × List Step) → ℝ
  | avg, [] => avg
  | avg, u :: us => run c (update c avg u.1 u.2).1 us

/-- `save` and `load` into a new agent: `saved_attributes` is `['model', 'optimizer']` (a3c.py:92), so `average_reward` is that of a new agent
(a3c.py:140). -/
def reloaded (_avg : ℝ) : ℝ := 0

end Verif.AverageReward
