import Verif.Model.TrainPrioritized
set_option autoImplicit false

/-!
# The `betasteps` of the example scripts

Each script with prioritized replay computes the number of `betasteps` of its
`PrioritizedReplayBuffer` from its command line.  Floats are real numbers.
-/

namespace Verif.BetaSteps

/-- `examples/gym/train_dqn_gym.py:146-147`, `examples/gym/train_categorical_dqn_gym.py:111-112`:
`(args.steps - args.replay_start_size) // args.update_interval` (for `replay_start_size <= steps`; a
smaller number of steps would make the difference negative). -/
def gym (steps startSize interval : Nat) : Nat := (steps - startSize) / interval

/-- `examples/atari/train_dqn_ale.py:196`, `examples/atari/train_double_iqn.py:140`,
`examples/atari/reproduction/rainbow/train_rainbow.py:112-113`: `args.steps / args.update_interval`. -/
noncomputable def atari (steps interval : Nat) : ℝ := (steps : ℝ) / interval

end Verif.BetaSteps
