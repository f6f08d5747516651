import Verif.Model.Py
set_option autoImplicit false

/-!
# Model of the seeds that the example scripts give to their environments

`examples/*/train_*.py`: from the option `--seed` and the number of environments (`--num-envs` or `--processes`) every
script computes one seed for each training environment and one for each test environment.  Python and NumPy integers are
`Int` (the products stay far below `2 ** 63`).  Only the seeds are modelled, not what an environment does with them.
-/

namespace Verif.ExampleSeeds

/-- One way of a script to seed: whether it has one environment or `n` of them, the number that the training seed is
subtracted from to get the test seed, and the bound that the seeds are checked against (`several` scripts) or that the help
of `--seed` documents (the others) (as in examples/atari/train_a2c_ale.py:65-100). -/
structure Script where
  name : String
  several : Bool
  top : Int
  limit : Int
deriving DecidableEq

/-- The scripts with one environment for training and one for tests (the lines of `env_seed` or `test_seed`)
(as in examples/atari/reproduction/dqn/train_dqn.py:60-90). -/
def singles : List Script := [
  -- 2 ** 32 - 1 - args.seed
  ⟨"gym/train_dqn_gym.py:84", false, 2 ^ 32 - 1, 2 ^ 32⟩, ⟨"gym/train_reinforce_gym.py:60", false, 2 ^ 32 - 1, 2 ^ 32⟩,
  ⟨"gym/train_iqn_gym.py:69", false, 2 ^ 32 - 1, 2 ^ 32⟩, ⟨"gym/train_categorical_dqn_gym.py:70", false, 2 ^ 32 - 1, 2 ^ 32⟩,
  ⟨"gym/train_pcl_gym.py:98", false, 2 ^ 32 - 1, 2 ^ 32⟩, ⟨"mujoco/train_ppo_gym.py:118", false, 2 ^ 32 - 1, 2 ^ 32⟩,
  ⟨"mujoco/train_ddpg_gym.py:76", false, 2 ^ 32 - 1, 2 ^ 32⟩, ⟨"mujoco/reproduction/td3/train_td3.py:86", false, 2 ^ 32 - 1, 2 ^ 32⟩,
  ⟨"mujoco/reproduction/trpo/train_trpo.py:69", false, 2 ^ 32 - 1, 2 ^ 32⟩,
  ⟨"mujoco/reproduction/ddpg/train_ddpg.py:88", false, 2 ^ 32 - 1, 2 ^ 32⟩,
  -- 2 ** 31 - 1 - args.seed
  ⟨"atari/train_dqn_ale.py:142", false, 2 ^ 31 - 1, 2 ^ 31⟩, ⟨"atari/train_categorical_dqn_ale.py:60", false, 2 ^ 31 - 1, 2 ^ 31⟩,
  ⟨"atari/train_drqn_ale.py:107", false, 2 ^ 31 - 1, 2 ^ 31⟩, ⟨"atari/train_double_iqn.py:79", false, 2 ^ 31 - 1, 2 ^ 31⟩,
  ⟨"atari/reproduction/iqn/train_iqn.py:72", false, 2 ^ 31 - 1, 2 ^ 31⟩,
  ⟨"atari/reproduction/dqn/train_dqn.py:63", false, 2 ^ 31 - 1, 2 ^ 31⟩,
  ⟨"atari/reproduction/rainbow/train_rainbow.py:62", false, 2 ^ 31 - 1, 2 ^ 31⟩]

/-- `examples/mujoco/train_trpo_gym.py:72`: `2 ** 32 - args.seed`. -/
def trpoGym : Script := ⟨"mujoco/train_trpo_gym.py:72", false, 2 ^ 32, 2 ^ 32⟩

/-- The scripts with several environments (the lines of `env_seed`; `assert process_seeds.max() < limit` stands before)
(as in examples/atari/train_a2c_ale.py:65-100). -/
def severals : List Script := [
  -- 2 ** 32 - 1 - process_seed
  ⟨"gym/train_a3c_gym.py:137", true, 2 ^ 32 - 1, 2 ^ 32⟩, ⟨"gym/train_pcl_gym.py:96", true, 2 ^ 32 - 1, 2 ^ 32⟩,
  ⟨"gym/train_acer_gym.py:83", true, 2 ^ 32 - 1, 2 ^ 32⟩, ⟨"gym/train_a2c_gym.py:133", true, 2 ^ 32 - 1, 2 ^ 32⟩,
  ⟨"mujoco/train_ppo_batch_gym.py:76", true, 2 ^ 32 - 1, 2 ^ 32⟩, ⟨"mujoco/train_ddpg_batch_gym.py:85", true, 2 ^ 32 - 1, 2 ^ 32⟩,
  ⟨"mujoco/reproduction/ppo/train_ppo.py:84", true, 2 ^ 32 - 1, 2 ^ 32⟩,
  ⟨"mujoco/reproduction/soft_actor_critic/train_soft_actor_critic.py:104", true, 2 ^ 32 - 1, 2 ^ 32⟩,
  ⟨"grasping/train_dqn_batch_grasping.py:198", true, 2 ^ 32 - 1, 2 ^ 32⟩,
  ⟨"atlas/train_soft_actor_critic_atlas.py:40", true, 2 ^ 32 - 1, 2 ^ 32⟩,
  ⟨"atari/train_dqn_batch_ale.py:137", true, 2 ^ 32 - 1, 2 ^ 32⟩, ⟨"atari/train_ppo_ale.py:103", true, 2 ^ 32 - 1, 2 ^ 32⟩,
  -- 2 ** 31 - 1 - process_seed
  ⟨"atari/train_nsq_ale.py:75", true, 2 ^ 31 - 1, 2 ^ 31⟩, ⟨"atari/train_acer_ale.py:127", true, 2 ^ 31 - 1, 2 ^ 31⟩,
  ⟨"atari/train_a2c_ale.py:102", true, 2 ^ 31 - 1, 2 ^ 31⟩, ⟨"atari/train_a3c_ale.py:146", true, 2 ^ 31 - 1, 2 ^ 31⟩,
  ⟨"atari/reproduction/a3c/train_a3c.py:128", true, 2 ^ 31 - 1, 2 ^ 31⟩]

/-- `process_seeds = np.arange(n) + seed * n` and `assert process_seeds.max() < limit` (e.g.
examples/gym/train_a3c_gym.py:128-129, examples/atari/train_nsq_ale.py:66-67); the maximum of no numbers is a `ValueError`. -/
def processSeeds (limit : Int) (n : Nat) (seed : Int) : Py (List Int) :=
  let l := (List.range n).map fun i : Nat => (i : Int) + seed * n
  match l.max? with
  | none => .error .valueError
  | some m => if m < limit then .ok l else .error .assertionError

/-- `env_seed = top - process_seed if test else process_seed` (e.g. examples/gym/train_a3c_gym.py:137). -/
def envSeed (top : Int) (test : Bool) (processSeed : Int) : Int := if test then top - processSeed else processSeed

/-- The seeds of the training environments and of the test environments of a run of `s` with `--seed seed` and `n`
environments.  Before, `misc.set_random_seed(args.seed)` refuses seeds outside `[0, 2 ** 32)`
(chainerrl/misc/random_seed.py:8-36, `Model/RunAsync.lean`).  Scripts that make only one test environment use the first of
the test seeds. -/
def seeds (s : Script) (n : Nat) (seed : Int) : Py (List Int × List Int) := do
  if ¬ (0 ≤ seed ∧ seed < 2 ^ 32) then throw .valueError
  let l ← if s.several then processSeeds s.limit n seed else pure [seed]
  return (l.map (envSeed s.top false), l.map (envSeed s.top true))

end Verif.ExampleSeeds
