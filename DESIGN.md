# Formal model of chainer/chainerrl in Lean 4

## What this is

`/verif/lean/Verif` contains a shallow, executable Lean 4 model of the Python
code in `/repo/chainerrl`, and machine-checked theorems about it.  The model
mirrors the Python functions branch by branch; exceptions (`IndexError`,
`AssertionError`, `ValueError`, ...) are values of the model.

Layout, per topic `X`:

* `Verif/Model/X.lean`  - definitions that model code; each carries a comment
  with file and lines in `/repo`, and says what was simplified;
* `Verif/Spec/X.lean`   - (where useful) the small independent specification in
  terms of which the property is stated (plain lists, sums, ...);
* `Verif/Proofs/X.lean` - helper lemmas and invariants;
* `Verif/Props/X.lean`  - the property theorems, each followed by an `example`
  showing that a concrete non-trivial case meets its hypotheses.

## Proof technique

* Data structures: refinement to a plain list by an invariant proved by
  induction over an arbitrary sequence of operations.
* Training / evaluation loops and wrappers: the environment, the agent and
  random number generators are oracles (arbitrary functions or lists of
  responses), loops are modelled with structural recursion on the response
  stream or on an explicit measure; properties are proved for all oracles.
* Concurrency: processes are program counters with atomic actions at the
  granularity of the locks in the code, executions are arbitrary schedules
  (lists of process ids); properties are invariants over all schedules.
* Numeric code: real numbers are modelled by an arbitrary linearly ordered
  field (or by `Real` where exp/log/sqrt/powers occur).  Floating point
  rounding is modelled only for the priority queues (C142, `Model/Float64.lean`:
  binary64, round to nearest, ties to even); NaN and overflow are NOT modelled.

Where the code violates the property that a user would expect, the violation is
proved in the model with a concrete witness (theorem names ending in
`_violated` or starting with `not_`), and what does hold is proved with the
suffix `_partial`.

## Trusted base

* Lean 4.33.0's kernel; axioms used by the theorems: only the standard
  `propext`, `Classical.choice`, `Quot.sound`.  No `sorry`, no axioms of our
  own, no `native_decide`, no `bv_decide`.
* The correspondence between the Lean definitions and the Python text, checked
  by reading only (the sandbox cannot run the project).
* Semantics of Python, numpy and chainer primitives as described in the
  comments of the model files: lists/deques/dicts, exact arithmetic in place
  of IEEE floats, `multiprocessing` locks providing mutual exclusion, pipes
  being FIFO and reliable.
* Modelled and not modelled, per file: see the table "Coverage" at the end; the
  axioms of each theorem are listed under "Axioms" after it.
* Not modelled anywhere: floating point (rounding outside C142, NaN, overflow), the bytes
  of files (`.npz`, pickle, PNG, DOT; save/load stores and retrieves values),
  Chainer's own code (its backpropagation, its LSTM, convolution and linear
  links are arbitrary functions or functions as documented; where a property
  needs a derivative it is Mathlib's `HasDerivAt`), gym's and OpenCV's code,
  the Atari emulator, the CUDA runtime (kernels are modelled as their
  elementwise source), logging, argument parsing, `examples/`, docs, tests.
* Random numbers are arguments or oracles (arbitrary functions of a state);
  where a property is about a law, the law is a measure and the theorem is
  about integrals against it.  That numpy's generators have the documented laws
  is assumed.

## Plan per property

| id | property | model and proof |
|---|---|---|
| C01 | RandomAccessQueue is a bounded FIFO list | Model/RandomAccessQueue: both lists and every method; refinement to a bounded list by induction over operations. |
| C02 | RandomAccessQueue random access by positive and negative index | Same model; theorem for all Int indices, error cases included. |
| C03 | sample_n_k returns k distinct indices in range | Model/SampleNK with the draws as an oracle stream and fuel-free relational/partial loop; invariant on selected set. |
| C04 | SumTreeQueue and MinTreeQueue agree with a list | Model/TreeQueue: recursive node type with the cached aggregates; representation invariant relates tree+bounds to a list. |
| C05 | Prioritized sampling selects proportionally to priority | Same model; prefix sum characterisation of _find by induction on the tree. |
| C06 | Multi-sampling with removal is without replacement and restores priorities | Same model; induction over the draws. |
| C07 | PrioritizedBuffer priority updates hit the sampled items | Model/PrioritizedBuffer on top of the two previous models; invariant over op sequences. |
| C08 | Priorities survive appends between sampling and updating | Same model; negation with a concrete history, positive partial theorem without capacity eviction. |
| C09 | n-step replay stores one correctly sliced entry per transition | Model/ReplayBuffer; per-episode induction with loop invariant for the window. |
| C10 | Replay entries never mix episodes or environments | Same model; invariant over arbitrary op histories tagged with env/episode. |
| C11 | Replay buffer capacity and FIFO eviction | Refinement to List.drop of the ghost history. |
| C12 | Replay buffer save/load round trip | save = the memory value, load = both branches; bisimulation afterwards. |
| C13 | Episodic buffer: transition view and episode view agree, eviction is by whole episodes | Model/EpisodicBuffer; invariant memory = flatten episodes. |
| C14 | Episode subsequences are contiguous and of bounded length | random_subseq for any start draw. |
| C15 | Prioritized episodic buffer respects its capacity | Model/PrioritizedEpisodic; invariant; negation for load. |
| C16 | batch_experiences computes the n-step target ingredients | Model/BatchExperiences over a commutative semiring; closed form. |
| C17 | ReplayUpdater updates on schedule and never over-samples | Model/ReplayUpdater with counted update calls. |
| C18 | Importance weights of prioritized replay are normalised | Real-number model with rpow. |
| C19 | Linearly decayed epsilon | Ordered-field model; ZeroDivisionError as a value. |
| C20 | Epsilon-greedy selection | Model with call log. |
| C21 | train_agent drives the agent through a well-formed protocol | Model/TrainLoop: environment as oracle stream of responses; event trace; trace grammar theorem. |
| C22 | train_agent saves checkpoints and a final or exception snapshot | Same, with exceptions injected at every call. |
| C23 | train_agent_batch step accounting and resets | Model/TrainBatch over vectors of responses. |
| C24 | train_agent_batch stops on success | Same; negation with score 0. |
| C25 | Asynchronous training: global step numbers are unique and training ends once | Model/TrainAsync: small-step semantics over arbitrary schedules; invariants. |
| C26 | Evaluator evaluates once per interval and keeps the best score | Model/Evaluator state machine. |
| C27 | AsyncEvaluator evaluates each interval at most once across processes | Model/AsyncEvaluator small-step semantics over arbitrary schedules. |
| C28 | Evaluation runs collect exactly the requested episodes or steps | Model/EvalEpisodes: oracle streams. |
| C29 | Vectorised evaluation is unbiased: first-started episodes are reported | Model/BatchEval: oracle streams; invariant on episode indices. |
| C30 | Demonstration collection honours max_episode_len | Model/CollectDemos; negation by witness, exact bound proved. |
| C31 | Agent save/load round trip and cycle detection | Model/Saving: attribute trees for round trip, heap graph for cycles. |
| C32 | SerialVectorEnv steps and masked resets act per environment | Model/VectorEnv. |
| C33 | MultiprocessVectorEnv is observationally equal to SerialVectorEnv | Model/VectorEnv: worker processes with FIFO pipes, arbitrary schedules, bisimulation. |
| C34 | VectorFrameStack and FrameStack show the last k frames | Model/FrameStack. |
| C35 | ContinuingTimeLimit signals needs_reset without termination | Model/Wrappers. |
| C36 | EpisodicLifeEnv: true resets only at real game over | Model/AtariWrappers. |
| C37 | MaxAndSkipEnv returns the maximum over the last two frames | Model/AtariWrappers. |
| C38 | NoopReset and FireReset return the observation of the state they leave the game in | Model/AtariWrappers. |
| C39 | NormalizeActionSpace maps [-1,1] onto [low,high] | Ordered-field model. |
| C40 | Time-limited and action-repeating environment modifiers | Model/EnvModifiers. |
| C41 | Reward normalisation keeps the divisor away from zero | Model/RewardFilter; negation. |
| C42 | DQN records every environment step exactly once | Model/DQNAgent on top of the replay model. |
| C43 | DQN target network synchronisation schedule | Same. |
| C44 | Bootstrapping is cut at terminal states | Model/Targets. |
| C45 | DDPG bootstraps n-step entries with gamma^n | Model/Targets; negation. |
| C46 | Categorical projection conserves probability mass | Model/Categorical over ordered fields with floor. |
| C47 | A3C and NSQ use n-step discounted returns | Model/Returns and a rollout state machine. |
| C48 | A2C returns respect episode ends inside a rollout | Model/Returns. |
| C49 | PPO/TRPO advantages are the GAE sums | Model/Returns. |
| C50 | PPO/TRPO use every transition in exactly one update | Model/PPOMemory state machine. |
| C51 | Recurrent minibatches partition the dataset | Model/PPOMemory functions. |
| C52 | ACER trust-region step is the projection onto the KL constraint | Ordered field vectors. |
| C53 | PCL applies each importance weight to its own episode | Model/PCL; negation. |
| C54 | REINFORCE uses undiscounted returns of complete episodes | Model/Reinforce. |
| C55 | TRPO line search never accepts an unsafe step | Model/TRPO. |
| C56 | Soft and hard parameter copies | Model/CopyParam. |
| C57 | EmpiricalNormalization tracks the exact empirical mean and variance | Model/EmpiricalNorm. |
| C58 | EmpiricalNormalization uses a consistent snapshot | Model/EmpiricalNorm with aliasing made explicit. |
| C59 | state_kept / state_reset restore the recurrent state | Model/Recurrent: tree of links with a shared stack. |
| C60 | Stateless recurrent state surgery | Model/StatelessRecurrent. |
| C61 | Lower-triangular packing is a bijection | Model/LowerTriangular. |
| C62 | Conjugate gradient | Model/ConjugateGradient over an inner-product-like structure. |
| C63 | QuadraticActionValue.max is the maximum over allowed actions | Model/ActionValue. |
| C64 | DiscreteActionValue.max and advantages | Model/ActionValue. |
| C65 | IQN quantile loss trains the tau-quantile | Model/Quantile. |
| C66 | Softmax policy probabilities | Real.exp/log model. |
| C67 | Gaussian KL divergence | Real.log model. |
| C68 | Mellowmax is a non-expansion bounded by the maximum | Real.exp/log model. |
| C69 | InvertGradients pushes values back into range | Ordered field. |
| C70 | Linear interpolation hook | Ordered field. |
| C71 | TD3 delayed policy updates | Model/ActorCritic; schedule invariant; negation for n_times_update. |
| C72 | ACER truncated importance weight plus bias correction is unbiased | Model/ACER over finite action sets. |
| C73 | ACER regression targets are Retrace targets | Model/ACER backward recursion. |
| C74 | PCL losses are path consistency errors | Model/PCL. |
| C75 | Gaussian policies have the normal log density, entropy and divergence | Real model; Mathlib gaussianReal, expectation of the log density. |
| C76 | Maximum entropy mellowmax policy | Real model with a Brent oracle; Gibbs inequality; negation for the ignored omega. |
| C77 | Squashed Gaussian policies | Real model; derivative of the pushed-forward distribution function. |
| C78 | DDPG, TD3 and SoftActorCritic record every step and learn on schedule | Model/ActorCritic: one state machine for the three agents, any replay buffer. |
| C79 | Exploration noise has the documented law | Model/Explorers over the reals; laws as pushforwards of Gaussian measures; induction on steps. |
| C80 | Batched multi-step forward computation equals stepping each sequence alone | Model/NStepForward; Spec/NStepForward gives the step function of one sequence; mutual induction over the model tree; negation for tuple inputs of a sequential model. |
| C81 | Recurrent DQN regresses each step of the sampled episodes on its own history | Model/RecurrentUpdate on top of Model/NStepForward; concatenation of stored states proved to stand for them; then C80. |
| C82 | Recurrent DDPG updates respect what each model has seen | Model/RecurrentDDPG: row-wise recurrent functions with LSTM batch semantics; invariant on the histories; negation for the actor update. |
| C83 | Processes of an asynchronous run share models, optimizer states and counters | Model slots (parameters, persistent values, state entries) with array headers that point to buffers; `mp.RawArray` makes a new buffer and `np.frombuffer` a header with the slot's element type, failing if the number of bytes does not fit. Links are trees, objects nested tuples. Prove by mutual induction on the objects that extraction makes fresh arrays with the slots' values, that binding succeeds for every alike object, and that afterwards a write through one slot changes exactly the slots of the same path; then any sequence of writes by induction. The float32 violation is a separate theorem about the first state entry. |
| C84 | ALE environment: frame skipping, rewards, ends and stacked screens | Model/ALE.lean takes the emulator as an arbitrary deterministic machine and models initialize, reset, receive_action with its frame loop and last_raw_screen, is_terminal and step; the specification (Spec/ALE.lean) speaks of the emulator's states after k frames only. Induction over the frames of a step and over the steps of a run. The two violated clauses are theorems about every emulator. |
| C85 | RMSpropAsync and NonbiasWeightDecay | Model/Optimizers.lean models the update rule and the hook over the reals, arrays being functions of an index. Spec/Optimizers.lean defines the exponential average as a sum over the history. Induction over the gradients. |
| C86 | to_factorized_noisy converts every linear layer of a network | Model/Noisy.lean has a heap of link objects and models _map_links with its two loops over it. Spec/Noisy.lean says when the heap holds a network given as a tree and what the converted tree is. Induction over the recursion depth and the children with a frame condition; the violated clauses are theorems about every heap of the given form. |
| C87 | PPO loss: clipped objective, clipped value loss and standardised advantages | Model/PPOLoss.lean models _lossfun over the reals, one row per transition, and the standardisation. Closed forms by cases; slopes as HasDerivAt statements. |
| C88 | Minibatches of PPO and of TRPO's value function | Model/Epochs.lean models SerialIterator (position, epoch, one order for each pass) and the while loop. Invariant: what has been handed out is the passes before the current one and a prefix of the current one. |
| C89 | TRPO's step fits the KL constraint and ascends | Model/TRPOStep.lean composes the conjugate gradient model of C62 with the scaling. Every iterate x satisfies x.b = x.Ax because the residual is orthogonal to the previous directions. |
| C90 | DQN's value loss: clipped gradients, importance weights, priorities | Model/ValueLoss.lean models the functions over the reals. The specification gives the loss by its derivative; the Huber function is written as a difference of squares of positive parts to differentiate it at the boundary. |
| C91 | ChainerRL's own differentiable functions compute gradients | Model/Functions.lean models forward and backward for one element. The specification IsGradient is the chain rule with HasDerivAt along arbitrary curves. |
| C92 | Dueling, distributional and quadratic Q-function heads | Model/QHeads.lean models the code after the last linear layers. Positive definiteness: the form is a sum of squares of x L with L triangular with positive diagonal, hence invertible. |
| C93 | The Atari preprocessing pipeline and action randomization are faithful to the game's history | Model/AtariPipeline.lean composes the wrappers over an arbitrary game; the window invariant is by induction over the call history. |
| C94 | The ABC environment implements its documented game | Model/ABC.lean models reset and step. Induction over action sequences. |
| C95 | Sequence routes keyword arguments to the layers that accept them | Model/Sequence.lean models inspect's view of a layer and Python's rules for calling it with keywords. Induction over the layers. |
| C96 | Fully connected Q-functions and policies have the configured shape and respect bounds and minimum variances | Model/FCNets.lean models constructors as lists of layer shapes and calls as functions on vectors. |
| C97 | The orthogonal initializer produces orthogonal matrices of the given scale | Model/Initializers.lean; numpy.linalg.qr is an argument of which only the defining equations of a QR decomposition are assumed, at the one matrix it is called with. |
| C98 | ACER and PCL learn from every step once on-policy, record it once with its behaviour policy, and replay on schedule | Model/OnlineReplay.lean keeps the agents' dictionaries and replay buffer (an arbitrary one). Invariant: the dictionaries have exactly the keys t_start..t-1. Induction over the steps of an episode and over the episodes. |
| C99 | Factorized noisy layers compute the mean network on average, with the documented factorized noise | Model/NoisyLinear.lean; the law is Mathlib's product of standard Gaussians. An output minus its mean is a polynomial in the transformed draws; moments of monomials factorize over the draws, odd ones vanish by symmetry, the second one is E|Z| = sqrt(2/pi). |
| C100 | Downloaded pretrained models are complete, with concurrent processes and crashes at any point | Model/Pretrained.lean is a transition system with one step per file system operation, lock owners, kills and exceptions. An inductive invariant (mutual exclusion, contents, progress of the extraction) over all reachable states. |
| C101 | Output directories are new, private to one call, and complete | Model/OutputDir.lean is a transition system with one step per file system operation. Invariant: directories made by different calls differ and were absent at the start; the files written so far are a prefix of the documented ones. |
| C102 | Sampled actions follow the distribution's probabilities | Model/Sampling.lean: the code adds Gumbel noise to the log probabilities and takes the argmax. The set of draws for which action i strictly wins has, by Fubini, volume integral of t^(1/p_i - 1) = p_i; these sets are disjoint and fill the cube, so ties have no weight. |
| C103 | The policy losses of REINFORCE, A3C, A2C and PGT have the policy gradient as their expected gradient | Spec/PolicyGradient.lean: environments as trees of outcomes, the expectation over rollouts, the policy gradient and the value by recursion on the tree. The agents' losses are obtained by running the models of C47, C48 and C54 along a rollout with the log probabilities as functions of the parameters, and differentiated; induction over the tree, using that the mean of the score is zero. |
| C104 | The losses of SoftActorCritic and TD3 have the intended optima | Model/SAC.lean: the losses as functions of log probabilities and Q-values. The expected loss over the product law of the sampled actions is -temperature log Z plus temperature times a Kullback-Leibler divergence, which is non-negative and zero only for equal densities. |
| C105 | PGT records the environment's steps and updates on schedule, and evaluation leaves this alone | Model/PGT.lean: the methods as functions on the attributes that also return the events. The effect of one call in closed form; induction over the calls. |
| C106 | CategoricalDQN trains towards the projected return distribution, with bounded priorities | Model/CategoricalLoss.lean composes the models of batch_experiences (C16), of the action values (C64) and of the projection (C46). Gibbs' inequality by induction over the atoms from log x <= x - 1. |
| C107 | Seeding determines every generator and run_async waits for and reports on every process; but its processes share one seed | Model/RunAsync.lean: abstract generators, a transition system of the parent and its forked children. An invariant by induction over the steps. |
| C108 | IQN and DoubleIQN: networks, targets, loss and actions treat every observation and threshold on its own | Model/IQNUpdate.lean writes reshapes as flattening and cutting of lists of rows; composed with the models of batch_experiences (C16), quantile action values (C64) and the loss (C65). |
| C109 | PPO and TRPO learn from on-policy data with the behaviour policy's own probabilities and values | Model/PPODataset.lean models the flat passes over concatenated episodes and what happens to one environment's recurrent states; C109_on_policy is about the book-keeping model of C50. An invariant says that a slot's recurrent state is the one after its last transition. |
| C110 | Evaluation during training leaves training alone | Model/EvalCalls.lean: an agent is a training state with arbitrary training methods plus the test recurrent rows; the evaluation methods act on the latter. The runs of the two evaluators come from C28 and C29 and are replayed on the agent; the batch case keeps the invariant that each row is the state after the observations of the current episode. The other agents are handled with the models of C78 and a stateful model; the counterexamples are concrete runs. |
| C111 | Asynchronous updates share one model without locks | Model/AsyncUpdate.lean: a process is a small machine whose steps are single in-place array operations on shared arrays; a schedule is any list of turns. The sum, once-only and sign claims are invariants over schedules; the serial claim runs one process alone through its phases and compares with the update rule of C85; the average model's two violations are a two-process schedule and a save/load scenario. |
| C112 | Monitor records every episode once, however it ends | Model/Monitor.lean: the recorder's attributes, with gym's base class as published, as a state machine on calls with the environment's outcomes. One invariant relates the state to the episodes as the caller saw them. |
| C113 | The life of a vector environment: seeding, failing environments, interrupts and close | Model/VectorLife.lean: workers with pipes as queues that may exit, and a parent that executes a list of sends, reads and joins; a schedule picks who moves. A measure bounds every schedule; invariants for close and for requests give progress and the result. Hanging is the statement that no schedule empties the parent's list. |
| C114 | The deprecated SumTree is a map with proportional sampling | Model/OldSumTree.lean follows the class method by method. A representation predicate by depth gives reading, writing, growing and picking; drawing and restoring are inductions over the random numbers. |
| C115 | Target networks follow the online network only through synchronisation, and are evaluated in test mode | Model/TargetNet.lean: network objects with parameters, statistics and an attribute __call__ that calls do not consult, histories of updates (arbitrary effect on the online network) and synchronisations. Closed form by induction; counterexamples with a batch normalisation layer. |
| C116 | A3C in the average reward setting | Model/AverageReward.lean follows the loop of update. Induction over the steps from the last to the first. |
| C117 | Reported statistics are averages of what their names say | Model/AgentStats.lean: for each agent the reported names, how each is kept and which computed quantity is put in. Closed forms by induction over the history. |
| C118 | Snapshots on disk at every crash point | Model/Snapshots.lean: each save is a list of operations on files (open, complete), a crash point is a prefix. The saves are those of the model of train_agent (C20-C22). Theorems by induction over operations and over the executions of train_agent. |
| C119 | What an output directory holds after several runs | Model/Results.lean: scores.txt and best as a state on disk, changed by the events of Model/Evaluator.lean, over a list of runs. Theorems by induction over the calls of the last run. |
| C120 | GPU code computes what the CPU code computes | Model/Gpu.lean: elementwise kernels over arrays with memory and offsets, index arrays as the code builds them. Each is proved equal to the CPU model of Model/NumericFns.lean, Model/Functions.lean and Model/Optimizers.lean, element by element. |
| C121 | A training run as a whole: the replay buffer holds exactly what happened in the environment | Model/TrainDQN.lean composes the models of train_agent, DQN and ReplayBuffer. Spec/TrainDQN.lean: the record of someone who watches only reset and step. Induction over the protocol of C21 with an invariant that relates the phase of the run to the agent's state, then C09 and C11. |
| C122 | A vectorised training run as a whole: the replay buffer holds exactly what happened in each environment | Model/TrainBatchDQN.lean composes the models of train_agent_batch, DQN and ReplayBuffer. Spec/TrainBatchDQN.lean: the record of someone who watches one environment. Induction over the protocol of C23 with an invariant that relates the phase of the run, the records and the agent's state; a second invariant for its clock; then the replay buffer's run_spec (C09). |
| C123 | A training run tells DDPG, TD3, SAC, PPO, TRPO and REINFORCE exactly what happened | Model/TrainCalls.lean composes the models of train_agent and of the agents. An invariant over the protocol of C21 gives the calls as episodes; from these the agents' own theorems (C78, C50, C54) and the replay buffer's (C09, C11) give the rest. |
| C124 | A vectorised training run tells DDPG, TD3, SAC, PPO, TRPO and A2C exactly what happened | Model/TrainBatchCalls.lean composes the models of train_agent_batch and of the agents. An invariant over the protocol of C23 gives the calls as rounds; from these the agents' own theorems (C78, C50, C48) and the replay buffer's (C09, C11) give the rest. The case step_offset > 0 is false for A2C. |
| C125 | An asynchronous training run tells A3C, NSQ, ACER and PCL exactly what happened | Model/TrainAsyncCalls.lean composes the models of train_agent_async and of the agents, with arbitrary outputs of the shared networks. An invariant over the protocol of C25 gives the calls as episodes; C47 and C98 then give the updates, where an unfinished episode is completed by an arbitrary end and the run cut off before it. |
| C126 | PCL's replay update of a recurrent model treats every episode alone | Model/PCLRecurrent.lean gives each row of the model a hidden state that a call on a batch advances as Chainer's LSTM does. An invariant of the loop over times says that the rows of the last call are the hidden states of the episodes run alone; so the columns are those of a memoryless model on episodes of hidden states, and C74's lemmas apply. |
| C127 | Choosing actions leaves networks with batch normalisation alone | Model/BatchNorm.lean models the networks on whole batches in both modes, with Chainer's BatchNormalization as documented, and the mode in which each agent calls its network when acting. Test mode by computation through the layers; training mode by algebra over any field. |
| C128 | Loading from a file with other entries | Model/Npz.lean: objects as lists of named entries, the strict pass that stops at the first missing one, and the lenient pass after it. Induction over the entries. |
| C129 | Stochastic dueling networks: ACER's action values and state values agree on average | Model/SDN.lean has the samples as arguments; the theorems integrate over a product of copies of the policy's measure, with Mathlib's product measures and variances. That sample() has the policy's law is C75, C77 and C102. |
| C130 | Wrappers that render, scale, cast, clip, seed or delegate change only what they say | Model/SimpleWrappers.lean: an environment is a function of its state and a call that returns or raises; wrappers are functions of environments. Induction over the history; `logged` writes down the calls that reach the environment. |
| C131 | Which images the convolutional heads accept and which pixels they read | Model/ConvHeads.lean: Chainer's convolution without padding as documented, the heads as lists of layers. Sizes by arithmetic, and a divisor argument for the linear layer's 3136 = 64 * 49 and 2592 = 32 * 81 inputs; receptive fields by one lemma on a convolution used three times. |
| C132 | A whole training run of a DQN with prioritized replay never fails and keeps entries, priorities and weights consistent | Model/TrainPrioritized.lean puts the models of C121, C07, C17 and C18 together. One batch by C07_round and C18; a batch keeps the invariant (history of the buffer, annealed beta, good report); the n-step feeding in lockstep with the plain buffer of C121, so that its entries are those of C121_buffer. |
| C133 | A training run continued from a snapshot with step_offset goes on exactly as the run that was not interrupted | Model/Resume.lean: the agents after load with t set. The run is split at the reset (induction over the loop with the cases of C21); the rest of the loop is simulated by a loop with shifted inputs, another offset and episode counter. DQN: the state at the end of an episode is that of a new agent except for t and the networks; the windows of the buffer are empty there. The failing agents: invariant that t_start is 0 while the books hold nothing below T. |
| C134 | The soft operators of DPP and DPPL are bounded by the maximum and approach that of DPPGreedy | Model/DPPOperators.lean over the reals with Mathlib's exp and log (rounding is left out). The lower bound for DPP is the entropy bound: log of the weights and Jensen's inequality for the logarithm of the sum; the bounds for DPPL from n e^{eta max} >= sum >= e^{eta max}. |
| C135 | A Q-function that meets its own targets holds the optimal values | Spec/Optimality.lean: processes, policies, expected returns. The targets are those of C44; a table that meets them satisfies the optimality equation of Bellman (for AL and PAL: the advantage terms are at most 0 and vanish at the greedy action), and the equation gives both bounds by induction on the horizon. |
| C136 | PCL's loss vanishes exactly at the optimum with an entropy bonus | Spec/SoftOptimality.lean: returns with an entropy bonus. The loss is that of Model/PCL.lean (C74); it vanishes iff all path errors do. One-step consistency and Gibbs' inequality (C66) give the bounds by induction on the horizon; the path errors of longer paths telescope. |
| C137 | ACER's Retrace targets evaluate the current policy from the data of any other policy | Spec/Retrace.lean: the weighted list of all segments that an action can begin. The targets are those of Model/ACER.lean (C73). The expected target of the first step satisfies a recursion over the segment length; the fixed point and the bound follow by induction, the bound because p - mu*min(1, p/mu) is not negative. The exponent 1/dim of the coefficients of continuous actions is not covered by the bound. |
| C138 | The targets of A3C, A2C, PPO and TRPO evaluate the current policy | Spec/OnPolicy.lean: the weighted list of all paths that an action can begin. The targets are those of the models of C47 (Spec/NStep.lean), C48 (Spec/A2C.lean) and C49 (Model/PPOData.lean); all satisfy one recursion with a parameter lambda, whose expectation is bounded by induction on the length of the path. |
| C139 | Critics of DDPG, TD3 and SoftActorCritic that meet their targets hold the values of the policy | Spec/ContinuousPolicy.lean: processes with any action type, policies as weighted samples, the expected return with bonus. The targets are those of Model/Targets.lean (C44, C45); the equation they imply is iterated by induction on the horizon. |
| C140 | Multi-step Q-learning targets of DQN and NSQ: optimal for greedy data, never above the optimal values otherwise | Paths of Spec/OnPolicy.lean; targets of Model/Targets.lean on the batch of one multi-step entry (C44), and the return loop of C47. Bounds by iterating monotone expected targets and the Archimedean property; the greedy case by contraction of iterates with different numbers of steps; the counterexample is evaluated in the kernel. |
| C141 | Continuing a run: DDPG, TD3 and SoftActorCritic are exact with a saved replay buffer; PPO, TRPO and REINFORCE lose collected data | Model/Resume.lean: what a new agent with a loaded snapshot holds. The calls of the run are those before the reset followed by those of the continued run (C133). For (a) the state after the last stop_episode_and_train equals the loaded one. For (b) and (c) the episodes known to the agents are compared and the counts of C123 applied. |
| C142 | Prioritized sampling in floating-point arithmetic | Model/Float64.lean: non-negative binary64 numbers, round to nearest with ties to even; Model/TreeQueue.lean and Model/PrioritizedBuffer.lean are generic in the number type and run over it. (a) is the invariant of C04, which needs of the operation only that one number is its own sum; (b) follows by induction on the tree from the relative error of one rounding, with the height bounded over the history; (c) is proved when no sum needs rounding (priorities are multiples of a power of two below 2^53 times it) and refuted otherwise by two evaluated programs; for arbitrary priorities it is proved that all variates up to 1 - 126 / 2^53 stay in range (C142_in_range), by induction on the tree with a distance from the total that shrinks by two roundings per level on the right spine. |
| C143 | The double-backprop check of TRPO | Model/OldStyle.lean: the recursion over an arbitrary graph with a bounded stack, counting the variables it looks at. Spec/OldStyle.lean defines what took part in a computation, chains and walks. Exactness and the number of visits (one per walk) by induction on the depth; the LSTM that n_step_lstm records without cuDNN is a graph with 3 functions per step and at least 2^t visits. |
| C144 | The policy update of TRPO makes progress | Model/TRPOUpdate.lean: chainer.grad is the mathematical gradient, the Hessian-vector product the gradient of the gradient times a vector, and the update composes klStep (C89) and lineSearch (C55). The KL divergence has a minimum at the current parameters (C66, C67), so its Hessian is symmetric (Mathlib) and positive semidefinite (second-order Taylor expansion, Proofs/SecondOrder.lean). The derivative of the gain along the step is positive (C89), so small steps are safe and C55 finds the first. |
| C145 | Iterating the targets of AL and PAL | Targets of Model/Targets.lean (C44) over the processes of C135. Both operators lie between T Q and T Q + alpha (Q - max Q) (Proofs/GapLearning.lean); the best values then grow up to a vanishing error and stay below the optimum plus a vanishing error, so they converge, and the limit is the fixed point. The optimal table exists by the contraction argument. |
| C146 | Iterating the targets of DPP, DPPL and DPPGreedy | Targets of Model/Targets.lean (C44) with the operators of Model/DPPOperators.lean, which are within log n / eta of the maximum (C134). Adding up the iterations, the table plus the sum of all state values so far is the initial table plus k times the optimal one plus the discounted expectation of the drift (sum of the state values less k times the optimal ones); the drift is bounded by induction (Proofs/DPPLearning.lean). |
| C147 | Ready-made recurrent networks, softmax policies and value functions | Model/FCLSTM.lean on top of Model/FCNets.lean: the cell of the LSTM row by row; induction over the sequence of inputs with the invariant that outputs of the cell are between -1 and 1. C147_step shows that these networks are recurrent functions of rows, the assumption of C82. |
| C148 | Iterating the targets of CategoricalDQN and CategoricalDoubleDQN | Targets of Model/CategoricalLoss.lean (C46, C106). Projecting replaces a function on the range of the atoms by its linear interpolation between the atoms, which keeps Lipschitz constants and is within dz / 2 (Proofs/CategoricalLearning.lean); so the distance in averages of Lipschitz functions shrinks by gamma per iteration. Means follow the targets of DQN up to the clipping (C135, C145). |
| C149 | Alternating critics and actors of DDPG, TD3 and SoftActorCritic | Targets of Model/Targets.lean as in C139, losses of Model/SAC.lean, soft update of Model/CopyParam.lean. Values of a policy exist as limits of its n-step returns; a soft update is a convex combination; policy improvement by iterating the monotone one-step operator of the new policy from the values of the old one. |
| C150 | Batches of distributions: queries, slices and copies | Model/DistribBatch.lean: objects that refer to arrays in a heap (views share a buffer), with ln_var computed at construction and cached probabilities. Invariant UpToDate (what was computed earlier is what the arrays give now), kept by every query; the meaning of an object is a list of the single distributions of Model/Distrib.lean. |
| C151 | Policy updates of PPO and TRPO that improve their objectives improve the policy | computeGain of Model/TRPOStep.lean and surrogate of Model/PPOLoss.lean on the advantages of Model/PPOData.lean, averaged over the paths of Spec/OnPolicy.lean. The difference of the values of two policies satisfies an equation with the expected advantages (performance difference), which is iterated; the divergence bounds the change of probabilities (Cauchy-Schwarz on square roots). |
| C152 | DQN on a table learns the optimal values whatever is replayed | tableLoss of Model/TabularDQN.lean composes the batches and targets of Model/Targets.lean with the loss of Model/ValueLoss.lean. Its partial derivatives are computed, so that an update is a mixture of the old entry and the target with a weight that is bounded below while the errors are bounded. Proofs/AsyncIteration.lean shows that mixtures with delayed targets of a contraction converge: the errors stay in a box, every entry eventually enters a smaller box, and so does the target network. |
| C153 | init_like_torch gives every linear and convolutional layer fresh weights of the documented size | Model/InitLikeTorch.lean: links as trees, arrays as lists of entries, a stream of random numbers with a position. Mutual induction over the tree; integrals for the moments; Cauchy-Schwarz for the bound of outputs. |
| C154 | Asking before a replay buffer is saved, collecting variables, branched links | Model/Helpers.lean; induction over lines and over nested lists. |
| C155 | With random outcomes, learning rates that decrease and enough exploration, the DQN update on a table learns the optimal values almost surely | Model/TabularDQN.lean (tableLoss, the loss of DQN for a table). Proofs/StochasticApproximation.lean: an asynchronous contraction with noise whose weighted sums converge follows the fixed point. Proofs/NoiseSeries.lean: sums of martingale differences with bounded squares converge (Doob). Props/QLearning.lean joins them; Props/QLearningExists.lean builds runs from independent uniform numbers; Props/QLearningExplores.lean replaces the condition on visits by exploration. Props/QLearningWalk.lean: reachable states are visited with a positive probability (induction over the path, conditional expectations). Props/QLearningGreedy.lean: runs with Model/EpsilonGreedy. |
| C156 | What a table learns from a replay buffer whose contents stay | Model/TabularDQN.lean (tableLoss). The update with the whole buffer is a step towards the backup of the process that the buffer shows, so the asynchronous iteration of C152 applies; for small values the clip never acts; for the counterexample the recursion is solved. |
| C157 | ResidualDQN comes to rest only at the optimum, if there is no chance in the environment | Model/ResidualDQN.lean: loss and backpropagation for a table, with the models of targets (C44), losses (C90) and scale_grad (C91). The gradient is compared with HasDerivAt. Resting points: the gradients, weighted with the signs of the errors, sum to at least (1 - |grad_scale| gamma) times the sum of the absolute errors. A fork with two outcomes is the counterexample. |
| C158 | Iterating the targets of Double DQN | Model/Targets.lean (doubleDqn). The values of the chosen actions satisfy an implicit iteration; the increases from round to round shrink by gamma, which bounds the residual of the optimality equation from one side; the other side is as for DQN. Counterexample: two states whose choices follow and avoid each other. |
| C159 | What the importance weights of prioritized replay make up for | Model/PrioritizedBuffer.lean, Model/PriorityWeights.lean; Spec/PriorityFair.lean states the weighted mean through the results of the calls. The weighted quantity is constant between the prefix sums of the priorities, so its integral over the variate is a finite sum. |
| C160 | What SARSA with an epsilon-greedy explorer learns | Model/Targets.lean (sarsa), Model/EpsilonGreedy.lean (select). The mean over the explorer is an integral over its variate; the fixed point comes from DQN in the process in which the environment replaces actions at random; contraction for the rate; induction over the horizon for the comparison with policies. |
| C161 | Seeds of the environments in the example scripts | Model/ExampleSeeds.lean: the 35 ways of seeding as a table (script, one or several environments, the number subtracted from, the bound), process_seeds with its assertion, env_seed. Arithmetic on integers; the overlap of training and test seeds is characterised exactly. |
| C162 | The environment of the grasping example | Model/Grasping.lean: the four wrappers over an arbitrary environment that may raise, the transposition of arrays, the lookup of the embedding. Induction over the history with the steps since reset as the invariant. |
| C163 | How far beta is annealed in a training run with prioritized replay | Model/BetaSteps.lean: the betasteps of the scripts; the rest is the model of C121 and C132. Reverse induction over the prefixes of the run: a decision makes n_times_update batches exactly when it is due, nothing else makes batches; the number of due decisions in closed form. |
| C164 | The value set by a decay hook through a whole training run | Model/DecayHooks.lean: the attribute as a function of the calls of the training loop (models of C21, C23, C25, value of C70). Spec/DecayHooks.lean: the line. Induction over the iterations (train_agent) and invariants of the call protocols (batch, async); monotonicity in a process from the order of the global numbers. |
| C165 | SARSA with an epsilon-greedy explorer learns the values of its own behaviour, almost surely | Model/TabularSarsa.lean: the loss for a table. Props/SarsaLearning.lean: the update of an entry, the difference between target and expected target as a martingale difference (the greedy action of the target network is known before the outcome), then the stochastic approximation theorem of C155 with the contraction of C160. Props/SarsaRun.lean: visits (C155), and the agent as a function of independent uniform numbers, so that the hypotheses hold for a run. Restrictions: table, plain gradient descent, one transition for each update, exact arithmetic. |
| C166 | A training run with train_agent tells PGT, A3C, NSQ, ACER and PCL exactly what happened; but a positive step_offset breaks the on-policy ones | Model/TrainSyncCalls.lean: the calls of a run of train_agent given to the models of the agents, with t set to step_offset. C123 says what the calls are; then the theorems about the agents themselves (C105, C47, C98) as in C125. For a positive offset an invariant: no entry of the book lies below the offset, and t_start is 0, so the loop of an update meets a missing key. |
| C167 | Which values IQN learns | Target and Trained are stated with targetValues and the element-wise loss of the model: a network is trained if its value minimises the expected loss under some distribution of the targets the code may compute. Strict monotonicity of the loss towards the targets puts minimisers between the bounds of the targets; from this contraction arguments for environments without chance. The violation computes the unique minimiser (1 - tau) / (1 + 2 tau) and its integral, and uses the strong law of large numbers for the choice. That the expected loss of the code is the sum of these expected losses is C167_loss. |
| C168 | Where agents with a softmax policy come to rest | The expected gradients of the losses in the model are those of C103. For a table of logits the gradient in direction v is a sum over states of covariances; it vanishes for all v iff the balance (visits times average value minus beta log-probability) does not depend on the action. Induction over the environment for the bound on the loss. C168_distribution ties the policy to the model of SoftmaxDistribution. |
| C169 | Step limits in a whole training run: which ones are learned as ends of the game | The calls of the modelled run (C21) are required to be answered by the modelled wrapper around an arbitrary environment (Spec/StepLimits.lean: Served); asIf answers the same calls with the environment inside. Induction over the calls relates the two records of the run; C121 says that the buffer holds the record. Invariants along the protocol of C21 give the lengths. For the violation the contents of the buffer are counted and C156 gives the limit of the table. |
| C170 | Step limits in a vectorised training run: each environment is cut on its own, and which cuts are learned as ends of the game | The calls of environment i are read off the modelled run (C23) and required to be answered by the modelled wrapper around an arbitrary environment (Spec/BatchLimits.lean: ofEnv, Served); asIf answers them with the environment inside. Induction over the calls relates the two records; C122 says that the buffer holds the record. An invariant along the protocol of C23 relates the episode counters to the records. |
| C171 | What max_kl of TRPO and clip_eps of PPO limit when observations are normalized | The modelled dataset (C109), normalizer (the model of EmpiricalNormalization), update of TRPO (C144) and loss of PPO (C87) are composed in the order of _update. Spec/TrustRegion.lean: the policy as it acts, acts, and how far it moved, moved. C55_line_search gives the measured bound; without a learning normalizer measured and real divergence agree. For the violations a linear Gaussian policy, whose gradient along the bias does not vanish, so that C144 gives an accepted step, while the observation it was made from moves from 1/sqrt(1.01) to 0. |
| C172 | What actor-critic and policy gradient agents make of step limits in a training run | The run and its answers by the wrapped environment as in C169 (Spec/StepLimits.lean: Served, asIf, cut). C123 and C166 say what each agent does with the steps it was told of; the steps told are those of the environment inside (known_own), or those with false ends (known_limited). |
| C173 | What the other agents make of step limits in a vectorised training run | Composes C124 (what each agent makes of the calls of `train_agent_batch`) with C170 (how a limit acts on one environment): the record of the environment is that of the environment inside, or its cut. For A2C an invariant along the run shows that the agent has been told of whole episodes of n steps and a shorter one, so its resets are at every n-th step; C48 then gives the targets. |
| C174 | Step limits in an asynchronous training run | Composes C25 (the protocol of each process), C125 (what each agent makes of it) and the wrappers of C35 and C40: an invariant along the protocol ties the length of the current episode to the count of the limit; the record of the environment is that of the environment inside, or its cut (Spec/AsyncLimits.lean, Props/AsyncLimits.lean). |
| C175 | What has been recorded stays as it was, although objects are shared | Lists, deques and dicts are objects in a heap, numbered by creation (Model/Sharing.lean). (1) Only deques are ever written, and no deque is handed out: induction over the history. (2) A simulation against the n-step buffer of C09-C11 run on transitions tagged with their dicts. (3) An invariant: no two entries begin with the same transition, since the first transitions of the entries stored so far and those still waiting in the windows are all different (Proofs/Sharing.lean, SharingBuffer.lean, SharingWeights.lean, Props/Sharing.lean). |
| C176 | What an Atari game goes through, and what is scored, under make_atari and wrap_deepmind | Composes the wrappers of C35-C38 and C93 in the order of the code (Model/AtariStack.lean). An observer at the emulator writes down resets and frames (Spec/AtariStack.lean). A safety invariant (never step what is over, count of the limit = frames of the game) is shown to be kept by each wrapper, and so is what each call writes down (Proofs/AtariStack.lean, AtariFrames.lean, Props/AtariStack.lean). |
| C177 | Training runs on Atari games: no frame is played in a finished game, and what is learned from | From the protocols of C21, C23 and C25 each loop resets before the first step and after each end that the environment tells (Proofs/AtariTraining.lean), so C176 applies; the transitions of C121 are traced back to the call of `step` and through C176_step to the frames (Props/AtariTraining.lean). |
| C178 | Scores reported by evaluations of Atari games are those of the games | C28 splits the run into episodes; each begins with a reset in a state with a lawful history, so C176_score gives its frames and C176_ends the reason for its end; induction over the episodes (Props/AtariScores.lean). For vectorised evaluation the calls of each environment (C29_calls) are cut into episodes first (Props/AtariScoresBatch.lean). The games are specified in Spec/AtariScores.lean. |
| C179 | Recurrent updates of PPO and of TRPO's value function make whole passes | The loops over epochs and minibatches are in Model/RecurrentEpochs.lean, on top of the functions of C51. C51 gives each pass; shuffles are permutations; induction over the epochs. The sizes of datasets are an invariant of the rounds of calls (divisible by the number of environments), which with C50 makes them equal to the rounded interval; C123 and C124 carry this over to training runs (Props/RecurrentRuns.lean). Passes are specified in Spec/RecurrentEpochs.lean. |
| C180 | Prioritized replay with agents that report no errors, and after an exception in an update | sample and update_errors as separate operations are in Model/OpenBatches.lean, on top of the buffer of C07 and the run of C132. Invariants of a buffer that waits for priorities, and of one in which some leaves of the sum tree are zero, are kept by every operation; induction over the operations. Which updates are due is specified in Spec/OpenBatches.lean by counting entries. |

## Coverage

Generated from the comments of the model files.  "Not cited" are the functions of the
file that no definition of the model cites: abstract methods, `__repr__`, type checks,
constructors that only store their arguments, one-line wrappers, and what is not modelled.

| file in /repo/chainerrl | models (Verif/Model) | functions not cited |
|---|---|---|
| `action_value.py` (50 functions) | ActionValue, CategoricalLoss, DPPOperators, IQNUpdate, NumericFns, ResidualDQN, SDN | `ActionValue.greedy_actions`, `ActionValue.max`, `ActionValue.evaluate_actions`, `ActionValue.params`, `SingleActionValue.__getitem__` |
| `agent.py` (19 functions) | AgentSave, EvalCalls, Npz, Resume, Snapshots | `Agent.save`, `Agent.load`, `Agent.get_statistics`, `AsyncAgent.process_idx`, `AsyncAgent.shared_attributes` |
| `agents/a2c.py` (17 functions) | A2C, AgentStats, BatchNorm, PolicyGradient, Resume, TrainBatchCalls | `A2CModel.pi_and_v`, `A2CModel.__call__`, `A2CSeparateModel.__init__`, `A2CSeparateModel.pi_and_v`, `A2C.act_and_train`, `A2C.stop_episode_and_train`, `A2C.stop_episode` |
| `agents/a3c.py` (16 functions) | AgentStats, AsyncUpdate, AverageReward, BatchNorm, EvalCalls, NStep, PolicyGradient, Resume, TrainSyncCalls | `A3CModel.pi_and_v`, `A3CModel.__call__`, `A3CSeparateModel.__init__`, `A3CSeparateModel.pi_and_v`, `A3CSharedModel.__init__`, `A3CSharedModel.pi_and_v`, `A3C.sync_parameters`, `A3C.shared_attributes` |
| `agents/acer.py` (28 functions) | ACER, AgentStats, AsyncUpdate, BatchNorm, EvalCalls, OnlineReplay, Resume, SDN, TrainSyncCalls | `ACERSDNSharedModel.__init__`, `ACERSharedModel.__init__` |
| `agents/al.py` (2 functions) | Targets | `AL.__init__` |
| `agents/categorical_double_dqn.py` (1 functions) | CategoricalLoss, Targets | - |
| `agents/categorical_dqn.py` (6 functions) | Categorical, CategoricalLoss, Targets | - |
| `agents/ddpg.py` (18 functions) | ActorCritic, AgentStats, BatchNorm, EvalCalls, OpenBatches, OpenBatchesRun, RecurrentDDPG, Resume, SAC, TargetNet, Targets | - |
| `agents/double_dqn.py` (1 functions) | Targets | - |
| `agents/double_iqn.py` (1 functions) | IQNUpdate | - |
| `agents/double_pal.py` (1 functions) | Targets | - |
| `agents/dpp.py` (8 functions) | DPPOperators, Targets | `AbstractDPP._l_operator` |
| `agents/dqn.py` (20 functions) | AgentStats, BatchNorm, DQN, EvalCalls, Functions, IQNUpdate, OpenBatches, RecurrentUpdate, ResidualDQN, Resume, TabularDQN, TabularSarsa, TargetNet, Targets, TrainBatchDQN, TrainDQN, TrainPrioritized, ValueLoss | - |
| `agents/iqn.py` (19 functions) | IQN, IQNUpdate, Targets | `_unwrap_variable` |
| `agents/nsq.py` (10 functions) | AgentStats, AsyncUpdate, BatchNorm, EvalCalls, NStep, Resume, TrainSyncCalls | `NSQ.sync_parameters`, `NSQ.shared_attributes` |
| `agents/pal.py` (2 functions) | Targets | `PAL.__init__` |
| `agents/pcl.py` (14 functions) | AgentStats, AsyncUpdate, BatchNorm, EvalCalls, OnlineReplay, PCL, PCLRecurrent, Resume, TrainSyncCalls | `asfloat`, `PCL.sync_parameters` |
| `agents/pgt.py` (11 functions) | AgentStats, BatchNorm, EvalCalls, OpenBatches, OpenBatchesRun, PGT, PolicyGradient, TargetNet | `PGT.select_action` |
| `agents/ppo.py` (29 functions) | AgentStats, BatchNorm, Epochs, EvalCalls, PPOData, PPODataset, PPOLoss, RecurrentEpochs, Resume, TrainBatchCalls, TrustRegion | - |
| `agents/reinforce.py` (9 functions) | AgentStats, BatchNorm, EvalCalls, Reinforce, Resume | `REINFORCE.update_with_accumulated_grad` |
| `agents/residual_dqn.py` (5 functions) | Functions, ResidualDQN, Targets | `ResidualDQN.__init__`, `ResidualDQN.sync_target_network`, `ResidualDQN.saved_attributes` |
| `agents/sarsa.py` (1 functions) | TabularSarsa, Targets | - |
| `agents/soft_actor_critic.py` (21 functions) | ActorCritic, AgentStats, BatchNorm, EvalCalls, OpenBatches, OpenBatchesRun, Resume, SAC, TargetNet, Targets | `SoftActorCritic.batch_act_and_train` |
| `agents/td3.py` (18 functions) | ActorCritic, AgentStats, BatchNorm, EvalCalls, OpenBatches, OpenBatchesRun, Resume, SAC, TargetNet, Targets | - |
| `agents/trpo.py` (34 functions) | AgentStats, BatchNorm, Epochs, EvalCalls, OldStyle, PPOData, PPODataset, RecurrentEpochs, Resume, TRPO, TRPOStep, TRPOUpdate, TrustRegion | - |
| `distribution.py` (69 functions) | Distrib, DistribBatch, Sampling, TRPOUpdate | `_wrap_by_variable`, `Distribution.entropy`, `Distribution.sample`, `Distribution.prob`, `Distribution.log_prob`, `Distribution.copy`, `Distribution.most_probable`, `Distribution.kl`, `Distribution.params`, `Distribution.sample_with_log_prob` |
| `env.py` (8 functions) | - | `Env.step`, `Env.reset`, `Env.close`, `VectorEnv.step`, `VectorEnv.reset`, `VectorEnv.seed`, `VectorEnv.close`, `VectorEnv.unwrapped` |
| `envs/abc.py` (5 functions) | ABC | `ABC.close` |
| `envs/ale.py` (11 functions) | ALE | - |
| `envs/multiprocess_vector_env.py` (10 functions) | VectorEnv, VectorLife | `MultiprocessVectorEnv.num_envs` |
| `envs/serial_vector_env.py` (6 functions) | VectorEnv, VectorLife | `SerialVectorEnv.close`, `SerialVectorEnv.num_envs` |
| `experiments/collect_demos.py` (1 functions) | CollectDemos | - |
| `experiments/evaluator.py` (13 functions) | AsyncEvaluator, BatchRunEval, Eff, EvalCalls, Evaluator, Results, RunEval, Snapshots | - |
| `experiments/hooks.py` (3 functions) | DecayHooks, NumericFns | `StepHook.__call__` |
| `experiments/prepare_output_dir.py` (2 functions) | OutputDir | - |
| `experiments/train_agent.py` (4 functions) | DecayHooks, Eff, Helpers, OpenBatchesRun, Results, Resume, Snapshots, TrainAgent, TrainCalls, TrainDQN, TrainSyncCalls | - |
| `experiments/train_agent_async.py` (6 functions) | DecayHooks, RunAsync, SharedObjects, TrainAgentAsync, TrainAsyncCalls | - |
| `experiments/train_agent_batch.py` (2 functions) | DecayHooks, EvalCalls, OpenBatchesRun, Results, Resume, TrainAgentBatch, TrainBatchCalls, TrainBatchDQN | - |
| `explorer.py` (1 functions) | - | `Explorer.select_action` |
| `explorers/additive_gaussian.py` (3 functions) | Explorers | `AdditiveGaussian.__repr__` |
| `explorers/additive_ou.py` (4 functions) | Explorers | `AdditiveOU.__repr__` |
| `explorers/boltzmann.py` (3 functions) | Explorers | `Boltzmann.__init__`, `Boltzmann.__repr__` |
| `explorers/epsilon_greedy.py` (8 functions) | EpsilonGreedy | `ConstantEpsilonGreedy.__init__`, `ConstantEpsilonGreedy.select_action`, `ConstantEpsilonGreedy.__repr__`, `LinearDecayEpsilonGreedy.__repr__` |
| `explorers/greedy.py` (2 functions) | - | `Greedy.select_action`, `Greedy.__repr__` |
| `functions/arctanh.py` (4 functions) | Distrib, Functions | `Arctanh.check_type_forward`, `arctanh` |
| `functions/bound_by_tanh.py` (1 functions) | Distrib, FCNets | - |
| `functions/invert_gradients.py` (6 functions) | NumericFns | `InvertGradients.__init__`, `InvertGradients.check_type_forward`, `InvertGradients.label`, `InvertGradients.forward`, `invert_gradients` |
| `functions/lower_triangular_matrix.py` (19 functions) | Gpu, NumericFns | `lower_triangular_matrix` |
| `functions/mellowmax.py` (3 functions) | Distrib | - |
| `functions/mul_add.py` (5 functions) | Functions, Gpu | `muladd` |
| `functions/scale_grad.py` (5 functions) | Functions | `ScaleGrad.__init__`, `ScaleGrad.check_type_forward`, `scale_grad` |
| `functions/sum_arrays.py` (5 functions) | Functions, Gpu | `SumArrays.check_type_forward`, `sum_arrays` |
| `functions/weighted_sum_arrays.py` (6 functions) | Functions, Gpu | `WeightedSumArrays.__init__`, `WeightedSumArrays.check_type_forward`, `weighted_sum_arrays` |
| `initializers/constant.py` (2 functions) | NoisyLinear | `VarianceScalingConstant.__init__` |
| `initializers/orthogonal.py` (3 functions) | Initializers | `size_of_shape`, `Orthogonal.__init__` |
| `links/branched.py` (1 functions) | Helpers | - |
| `links/dqn_head.py` (4 functions) | ConvHeads | - |
| `links/empirical_normalization.py` (7 functions) | EmpiricalNorm, TrustRegion | `EmpiricalNormalization.mean`, `EmpiricalNormalization.std` |
| `links/mlp.py` (2 functions) | FCNets | - |
| `links/mlp_bn.py` (4 functions) | BatchNorm | - |
| `links/noisy_chain.py` (4 functions) | Noisy | - |
| `links/noisy_linear.py` (4 functions) | Noisy, NoisyLinear | - |
| `links/sequence.py` (3 functions) | Sequence | - |
| `links/stateless_recurrent.py` (20 functions) | DQN, NStepForward, RecurrentUpdate, StatelessRecurrent | `StatelessRecurrent.mask_recurrent_state_at`, `StatelessRecurrent.concatenate_recurrent_states` |
| `links/stateless_recurrent_branched.py` (1 functions) | NStepForward | - |
| `links/stateless_recurrent_sequential.py` (2 functions) | NStepForward | `StatelessRecurrentSequential.recurrent_children` |
| `misc/ask_yes_no.py` (1 functions) | Helpers | - |
| `misc/async_.py` (14 functions) | RunAsync, SharedObjects | - |
| `misc/batch_states.py` (1 functions) | BatchExperiences | - |
| `misc/collections.py` (11 functions) | Py, RandomAccessQueue, SampleNK | `RandomAccessQueue.__repr__` |
| `misc/conjugate_gradient.py` (1 functions) | TRPO | - |
| `misc/copy_param.py` (4 functions) | AsyncUpdate, CopyParam, TargetNet | - |
| `misc/draw_computational_graph.py` (3 functions) | Helpers | `is_graphviz_available`, `draw_computational_graph` |
| `misc/env_modifiers.py` (13 functions) | SimpleWrappers, Wrappers | - |
| `misc/init_like_torch.py` (1 functions) | InitLikeTorch | - |
| `misc/is_return_code_zero.py` (1 functions) | - | `is_return_code_zero` |
| `misc/namedpersistent.py` (2 functions) | SharedObjects | - |
| `misc/pretrained_models.py` (4 functions) | Pretrained | `_reporthook`, `download_model` |
| `misc/prioritized.py` (38 functions) | Float64, OldSumTree, OpenBatches, PrioritizedBuffer, PrioritizedEpisodic, Py, Resume, Sharing, TrainPrioritized, TreeQueue | - |
| `misc/random.py` (1 functions) | SampleNK | - |
| `misc/random_seed.py` (1 functions) | ExampleSeeds, RunAsync | - |
| `misc/reward_filter.py` (4 functions) | RewardFilter | `AverageRewardFilter.__init__` |
| `optimizers/nonbias_weight_decay.py` (2 functions) | Optimizers | `NonbiasWeightDecay.__init__` |
| `optimizers/rmsprop_async.py` (6 functions) | AsyncUpdate, Gpu, Optimizers | `RMSpropAsync.create_update_rule` |
| `policies/deterministic_policy.py` (6 functions) | BatchNorm, FCLSTM, FCNets | `ContinuousDeterministicPolicy.__init__` |
| `policies/gaussian_policy.py` (9 functions) | FCNets | `FCGaussianPolicy.__call__`, `FCGaussianPolicyWithFixedCovariance.__init__.get_var_array` |
| `policies/mellowmax_policy.py` (2 functions) | - | `MellowmaxPolicy.__init__`, `MellowmaxPolicy.__call__` |
| `policies/softmax_policy.py` (3 functions) | FCLSTM | `SoftmaxPolicy.__init__` |
| `policy.py` (1 functions) | - | `Policy.__call__` |
| `q_function.py` (2 functions) | - | `StateQFunction.__call__`, `StateActionQFunction.__call__` |
| `q_functions/dueling_dqn.py` (4 functions) | ConvHeads, QHeads | - |
| `q_functions/state_action_q_functions.py` (12 functions) | BatchNorm, FCLSTM, FCNets | `SingleModelStateActionQFunction.__init__`, `SingleModelStateActionQFunction.__call__`, `FCBNSAQFunction.__init__`, `FCBNLateActionSAQFunction.__init__` |
| `q_functions/state_q_functions.py` (13 functions) | FCLSTM, QHeads | `SingleModelStateQFunctionWithDiscreteAction.__init__`, `SingleModelStateQFunctionWithDiscreteAction.__call__`, `FCStateQFunctionWithDiscreteAction.__init__`, `DistributionalSingleModelStateQFunctionWithDiscreteAction.__init__`, `DistributionalSingleModelStateQFunctionWithDiscreteAction.__call__`, `FCQuadraticStateQFunction.__init__`, `FCBNQuadraticStateQFunction.__init__`, `FCBNQuadraticStateQFunction.__call__` |
| `recurrent.py` (20 functions) | PCLRecurrent, Recurrent, RecurrentDDPG | `unchain_backward`, `Recurrent.get_state`, `Recurrent.set_state`, `Recurrent.reset_state`, `Recurrent.unchain_backward` |
| `replay_buffer.py` (13 functions) | ActorCritic, BatchExperiences, EpisodicBuffer, OpenBatches, OpenBatchesRun, RecurrentUpdate, ReplayBuffer, ReplayUpdater, Resume, Sharing, TrainPrioritized | `AbstractEpisodicReplayBuffer.sample_episodes`, `AbstractEpisodicReplayBuffer.n_episodes`, `AbstractEpisodicReplayBuffer.stop_current_episode` |
| `replay_buffers/episodic.py` (9 functions) | EpisodicBuffer, PrioritizedEpisodic | - |
| `replay_buffers/prioritized.py` (7 functions) | Float64, OldSumTree, OpenBatches, OpenBatchesRun, PrioritizedBuffer, PrioritizedEpisodic, PriorityWeights, Resume, Sharing, TrainPrioritized, TreeQueue | - |
| `replay_buffers/prioritized_episodic.py` (4 functions) | PrioritizedEpisodic | - |
| `replay_buffers/replay_buffer.py` (7 functions) | ActorCritic, BatchExperiences, EpisodicBuffer, OpenBatches, OpenBatchesRun, RecurrentUpdate, ReplayBuffer, ReplayUpdater, Resume, Sharing, TrainBatchCalls, TrainBatchDQN, TrainCalls, TrainDQN, TrainPrioritized | - |
| `v_function.py` (1 functions) | - | `VFunction.__call__` |
| `v_functions/v_functions.py` (3 functions) | FCLSTM | `SingleModelVFunction.__init__` |
| `wrappers/atari_wrappers.py` (28 functions) | AtariPipeline, AtariStack, FrameStack, Sharing, Wrappers | `NoopResetEnv.__init__`, `ClipRewardEnv.__init__` |
| `wrappers/cast_observation.py` (3 functions) | SimpleWrappers | `CastObservationToFloat32.__init__` |
| `wrappers/continuing_time_limit.py` (3 functions) | AtariStack, Wrappers | - |
| `wrappers/monitor.py` (6 functions) | Monitor | `Monitor._start` |
| `wrappers/normalize_action_space.py` (2 functions) | RewardFilter | `NormalizeActionSpace.__init__` |
| `wrappers/randomize_action.py` (3 functions) | AtariPipeline, SimpleWrappers | `RandomizeAction.__init__` |
| `wrappers/render.py` (3 functions) | SimpleWrappers | - |
| `wrappers/scale_reward.py` (2 functions) | SimpleWrappers | - |
| `wrappers/vector_frame_stack.py` (15 functions) | FrameStack, Sharing, SimpleWrappers | `VectorEnvWrapper.step`, `VectorEnvWrapper.reset`, `VectorEnvWrapper.render`, `VectorEnvWrapper.close`, `VectorEnvWrapper.seed`, `VectorEnvWrapper.compute_reward`, `VectorEnvWrapper.__str__`, `VectorEnvWrapper.__repr__`, `VectorEnvWrapper.unwrapped` |

## Axioms

As printed by Lean's `collectAxioms` for every theorem of MANIFEST.json.

* no axioms (13 theorems): `C17_one_request_per_update`, `C36_first_reset`, `C36_reset_partial`, `C36_violated_game_over_in_reset`, `C38_violated_fire`, `C40_action_repeat_zero`, `C96_violated_no_hidden`, `C110_actor_critic_init`, `C113_spaces`, `C113_violated_serial_spec`, `C127_act_partial`, `C128_unreadable`, `C129_no_greedy`
* `propext` (33 theorems): `C24_violated_zero_score`, `C30_violated_max_episode_len`, `C32_lengths`, `C35_time_limit`, `C36_step`, `C37_violated_stale_frames`, `C40_action_filter`, `C40_reward_filter`, `C40_timestep_limit`, `C59_ignores`, `C59_set_state`, `C59_violated_exception`, `C59_violated_initial`, `C60_concat_empty`, `C80_violated_one_step_tuple`, `C80_violated_tuple_input`, `C84_after_end`, `C86_violated_root`, `C95_ignored`, `C107_arguments`, `C107_environments`, `C107_shared`, `C110_violated_plain_eval_env`, `C110_violated_shared_env`, `C110_violated_stateful_middle`, `C113_violated_interrupted`, `C118_violated_best_mixed`, `C119_violated_due`, `C127_act_two`, `C133_async_violated`, `C154_default_violated`, `C154_save`, `C162_cast`
* `propext, Quot.sound` (132 theorems): `C01_popleft`, `C02_getitem`, `C12_round_trip`, `C12_violated_mid_episode`, `C17_never_oversamples`, `C17_schedule`, `C20_exactly_one_call`, `C20_extremes`, `C20_linear_decay`, `C22_reraised`, `C25_success_ends`, `C25_success_only`, `C26_best`, `C26_each_interval_once`, `C26_max_score`, `C29_calls`, `C29_episodes`, `C29_steps`, `C31_load_self_loop_partial`, `C31_roundtrip`, `C31_save_detects_cycle`, `C31_violated_load_cycle`, `C32_product`, `C34_single`, `C34_single_before_reset`, `C34_vector`, `C34_vector_no_error`, `C37_frames`, `C37_max_partial`, `C37_skip_one`, `C38_fire_partial`, `C40_action_repeat`, `C42_single`, `C42_single_recurrent`, `C47_nothing_pending`, `C48_no_leak`, `C49_gae`, `C49_monte_carlo`, `C49_td`, `C51_cuts`, `C56_errors`, `C58_load_fresh_partial`, `C58_output_partial`, `C58_round_trip_partial`, `C58_update_mixes_partial`, `C58_violated_load`, `C59_entry`, `C59_overlay_partial`, `C60_get_of_none`, `C60_mask_out_of_range`, `C63_greedy_allowed`, `C64_distributional`, `C64_double_advantage`, `C64_greedy`, `C64_max`, `C64_quantile`, `C71_violated_n_times`, `C73_coef`, `C73_on_policy`, `C78_buffer`, `C78_updates`, `C80_missing_states`, `C80_no_children`, `C80_violated_branch_states`, `C80_wrong_states`, `C82_violated_batch_training`, `C83_mismatch`, `C84_bad_action`, `C84_reset`, `C84_violated_reset_continues`, `C84_violated_reset_over`, `C88_ends`, `C88_size`, `C88_small_dataset`, `C94_continuing`, `C94_observations`, `C94_reset`, `C94_return`, `C95_routing_partial`, `C95_violated_var_positional`, `C98_rollouts`, `C105_buffer`, `C107_seed`, `C107_seed_range`, `C107_violated_worker_seed`, `C110_cleared`, `C110_env_separate`, `C110_stateful`, `C110_stateful_memory`, `C110_stop_discards`, `C110_training_alone`, `C113_closed`, `C113_closed_once`, `C113_interrupted_rests`, `C113_seed_refused`, `C113_serial_seed`, `C118_complete`, `C118_saved`, `C118_violated_best_lost`, `C119_best`, `C119_last_run`, `C119_resume`, `C119_scores`, `C119_violated_best`, `C119_violated_scores`, `C120_tril_backward`, `C127_act_violated`, `C127_batch_accepted`, `C127_columns`, `C127_late`, `C127_linear_bias`, `C127_mlp_bn`, `C127_policy`, `C127_running`, `C127_saq`, `C127_single_raises`, `C127_test_values`, `C127_training_network`, `C131_flatten`, `C133_a2c_violated`, `C133_acer_average_violated`, `C143_violated_cost`, `C143_violated_depth`, `C154_branched`, `C162_elapsed`, `C162_embedded`, `C162_env`, `C162_movies`, `C175_frame_stack`, `C176_violated_life`, `C179_pass`, `C179_when`
* `propext, Classical.choice, Quot.sound` (802 theorems): `C01_length_limit`, `C01_queue_is_bounded_list`, `C02_setitem`, `C03_distinct_in_range`, `C03_queue_sample`, `C03_raises_iff`, `C04_min_tree_is_list`, `C04_sum_tree_is_list`, `C05_selection_interval`, `C05_selection_probability`, `C05_zero_priority_never_selected`, `C06_sample_without_replacement`, `C06_uniform_sample`, `C07_aligned`, `C07_append_popleft`, `C07_round`, `C08_partial`, `C08_violated`, `C09_one_slice_per_transition`, `C09_single_env`, `C10_no_mixing`, `C11_capacity`, `C11_newest_entries`, `C11_sample`, `C12_continuation_partial`, `C13_load`, `C13_too_long_episode`, `C13_views_agree`, `C14_raises`, `C14_sample`, `C14_subsequences`, `C15_capacity_partial`, `C15_load_partial`, `C15_violated_after_load`, `C16_batch_rows`, `C16_empty_entry`, `C18_batch_weights`, `C18_beta`, `C18_memory_weights`, `C18_priorities_monotone`, `C18_priorities_positive`, `C18_values`, `C19_epsilon_partial`, `C19_violated_zero_decay`, `C20_probability`, `C21_hooks`, `C21_numbers`, `C21_protocol`, `C21_step_count`, `C21_success_stops`, `C22_checkpoints`, `C22_checkpoints_crash`, `C22_except`, `C22_finish`, `C23_hooks_checkpoints`, `C23_protocol`, `C23_step_count`, `C24_success_stops_partial`, `C25_after_success`, `C25_counter_bound`, `C25_episode_numbers`, `C25_episodes_counted`, `C25_episodes_exact`, `C25_except_only_first`, `C25_except_saved`, `C25_finish_once`, `C25_finish_saved`, `C25_protocol`, `C25_stops_at_limit`, `C25_successful_once`, `C25_unique_numbers`, `C26_due`, `C27_best_increasing`, `C27_claims`, `C27_header`, `C27_max_score`, `C28_episodes`, `C28_episodes_returns`, `C28_steps`, `C28_steps_returns`, `C30_episodes_partial`, `C30_steps_partial`, `C31_no_error`, `C33_no_deadlock`, `C33_serial`, `C33_terminates`, `C38_noop`, `C39_affine`, `C39_ends`, `C39_monotone`, `C39_range`, `C39_strict`, `C41_average_filter_partial`, `C41_averages_partial`, `C41_defined_partial`, `C41_divisor_above_partial`, `C41_violated_zero_rewards`, `C42_batch`, `C42_batch_env`, `C42_batch_recurrent`, `C42_batch_short`, `C43_batch_times`, `C43_hard`, `C43_single_times`, `C43_source`, `C43_target`, `C44_al`, `C44_categorical`, `C44_ddpg`, `C44_double_dqn`, `C44_double_pal_partial`, `C44_dpp`, `C44_dqn`, `C44_iqn`, `C44_pal_partial`, `C44_residual_dqn`, `C44_sac`, `C44_sarsa`, `C44_td3`, `C44_violated_pal`, `C45_one_step_partial`, `C45_violated_two_steps`, `C46_mean`, `C46_paper`, `C46_row`, `C46_shape`, `C47_episode`, `C47_history`, `C47_partition`, `C48_history`, `C48_rollout`, `C50_as_soon_as`, `C50_dataset_size`, `C50_exactly_once`, `C50_no_error`, `C51_limit`, `C51_limit_refused`, `C51_subsets_partial`, `C51_violated_remainder`, `C52_closest`, `C52_constraint`, `C52_unconstrained`, `C53_uniform_partial`, `C53_violated`, `C54_empty`, `C54_same_modes`, `C54_updates`, `C55_line_search`, `C55_replace`, `C55_round_trip`, `C56_grad`, `C56_hard`, `C56_iterated`, `C56_method`, `C56_soft`, `C57_batching`, `C57_call_learns`, `C57_resume`, `C57_statistics`, `C58_clipped`, `C58_violated_load_witness`, `C58_violated_update`, `C59_restores_partial`, `C60_concat_wrong_size`, `C60_get_many`, `C60_get_of_concat`, `C60_mask`, `C60_mask_one`, `C61_backward`, `C61_forward`, `C61_round_trip`, `C62_exact`, `C62_sequence`, `C62_solves`, `C62_violated_zero`, `C63_advantage_partial`, `C63_diagonal_partial`, `C63_inside_partial`, `C63_violated`, `C64_advantage`, `C64_advantage_zero_iff`, `C65_reflected_partial`, `C65_row_partial`, `C65_uniform_weights`, `C65_violated`, `C65_zero_iff`, `C66_kl_entropy`, `C66_order`, `C66_probabilities`, `C67_kl`, `C68_at_least_mean`, `C68_bounds`, `C68_non_expansion`, `C69_decreasing`, `C69_increasing`, `C69_shrinks`, `C70_monotone`, `C70_values`, `C71_counts_partial`, `C71_delay_partial`, `C72_full`, `C72_sample`, `C72_untruncated`, `C72_vanishes`, `C73_advantages`, `C73_loss`, `C73_retrace`, `C74_path_consistency`, `C75_entropy`, `C75_kl`, `C75_log_prob`, `C76_distribution_partial`, `C76_expectation_partial`, `C76_maximum_entropy_partial`, `C76_violated`, `C77_bound`, `C77_density`, `C77_log_det`, `C77_sample`, `C78_burnin`, `C78_ddpg_schedule`, `C78_recorded_batch`, `C78_recorded_single`, `C78_sac_schedule`, `C79_boltzmann_choice`, `C79_boltzmann_prob`, `C79_gaussian_bounds`, `C79_gaussian_noise`, `C79_ou_law`, `C79_ou_recursion`, `C80_carry_partial`, `C80_concat_partial`, `C80_none_partial`, `C80_one_step_partial`, `C80_split_partial`, `C81_update`, `C82_actor_exact`, `C82_actor_partial`, `C82_critic`, `C82_violated_actor`, `C83_violated_state_dtype`, `C83_visible_partial`, `C84_history`, `C84_step`, `C85_bounded`, `C85_decay`, `C85_decay_no_gradient`, `C85_decay_update`, `C85_elementwise`, `C85_no_gradient`, `C85_scale_free`, `C85_update`, `C85_violated_epsilon`, `C86_callable`, `C86_convert`, `C86_count`, `C86_violated_mean`, `C86_violated_sequence`, `C86_violated_shared_chain`, `C86_violated_sharing`, `C86_violated_twice`, `C87_first_gradient`, `C87_gradient`, `C87_loss`, `C87_loss_gradient`, `C87_objective`, `C87_pessimistic`, `C87_standardized`, `C87_standardized_order`, `C87_usable`, `C87_value`, `C87_violated_recurrent`, `C88_only`, `C88_passes`, `C88_updates`, `C88_uses`, `C89_gain`, `C89_gain_gradient`, `C89_natural`, `C89_step`, `C89_violated_zero`, `C90_bad_accumulator`, `C90_bounded`, `C90_errors`, `C90_gradient`, `C90_unweighted`, `C90_weighted`, `C90_zero`, `C91_arctanh`, `C91_muladd`, `C91_residual`, `C91_scale_grad`, `C91_sum`, `C91_weighted_sum`, `C92_atoms`, `C92_distributional`, `C92_distributional_dueling`, `C92_dueling`, `C92_dueling_shift`, `C92_quadratic`, `C93_clip`, `C93_flicker`, `C93_lazy`, `C93_pipeline`, `C93_randomize`, `C93_randomize_probability`, `C93_scaled`, `C94_alternate`, `C94_continuous`, `C94_episodic`, `C95_first_parameter`, `C96_deterministic`, `C96_gaussian`, `C96_independent_var`, `C96_mean_networks`, `C96_mlp`, `C96_q`, `C97_orthogonal`, `C98_history_partial`, `C98_replay_only`, `C98_violated_pcl_without_buffer`, `C99_covariance`, `C99_factorized`, `C99_initial_scales`, `C99_mean`, `C99_no_noise`, `C99_noise_function`, `C100_complete_downloads`, `C100_exclusive`, `C100_progress`, `C100_returned_partial`, `C100_violated_interrupted`, `C101_alone`, `C101_nothing_overwritten`, `C101_returned`, `C102_action_probability`, `C102_batch`, `C102_deterministic`, `C102_gaussian`, `C102_impossible`, `C103_a2c`, `C103_a3c`, `C103_a3c_scale`, `C103_pgt`, `C103_reinforce`, `C103_undiscounted`, `C104_policy_optimum`, `C104_q_gradient`, `C104_smoothing`, `C104_td3_policy`, `C104_temperature`, `C104_temperature_direction`, `C104_temperature_gradient`, `C105_recorded`, `C105_schedule`, `C105_target`, `C105_updates`, `C106_accumulator`, `C106_bounded`, `C106_loss`, `C106_near_optimum`, `C106_optimum`, `C106_prediction`, `C106_target`, `C107_progress`, `C107_returned`, `C107_started`, `C107_violated_same_seed`, `C108_act`, `C108_act_deterministic`, `C108_basis`, `C108_embedding`, `C108_loss`, `C108_network`, `C108_prediction`, `C108_symmetric`, `C108_target`, `C109_advantages`, `C109_behaviour`, `C109_dataset`, `C109_explained`, `C109_fragments`, `C109_normalizer_moves_ratio`, `C109_on_policy`, `C109_plain`, `C109_ratio_one`, `C109_ratio_one_recurrent`, `C109_recurrent`, `C110_actor_critic`, `C110_batch`, `C110_single`, `C111_each_once`, `C111_load`, `C111_no_lost_update`, `C111_serial`, `C111_snapshot`, `C111_step_size`, `C111_violated_average`, `C111_violated_load_average`, `C112_file`, `C112_final`, `C112_reset_allowed`, `C112_running`, `C112_step_refused`, `C112_total_steps`, `C112_types`, `C112_violated_first_reset`, `C112_violated_step_after_failed_reset`, `C112_violated_types`, `C113_close`, `C113_reset`, `C113_seed`, `C113_step`, `C113_violated_env_raises`, `C113_violated_few_actions`, `C113_violated_serial_seed`, `C114_choice`, `C114_map`, `C114_sample`, `C114_sum`, `C114_violated_oversampling`, `C115_between`, `C115_hard`, `C115_soft`, `C115_stats`, `C115_test_mode`, `C115_violated_disable_train`, `C115_violated_drift`, `C115_violated_minibatch`, `C115_violated_statistics`, `C115_weights`, `C116_average`, `C116_converges`, `C116_fixed`, `C116_off`, `C116_rate`, `C116_return`, `C116_shift`, `C116_violated_save`, `C117_averages`, `C117_bounds`, `C117_complete`, `C117_constant`, `C117_converges`, `C117_names`, `C117_nan`, `C117_parameters`, `C117_violated_a2c`, `C117_violated_a2c_constant`, `C118_detected`, `C118_inside`, `C118_names`, `C118_train`, `C120_muladd`, `C120_rmsprop`, `C120_sum`, `C120_tril`, `C120_violated_views`, `C120_weighted`, `C121_buffer`, `C121_count`, `C121_finished`, `C121_update`, `C122_buffer`, `C122_finished`, `C122_times`, `C123_actor_critic`, `C123_calls`, `C123_ppo`, `C123_ppo_updates`, `C123_reinforce`, `C124_a2c`, `C124_a2c_offset_violated`, `C124_actor_critic`, `C124_calls`, `C124_ppo`, `C124_ppo_updates`, `C125_calls`, `C125_nothing_missed`, `C125_nstep`, `C125_online`, `C126_feed_forward`, `C126_replay`, `C126_seen`, `C127_centred`, `C127_modes_agree`, `C127_scaled`, `C128_load`, `C128_round_trip`, `C128_violated_missing`, `C129_consistent`, `C129_discrete`, `C129_double_advantage`, `C129_returns`, `C129_shift`, `C129_unbiased`, `C129_variance`, `C130_cast_observation`, `C130_clip_nearest`, `C130_clip_swapped`, `C130_close_violated`, `C130_make_rendered_calls`, `C130_make_rendered_transparent`, `C130_private_attribute`, `C130_public_attribute`, `C130_render_calls`, `C130_render_raises`, `C130_render_transparent`, `C130_reward_clipped`, `C130_scale_reward`, `C130_scale_twice`, `C130_seed_reproducible`, `C130_seed_returns_none`, `C130_spaces`, `C131_activated`, `C131_dueling`, `C131_dueling_reads`, `C131_nature_accepts`, `C131_nature_reads`, `C131_nips_accepts`, `C131_nips_reads`, `C132_batches`, `C132_eps_needed`, `C132_round`, `C132_run`, `C132_update`, `C133_async_evaluation_violated`, `C133_dqn`, `C133_nstep_violated`, `C133_online_violated`, `C133_prioritized_violated`, `C133_train_agent`, `C134_limit`, `C134_operators`, `C134_targets`, `C135_al`, `C135_approximate`, `C135_contraction`, `C135_double_dqn`, `C135_double_pal`, `C135_dqn`, `C135_iteration`, `C135_pal`, `C135_sarsa`, `C136_all_episodes`, `C136_optimal`, `C137_contraction`, `C137_fixed_point`, `C137_unique`, `C138_a2c`, `C138_a2c_gae`, `C138_a3c`, `C138_ppo`, `C138_unique`, `C139_ddpg`, `C139_sac`, `C139_sac_contraction`, `C139_td3`, `C140_bounds`, `C140_greedy`, `C140_not_optimal`, `C141_actor_critic`, `C141_ppo_not_continued`, `C141_reinforce_not_continued`, `C142_contents`, `C142_in_range`, `C142_sampling_partial`, `C142_total`, `C142_violated_range`, `C142_violated_repeat`, `C143_check`, `C143_exact`, `C143_visits`, `C144_fisher_gaussian`, `C144_fisher_softmax`, `C144_second_order`, `C144_update_gaussian`, `C144_update_softmax`, `C145_al`, `C145_alpha_one`, `C145_double_pal`, `C145_pal`, `C146_dpp`, `C146_dppl`, `C146_eventually_optimal`, `C146_greedy`, `C146_operator`, `C146_softmax`, `C147_accepts`, `C147_bounded`, `C147_forgets`, `C147_policy`, `C147_saq`, `C147_softmax_policy`, `C147_state_q`, `C147_state_q_rectified`, `C147_step`, `C147_v`, `C148_exists`, `C148_fit`, `C148_limit`, `C148_means`, `C148_optimal`, `C148_returns`, `C149_ddpg`, `C149_ddpg_iteration`, `C149_sac`, `C149_sac_iteration`, `C149_soft_targets`, `C149_td3`, `C150_categorical`, `C150_categorical_kl`, `C150_copy`, `C150_deterministic`, `C150_gaussian`, `C150_kl_copy`, `C150_new`, `C150_one_at_a_time`, `C150_shared`, `C150_slice`, `C150_squashed`, `C150_stale`, `C150_write_shown`, `C150_writes`, `C151_clipped`, `C151_gain`, `C151_improves`, `C151_no_gain`, `C151_trust_region`, `C151_unchanged`, `C152_bounded`, `C152_converges`, `C152_exists`, `C152_replay`, `C153_bounds`, `C153_entries`, `C153_moments`, `C153_output`, `C154_ask`, `C154_collect`, `C154_eof`, `C155_converges`, `C155_epsilon_greedy`, `C155_exists`, `C155_explores`, `C155_walk`, `C156_clip_violated`, `C156_small`, `C156_unclipped`, `C157_chance_violated`, `C157_gradient`, `C157_stationary`, `C157_zero`, `C158_iteration`, `C158_rest_violated`, `C159_batch_violated`, `C159_beta`, `C159_memory`, `C159_mixed`, `C159_several_violated`, `C159_unbiased`, `C159_whole`, `C160_cautious`, `C160_learns`, `C160_unique`, `C161_accepted`, `C161_distinct`, `C161_low`, `C161_overlap`, `C161_powers`, `C161_range`, `C161_runs`, `C161_single`, `C161_violated_overlap`, `C161_violated_trpo`, `C162_image`, `C162_space`, `C162_transpose`, `C163_atari`, `C163_batches`, `C163_beta`, `C163_count`, `C163_gym`, `C163_violated_atari`, `C164_async`, `C164_async_decreasing`, `C164_async_positive`, `C164_batch`, `C164_batch_end`, `C164_clip_positive`, `C164_train`, `C164_train_decreasing`, `C164_train_end`, `C164_train_last`, `C164_train_positive`, `C165_converges`, `C165_epsilon_greedy`, `C165_walk`, `C165_weight`, `C166_nstep`, `C166_online`, `C166_pgt`, `C166_violated_offset_nstep`, `C166_violated_offset_online`, `C167_between`, `C167_choices`, `C167_close`, `C167_converges`, `C167_fixed`, `C167_loss`, `C167_not_above`, `C167_small_discount`, `C167_violated_choice`, `C167_violated_value`, `C168_a2c`, `C168_a3c`, `C168_distribution`, `C168_near_optimal`, `C168_reinforce`, `C168_violated_bonus`, `C168_violated_hidden`, `C169_full`, `C169_length`, `C169_limited`, `C169_never_terminal`, `C169_own_history`, `C169_violated_limited`, `C170_full`, `C170_length`, `C170_limited`, `C170_never_terminal`, `C170_own_history`, `C170_violated_limited`, `C171_first_minibatch`, `C171_measured`, `C171_statistics`, `C171_trust_region`, `C171_violated_first_minibatch`, `C171_violated_trust_region`, `C172_actor_critic`, `C172_nstep`, `C172_pgt`, `C172_ppo`, `C172_reinforce_limited`, `C172_reinforce_starves`, `C172_violated_ppo_limited`, `C173_actor_critic`, `C173_ppo`, `C173_violated_a2c`, `C173_violated_a2c_no_value`, `C173_violated_actor_critic_limited`, `C173_violated_ppo_limited`, `C174_length`, `C174_nstep`, `C174_online`, `C174_violated_nstep_limited`, `C174_violated_online_limited`, `C175_batch_stays`, `C175_contents`, `C175_vector_frame_stack`, `C175_weights`, `C176_ends`, `C176_legal`, `C176_legal_but`, `C176_legal_life`, `C176_score`, `C176_step`, `C177_async`, `C177_batch`, `C177_buffer`, `C177_buffer_batch`, `C177_train`, `C178_batch`, `C178_batch_steps`, `C178_episodes`, `C178_steps`, `C179_ppo_partial`, `C179_run`, `C179_run_batch`, `C179_run_batch_trpo`, `C179_run_trpo`, `C179_single_size`, `C179_training`, `C179_trpo_partial`, `C179_updates_single`, `C179_updates_vector`, `C179_vector_size`, `C179_violated_equal`, `C179_violated_ppo`, `C179_violated_trpo`, `C180_batch_run_entries`, `C180_report`, `C180_run_entries`, `C180_violated_batch_run`, `C180_violated_calls`, `C180_violated_calls_num_steps`, `C180_violated_finish`, `C180_violated_interrupted`, `C180_violated_lost`, `C180_violated_run`, `C180_violated_run_num_steps`, `C180_violated_unreported`
