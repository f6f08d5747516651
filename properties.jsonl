{"id": "C01", "title": "RandomAccessQueue is a bounded FIFO list", "statement": "After any sequence of append, extend and popleft on a RandomAccessQueue, iterating over it / len() / indexing show exactly the elements that a plain list would hold that drops elements from the left whenever its length exceeds maxlen; popleft returns the oldest element still held and raises IndexError exactly when the queue is empty.", "quantifier": "every maxlen (including None and 0), every initial content and every finite history of operations with arbitrary elements", "why_tests_cant": "The queue is two lists (one reversed) with lazy rebalancing; the observable content depends on the whole interleaving of appends and pops, which is unbounded.", "anchors": ["chainerrl/misc/collections.py:RandomAccessQueue"]}
{"id": "C02", "title": "RandomAccessQueue random access by positive and negative index", "statement": "q[i] and q[i]=v behave as on a Python list for every integer i: index i in [0,len) and i in [-len,0) address the same element as in the list, a write changes that element only, and every other index raises IndexError and changes nothing.", "quantifier": "every reachable queue state and every integer index", "why_tests_cant": "Index arithmetic splits at the front/back boundary whose location depends on the history.", "anchors": ["chainerrl/misc/collections.py:RandomAccessQueue.__getitem__", "chainerrl/misc/collections.py:RandomAccessQueue.__setitem__"]}
{"id": "C03", "title": "sample_n_k returns k distinct indices in range", "statement": "sample_n_k(n,k) raises ValueError exactly when k is not in [0,n]; otherwise whenever it returns, it returns exactly k pairwise distinct integers in range(n), whatever random numbers are drawn (including the rejection-and-refill path).", "quantifier": "all n, k and every stream of random draws", "why_tests_cant": "The rejection loop with a refillable spare area is random; a test sees a few draws and practically never the refill branch.", "anchors": ["chainerrl/misc/random.py:sample_n_k"]}
{"id": "C04", "title": "SumTreeQueue and MinTreeQueue agree with a list", "statement": "After any history of append, popleft and index assignment, a SumTreeQueue (MinTreeQueue) has the length and the elements of a plain list subjected to the same operations, and sum() (min()) returns the exact sum (minimum, inf if empty) of the elements currently held.", "quantifier": "every finite history of operations with arbitrary values, no bound on length", "why_tests_cant": "The tree is re-rooted when it grows and its bounds are shifted and collapsed on popleft; aggregates cached in inner nodes must be right after every history.", "anchors": ["chainerrl/misc/prioritized.py:TreeQueue", "chainerrl/misc/prioritized.py:SumTreeQueue", "chainerrl/misc/prioritized.py:MinTreeQueue", "chainerrl/misc/prioritized.py:_write", "chainerrl/misc/prioritized.py:_expand", "chainerrl/misc/prioritized.py:_reduce"]}
{"id": "C05", "title": "Prioritized sampling selects proportionally to priority", "statement": "A draw of prioritized_sample with uniform variate u*total, 0<=u<1, selects index i exactly when prefix_sum(i) <= u*total < prefix_sum(i+1); hence item i is selected on a set of variates of measure priority_i/total, items of zero priority are never selected and the reported probability is priority_i/total.", "quantifier": "every reachable tree with nonnegative priorities and positive total, every variate in [0,total)", "why_tests_cant": "The statement is about every real variate and every tree shape reachable by growth and shrinkage.", "anchors": ["chainerrl/misc/prioritized.py:SumTreeQueue.prioritized_sample", "chainerrl/misc/prioritized.py:_find"]}
{"id": "C06", "title": "Multi-sampling with removal is without replacement and restores priorities", "statement": "prioritized_sample(n, remove=False) returns n pairwise distinct indices when there are at least n positive priorities, and leaves all stored priorities and the sum unchanged; with remove=True exactly the selected priorities become zero and all others are unchanged.", "quantifier": "every reachable tree, every n, every sequence of variates", "why_tests_cant": "Temporarily zeroing leaves and writing them back is a multi-step mutation whose correctness depends on all chosen indices.", "anchors": ["chainerrl/misc/prioritized.py:SumTreeQueue.prioritized_sample"]}
{"id": "C07", "title": "PrioritizedBuffer priority updates hit the sampled items", "statement": "If set_last_priority(ps) is called right after sample(n), then for every sampled position the priority becomes the corresponding given value, no other priority changes, max_priority becomes the running maximum, and data and priorities stay aligned (same length, FIFO) under any history of such operations.", "quantifier": "every history of append / popleft / sample+set_last_priority rounds, every random choice and all positive priorities", "why_tests_cant": "Alignment of three parallel structures (data queue, sum tree, min tree) is an invariant over unbounded histories.", "anchors": ["chainerrl/misc/prioritized.py:PrioritizedBuffer"]}
{"id": "C08", "title": "Priorities survive appends between sampling and updating", "statement": "A user who appends transitions between sample and set_last_priority relies on the priorities being written to the items that were sampled.", "quantifier": "every history in which append may occur between sample and set_last_priority", "why_tests_cant": "The failing case needs a full buffer and a particular interleaving.", "anchors": ["chainerrl/misc/prioritized.py:PrioritizedBuffer.append", "chainerrl/misc/prioritized.py:PrioritizedBuffer.set_last_priority"]}
{"id": "C09", "title": "n-step replay stores one correctly sliced entry per transition", "statement": "For every environment and every episode appended step by step and then ended (by a terminal transition or by stop_current_episode), the entries added to a ReplayBuffer of unlimited capacity are exactly, for each transition i of the episode, the slice of transitions i .. min(i+N, T)-1, in order, each exactly once.", "quantifier": "every num_steps N>=1, every episode length and every interleaving of episodes of several env_ids", "why_tests_cant": "The deque window, the terminal flush and stop_current_episode interact differently for T<N, T=N, T>N; all lengths matter.", "anchors": ["chainerrl/replay_buffers/replay_buffer.py:ReplayBuffer.append", "chainerrl/replay_buffers/replay_buffer.py:ReplayBuffer.stop_current_episode"]}
{"id": "C10", "title": "Replay entries never mix episodes or environments", "statement": "Every entry in a ReplayBuffer consists of consecutive transitions of one environment and one episode: no entry contains a transition after a terminal transition, after stop_current_episode, or from another env_id.", "quantifier": "every history of append/stop_current_episode calls over any number of env_ids", "why_tests_cant": "Cross-talk would only appear under specific interleavings of several environments.", "anchors": ["chainerrl/replay_buffers/replay_buffer.py:ReplayBuffer"]}
{"id": "C11", "title": "Replay buffer capacity and FIFO eviction", "statement": "A ReplayBuffer with capacity c never holds more than c entries and always holds exactly the most recent min(c, total) entries in insertion order; sample(n) asserts n <= len.", "quantifier": "every capacity and history", "why_tests_cant": "Histories are unbounded.", "anchors": ["chainerrl/replay_buffers/replay_buffer.py:ReplayBuffer", "chainerrl/misc/collections.py:RandomAccessQueue"]}
{"id": "C12", "title": "Replay buffer save/load round trip", "statement": "load(save(buf)) restores exactly the stored entries, for current-format files and for v0.2 files holding plain deques; subsequent appends/evictions behave as if the buffer had never been saved.", "quantifier": "every reachable buffer state and every continuation", "why_tests_cant": "The continuation after loading is arbitrary.", "anchors": ["chainerrl/replay_buffers/replay_buffer.py:ReplayBuffer.save", "chainerrl/replay_buffers/replay_buffer.py:ReplayBuffer.load"]}
{"id": "C13", "title": "Episodic buffer: transition view and episode view agree, eviction is by whole episodes", "statement": "In an EpisodicReplayBuffer the list of stored transitions is always the concatenation of the stored episodes in order, len() is the total number of stored transitions and never exceeds capacity, and eviction removes whole oldest episodes; an episode longer than capacity leaves the buffer empty; a new buffer of the same capacity that loads the file of a buffer saved between episodes behaves like that buffer from then on.", "quantifier": "every capacity, every history over several env_ids", "why_tests_cant": "Invariant over unbounded histories.", "anchors": ["chainerrl/replay_buffers/episodic.py:EpisodicReplayBuffer"]}
{"id": "C14", "title": "Episode subsequences are contiguous and of bounded length", "statement": "sample_episodes(n, max_len) returns n distinct stored episodes, each cut to a contiguous subsequence of length min(len(ep), max_len) for every random choice; with max_len None the whole episode is returned. sample(n) returns the transitions at n distinct positions; both raise AssertionError exactly when fewer than n are stored.", "quantifier": "every buffer, n, max_len and random choices", "why_tests_cant": "Off-by-one at the end of the random start range is visible only for particular random draws.", "anchors": ["chainerrl/replay_buffer.py:random_subseq", "chainerrl/replay_buffers/episodic.py:EpisodicReplayBuffer.sample_episodes"]}
{"id": "C15", "title": "Prioritized episodic buffer respects its capacity", "statement": "A PrioritizedEpisodicReplayBuffer never keeps more transitions than its capacity (whole oldest episodes are evicted) and its bookkeeping of free capacity equals capacity minus the number of transitions in the stored episodes -- also after loading a saved buffer.", "quantifier": "every history including save/load", "why_tests_cant": "The defect appears only after a load followed by appends.", "anchors": ["chainerrl/replay_buffers/prioritized_episodic.py:PrioritizedEpisodicReplayBuffer"]}
{"id": "C16", "title": "batch_experiences computes the n-step target ingredients", "statement": "For every batch of n-step entries, batch_experiences returns per entry: first state and action, reward sum_{k<m} gamma^k r_k, next_state of the last transition, terminal flag = any transition terminal, discount gamma^m with m the entry length, and next_action exactly when all entries have one.", "quantifier": "every batch, entry length and gamma", "why_tests_cant": "Entry lengths vary at episode ends.", "anchors": ["chainerrl/replay_buffer.py:batch_experiences"]}
{"id": "C17", "title": "ReplayUpdater updates on schedule and never over-samples", "statement": "update_if_necessary(t) performs exactly n_times_update updates iff the buffer holds at least replay_start_size transitions, (episodic) at least batchsize episodes and t is a multiple of update_interval, and zero otherwise; it never requests more items than the buffer holds.", "quantifier": "every buffer size, t and configuration satisfying the constructor's assertion", "why_tests_cant": "Quantifies over all configurations and times.", "anchors": ["chainerrl/replay_buffer.py:ReplayUpdater"]}
{"id": "C18", "title": "Importance weights of prioritized replay are normalised", "statement": "With normalize_by_max='batch' every weight is in (0,1] and the smallest-probability sample gets exactly 1; with 'memory' every weight is at most 1; beta is nondecreasing and never exceeds 1 over any number of calls.", "quantifier": "all probability batches, beta0 and betasteps, any number of calls", "why_tests_cant": "Real-valued inputs and unbounded number of calls.", "anchors": ["chainerrl/replay_buffers/prioritized.py:PriorityWeightError"]}
{"id": "C19", "title": "Linearly decayed epsilon", "statement": "LinearDecayEpsilonGreedy.compute_epsilon(t) equals start at t=0, end for every t>=decay_steps, always lies between start and end and is monotone in t.", "quantifier": "all start, end, decay_steps (including 0) and t>=0", "why_tests_cant": "All t and all parameters, including the degenerate decay_steps=0.", "anchors": ["chainerrl/explorers/epsilon_greedy.py:LinearDecayEpsilonGreedy"]}
{"id": "C20", "title": "Epsilon-greedy selection", "statement": "The random action function is called exactly when the uniform draw is below epsilon, otherwise the greedy function is called, and exactly one of the two is called once per selection; epsilon=0 is always greedy, epsilon=1 never greedy.", "quantifier": "all epsilon and draws in [0,1)", "why_tests_cant": "All real draws.", "anchors": ["chainerrl/explorers/epsilon_greedy.py:select_action_epsilon_greedily"]}
{"id": "C21", "title": "train_agent drives the agent through a well-formed protocol", "statement": "For every environment behaviour, train_agent performs exactly steps-step_offset environment steps unless stopped by success or an exception; each episode is a reset, a nonempty run of act_and_train/step pairs and exactly one stop_episode_and_train carrying the last observation, reward and done flag; episodes end exactly at done, needs_reset, max_episode_len or the final step; act_and_train always receives the latest observation and the reward of the previous step (0 after a reset).", "quantifier": "every environment (adversarial outputs), steps, step_offset, max_episode_len and evaluation outcome", "why_tests_cant": "Environment outputs are arbitrary and unbounded.", "anchors": ["chainerrl/experiments/train_agent.py:train_agent"]}
{"id": "C22", "title": "train_agent saves checkpoints and a final or exception snapshot", "statement": "Without an exception exactly one '<t>_finish' snapshot is written, at the end; an exception at any point writes exactly one '<t>_except' snapshot with the number of completed steps and is re-raised; a '_checkpoint' is written at every step t that is a multiple of checkpoint_freq and is followed by a further step (the last step is covered by '_finish').", "quantifier": "every execution and every crash point", "why_tests_cant": "Crash points range over every step of the loop.", "anchors": ["chainerrl/experiments/train_agent.py:train_agent"]}
{"id": "C23", "title": "train_agent_batch step accounting and resets", "statement": "train_agent_batch advances the step counter by num_envs per vector step, stops at the first multiple boundary >= steps (overshooting by less than num_envs), tells the agent done/reset flags per environment, and resets exactly the environments whose episode ended (done, needs_reset or max_episode_len).", "quantifier": "every vector environment behaviour, num_envs, steps, offset", "why_tests_cant": "Unbounded adversarial environments.", "anchors": ["chainerrl/experiments/train_agent_batch.py:train_agent_batch"]}
{"id": "C24", "title": "train_agent_batch stops on success", "statement": "When an evaluation reaches a score >= successful_score, train_agent_batch stops training.", "quantifier": "every evaluation score", "why_tests_cant": "The failing case is a single score value (0.0).", "anchors": ["chainerrl/experiments/train_agent_batch.py:train_agent_batch", "chainerrl/experiments/evaluator.py:Evaluator.evaluate_if_necessary"]}
{"id": "C25", "title": "Asynchronous training: global step numbers are unique and training ends once", "statement": "Under every interleaving of the worker processes each global step number 1..counter is handed to exactly one worker step; the '<steps>_finish' snapshot is written by at most one process and the 'successful' snapshot by at most one process; the counter never exceeds steps + processes - 1 at termination without success; once a worker sees the limit it finishes its episode and stops; no update of the shared episode counter is lost and the episode numbers handed to the evaluator belong to one process each; only process 0 writes an '<n>_except' snapshot, as its last action, n being the last global number it took.", "quantifier": "every number of processes, every interleaving, every environment behaviour", "why_tests_cant": "Interleavings of multiprocess workers cannot be enumerated by tests.", "anchors": ["chainerrl/experiments/train_agent_async.py:train_loop"]}
{"id": "C26", "title": "Evaluator evaluates once per interval and keeps the best score", "statement": "Evaluator.evaluate_if_necessary(t) evaluates iff t - previous >= eval_interval where previous is the last evaluated multiple of the interval; for nondecreasing t each interval is evaluated at most once; max_score is the maximum score seen so far and the 'best' snapshot is written exactly when a score is strictly greater than all earlier ones (and than the initial float32 minimum).", "quantifier": "every nondecreasing sequence of times and every sequence of scores", "why_tests_cant": "Unbounded sequences.", "anchors": ["chainerrl/experiments/evaluator.py:Evaluator"]}
{"id": "C27", "title": "AsyncEvaluator evaluates each interval at most once across processes", "statement": "Under every interleaving of processes the k-th evaluation interval is claimed by at most one process, the score-file header is written exactly once and before any record, and max_score is the maximum of all recorded scores (each rounded to single precision, as the shared value is a C float).", "quantifier": "every number of processes and interleaving", "why_tests_cant": "Interleavings.", "anchors": ["chainerrl/experiments/evaluator.py:AsyncEvaluator"]}
{"id": "C28", "title": "Evaluation runs collect exactly the requested episodes or steps", "statement": "With n_episodes=k run_evaluation_episodes returns the scores of exactly k complete episodes, each ended by done, needs_reset or max_episode_len, every one followed by stop_episode; with n_steps=s it performs exactly s environment steps and the scores are those of the completed episodes (or the single unfinished one).", "quantifier": "every environment, agent, k, s and max_episode_len", "why_tests_cant": "Adversarial environments.", "anchors": ["chainerrl/experiments/evaluator.py:run_evaluation_episodes"]}
{"id": "C29", "title": "Vectorised evaluation is unbiased: first-started episodes are reported", "statement": "batch_run_evaluation_episodes with n_episodes=k returns the returns of the k episodes that were started first, in start order, independent of which finish first; every reported return is the sum of the rewards of one complete episode of one environment. The agent acts on the current observations, observes the true rewards and done flags and every cut-off, is told at the end that all episodes end, and exactly the environments whose episode is over are reset.", "quantifier": "every vector environment behaviour", "why_tests_cant": "Depends on relative lengths of concurrently running episodes.", "anchors": ["chainerrl/experiments/evaluator.py:batch_run_evaluation_episodes"]}
{"id": "C30", "title": "Demonstration collection honours max_episode_len", "statement": "collect_demonstrations stops every episode after at most max_episode_len steps and records exactly the requested number of transitions or episodes.", "quantifier": "every environment", "why_tests_cant": "Adversarial environments.", "anchors": ["chainerrl/experiments/collect_demos.py:collect_demonstrations"]}
{"id": "C31", "title": "Agent save/load round trip and cycle detection", "statement": "load(save(agent)) restores every saved attribute of an agent, recursively through nested agents, leaving None attributes alone; a cyclic attribute graph is detected (assertion) instead of looping forever, on save and on load.", "quantifier": "every finite attribute graph", "why_tests_cant": "Arbitrary nesting; cycles.", "anchors": ["chainerrl/agent.py:AttributeSavingMixin"]}
{"id": "C32", "title": "SerialVectorEnv steps and masked resets act per environment", "statement": "step(actions) steps environment i with actions[i] and returns the outputs in order; reset(mask) resets exactly the environments with false mask and returns the last observation of the others.", "quantifier": "any number of environments and any history", "why_tests_cant": "Histories.", "anchors": ["chainerrl/envs/serial_vector_env.py:SerialVectorEnv"]}
{"id": "C33", "title": "MultiprocessVectorEnv is observationally equal to SerialVectorEnv", "statement": "For every scheduling of the worker processes, the results returned by step/reset of MultiprocessVectorEnv equal those of a SerialVectorEnv over the same environments and no reply is lost, duplicated or attributed to another environment.", "quantifier": "every number of workers and every interleaving of worker progress with the parent", "why_tests_cant": "Interleavings.", "anchors": ["chainerrl/envs/multiprocess_vector_env.py:MultiprocessVectorEnv"]}
{"id": "C34", "title": "VectorFrameStack and FrameStack show the last k frames", "statement": "Each environment's stacked observation consists of its k most recent frames since its last reset, the first frame being repeated to fill, and a masked reset affects only the reset environments.", "quantifier": "every k, number of environments and history", "why_tests_cant": "Histories.", "anchors": ["chainerrl/wrappers/vector_frame_stack.py:VectorFrameStack", "chainerrl/wrappers/atari_wrappers.py:FrameStack"]}
{"id": "C35", "title": "ContinuingTimeLimit signals needs_reset without termination", "statement": "The wrapper sets needs_reset exactly from the max_episode_steps-th step after the last reset on, never changes observation, reward or done, and stepping before the first reset is an error.", "quantifier": "every environment and history", "why_tests_cant": "Histories.", "anchors": ["chainerrl/wrappers/continuing_time_limit.py:ContinuingTimeLimit"]}
{"id": "C36", "title": "EpisodicLifeEnv: true resets only at real game over", "statement": "A life loss (lives decreasing to a positive number) is reported as done but a following reset does not reset the game; a reset after a real game over does.", "quantifier": "every underlying game behaviour and history", "why_tests_cant": "Histories.", "anchors": ["chainerrl/wrappers/atari_wrappers.py:EpisodicLifeEnv"]}
{"id": "C37", "title": "MaxAndSkipEnv returns the maximum over the last two frames", "statement": "The observation returned by a MaxAndSkip step is the elementwise maximum of the last two frames actually produced in that step and the reward is the sum of the frame rewards; frames stop at done or needs_reset.", "quantifier": "every game behaviour, skip", "why_tests_cant": "The defect shows only when the episode ends inside a skip.", "anchors": ["chainerrl/wrappers/atari_wrappers.py:MaxAndSkipEnv"]}
{"id": "C38", "title": "NoopReset and FireReset return the observation of the state they leave the game in", "statement": "After reset() of NoopResetEnv/FireResetEnv the returned observation is the current observation of the wrapped environment, and the environment is not left in a terminal state by the wrapper's own actions.", "quantifier": "every game behaviour and noop count", "why_tests_cant": "Needs a game ending during the wrapper's own actions.", "anchors": ["chainerrl/wrappers/atari_wrappers.py:NoopResetEnv", "chainerrl/wrappers/atari_wrappers.py:FireResetEnv"]}
{"id": "C39", "title": "NormalizeActionSpace maps [-1,1] onto [low,high]", "statement": "The wrapper maps -1 to low, 1 to high, is affine and monotone in each coordinate, and maps [-1,1] into [low,high].", "quantifier": "all boxes and actions", "why_tests_cant": "Real-valued.", "anchors": ["chainerrl/wrappers/normalize_action_space.py:NormalizeActionSpace"]}
{"id": "C40", "title": "Time-limited and action-repeating environment modifiers", "statement": "make_timestep_limited(env, L) makes every episode report done at latest at its L-th step and never alters other outputs; make_action_repeated(env, n) applies the action until done or n times and returns the reward sum; make_reward_filtered and make_action_filtered change nothing but the rewards returned and the actions passed on.", "quantifier": "every environment and history", "why_tests_cant": "Histories.", "anchors": ["chainerrl/misc/env_modifiers.py:make_timestep_limited", "chainerrl/misc/env_modifiers.py:make_action_repeated"]}
{"id": "C41", "title": "Reward normalisation keeps the divisor away from zero", "statement": "NormalizedRewardFilter divides by a standard deviation bounded below by eps so that the filtered reward is always defined.", "quantifier": "every reward sequence", "why_tests_cant": "Needs specific reward sequences.", "anchors": ["chainerrl/misc/reward_filter.py:NormalizedRewardFilter"]}
{"id": "C42", "title": "DQN records every environment step exactly once", "statement": "Driving DQN through act_and_train/stop_episode_and_train (or the batch interface) appends to the replay buffer exactly one transition per environment step with the right state, action, reward, next state and terminal flag, and closes episodes exactly at their ends.", "quantifier": "every sequence of episodes, observations and rewards, any number of parallel environments", "why_tests_cant": "Histories.", "anchors": ["chainerrl/agents/dqn.py:DQN.act_and_train", "chainerrl/agents/dqn.py:DQN.stop_episode_and_train", "chainerrl/agents/dqn.py:DQN.batch_observe_and_train"]}
{"id": "C43", "title": "DQN target network synchronisation schedule", "statement": "The target network is synchronised exactly at the time steps that are multiples of target_update_interval; between synchronisations with the hard method the target parameters do not change.", "quantifier": "every history", "why_tests_cant": "Histories.", "anchors": ["chainerrl/agents/dqn.py:DQN"]}
{"id": "C44", "title": "Bootstrapping is cut at terminal states", "statement": "For DQN, Double DQN, SARSA, (Persistent) advantage learning, DPP, categorical DQN, TD3, SAC and DDPG, the target of an entry whose terminal flag is set depends only on rewards (and, for advantage learning and DPP, on the values in the first state of the entry, which their gap term uses), not on any value estimate of the next state; otherwise it is reward + discount * the algorithm's next-state value.", "quantifier": "all batches and value functions", "why_tests_cant": "All real inputs.", "anchors": ["chainerrl/agents/dqn.py", "chainerrl/agents/double_dqn.py", "chainerrl/agents/sarsa.py", "chainerrl/agents/al.py", "chainerrl/agents/pal.py", "chainerrl/agents/dpp.py", "chainerrl/agents/td3.py", "chainerrl/agents/ddpg.py"]}
{"id": "C45", "title": "DDPG bootstraps n-step entries with gamma^n", "statement": "With an n-step replay buffer, DDPG's critic target discounts the bootstrap value by gamma to the power of the entry length.", "quantifier": "all entry lengths and gamma", "why_tests_cant": "Only visible for num_steps>1.", "anchors": ["chainerrl/agents/ddpg.py:DDPG.compute_critic_loss"]}
{"id": "C46", "title": "Categorical projection conserves probability mass", "statement": "The C51 projection maps a distribution over shifted atoms to one over the fixed support that is nonnegative, has the same total mass, and the same mean whenever no shifted atom is clipped; in general its mean is the mean of the clipped atoms.", "quantifier": "all supports, atom values and probabilities", "why_tests_cant": "Real-valued and at grid points the floor/ceil coincide.", "anchors": ["chainerrl/agents/categorical_dqn.py:_apply_categorical_projection"]}
{"id": "C47", "title": "A3C and NSQ use n-step discounted returns", "statement": "At each update the return target of step i is sum_{k} gamma^k r_{i+k} + gamma^{n-i} R_end with R_end the bootstrap value (0 at terminal); every step is used in exactly one update; rollouts have at most t_max steps and never cross episode ends.", "quantifier": "every history, t_max, gamma", "why_tests_cant": "Histories.", "anchors": ["chainerrl/agents/a3c.py:A3C", "chainerrl/agents/nsq.py:NSQ"]}
{"id": "C48", "title": "A2C returns respect episode ends inside a rollout", "statement": "A2C's returns with and without GAE equal the masked discounted sums: nothing after an episode end contributes to a return before it.", "quantifier": "every rollout, mask, gamma, tau", "why_tests_cant": "All real inputs.", "anchors": ["chainerrl/agents/a2c.py:A2C"]}
{"id": "C49", "title": "PPO/TRPO advantages are the GAE sums", "statement": "For every episode fragment the advantage of step i is sum_{k>=0} (gamma*lambda)^k delta_{i+k} and the value target is advantage plus predicted value; lambda=1 gives the discounted Monte-Carlo return, lambda=0 the TD target.", "quantifier": "every fragment, gamma, lambda", "why_tests_cant": "All lengths and reals.", "anchors": ["chainerrl/agents/ppo.py:_add_advantage_and_value_target_to_episode"]}
{"id": "C50", "title": "PPO/TRPO use every transition in exactly one update", "statement": "Every transition observed while training is contained in exactly one update dataset, in episode order and never spanning two episodes; an update happens as soon as update_interval transitions are collected.", "quantifier": "every history of the single and batch interface", "why_tests_cant": "Histories.", "anchors": ["chainerrl/agents/ppo.py:PPO", "chainerrl/agents/trpo.py:TRPO"]}
{"id": "C51", "title": "Recurrent minibatches partition the dataset", "statement": "_yield_subset_of_sequences_with_fixed_number_of_items yields subsets of exactly n_items transitions whose concatenation is the dataset, cutting sequences only at subset boundaries; _limit_sequence_length cuts every sequence into consecutive pieces of length at most max_len.", "quantifier": "every list of sequences and n_items", "why_tests_cant": "All shapes; fails when the total is not a multiple.", "anchors": ["chainerrl/agents/ppo.py:_yield_subset_of_sequences_with_fixed_number_of_items", "chainerrl/agents/ppo.py:_limit_sequence_length"]}
{"id": "C52", "title": "ACER trust-region step is the projection onto the KL constraint", "statement": "The direction z used by ACER satisfies k.z <= delta and is the closest vector to g with that property (g itself if it already satisfies it).", "quantifier": "all vectors g, k and delta>=0", "why_tests_cant": "All reals.", "anchors": ["chainerrl/agents/acer.py:compute_loss_with_kl_constraint"]}
{"id": "C53", "title": "PCL applies each importance weight to its own episode", "statement": "In PCL.update_from_replay the importance weight multiplying an episode's loss is the weight returned by the replay buffer for that episode.", "quantifier": "every batch of episodes and weights", "why_tests_cant": "Needs different lengths and weights.", "anchors": ["chainerrl/agents/pcl.py:PCL.update_from_replay"]}
{"id": "C54", "title": "REINFORCE uses undiscounted returns of complete episodes", "statement": "Each update uses exactly batchsize complete (done) episodes, each step weighted by the sum of the rewards that follow it; episodes cut without done are discarded; both gradient modes update after the same episodes.", "quantifier": "every history", "why_tests_cant": "Histories.", "anchors": ["chainerrl/agents/reinforce.py:REINFORCE"]}
{"id": "C55", "title": "TRPO line search never accepts an unsafe step", "statement": "After TRPO's line search the policy parameters are either the original ones or original + 2^-j * step for the first j <= max_backtrack whose objective and KL are finite, whose objective does not decrease and whose KL is at most max_kl.", "quantifier": "every objective/KL function and step", "why_tests_cant": "Arbitrary functions.", "anchors": ["chainerrl/agents/trpo.py:TRPO._line_search"]}
{"id": "C56", "title": "Soft and hard parameter copies", "statement": "copy_param makes every named target parameter equal to the source's; soft_copy_param makes it (1-tau)*old+tau*source, so after k soft copies of a fixed source the difference is (1-tau)^k times the initial one; copying preserves parameters not present in the source.", "quantifier": "all parameter sets, tau, k", "why_tests_cant": "All reals, iterations.", "anchors": ["chainerrl/misc/copy_param.py"]}
{"id": "C57", "title": "EmpiricalNormalization tracks the exact empirical mean and variance", "statement": "After any sequence of batches, mean and variance equal the population mean and variance of all the values experienced so far (until the optional limit), independent of how they were batched; a link that loads saved statistics goes on learning as if it had seen the values itself.", "quantifier": "every sequence of nonempty batches", "why_tests_cant": "Unbounded sequences; algebraic identity.", "anchors": ["chainerrl/links/empirical_normalization.py:EmpiricalNormalization"]}
{"id": "C58", "title": "EmpiricalNormalization uses a consistent snapshot", "statement": "A normalised output is computed with mean and standard deviation of the same moment, and after loading saved statistics the outputs use the loaded statistics; with a clip threshold the outputs are the unclipped ones cut to it on both sides.", "quantifier": "every history of calls, updates and loads", "why_tests_cant": "Aliasing and caching defects need particular call orders.", "anchors": ["chainerrl/links/empirical_normalization.py:EmpiricalNormalization"]}
{"id": "C59", "title": "state_kept / state_reset restore the recurrent state", "statement": "After leaving a state_kept or state_reset context the recurrent state of the link equals the state before entering, for arbitrarily nested contexts.", "quantifier": "every nesting, link and body", "why_tests_cant": "Arbitrary nesting; defect at the initial state.", "anchors": ["chainerrl/recurrent.py"]}
{"id": "C60", "title": "Stateless recurrent state surgery", "statement": "get_recurrent_state_at after concatenate_recurrent_states returns the i-th state, masking index i resets exactly sequence i to the initial state, for arbitrarily nested links.", "quantifier": "every nesting of links and batch", "why_tests_cant": "Arbitrary nesting.", "anchors": ["chainerrl/links/stateless_recurrent.py"]}
{"id": "C61", "title": "Lower-triangular packing is a bijection", "statement": "lower_triangular_matrix puts the diagonal and the row-major strictly-lower entries in place, zero above, and the backward pass reads back exactly those positions.", "quantifier": "every n", "why_tests_cant": "All sizes.", "anchors": ["chainerrl/functions/lower_triangular_matrix.py"]}
{"id": "C62", "title": "Conjugate gradient", "statement": "conjugate_gradient maintains r = b - A x for every linear A, so on return x satisfies the reported residual; it stops early only when the norm of the residual is below tol; for symmetric positive definite A of size n it returns the exact solution after at most n iterations, for every b.", "quantifier": "every linear operator, vector, iteration count", "why_tests_cant": "All dimensions.", "anchors": ["chainerrl/misc/conjugate_gradient.py:conjugate_gradient"]}
{"id": "C63", "title": "QuadraticActionValue.max is the maximum over allowed actions", "statement": "For positive semidefinite P the value `max` is an upper bound of evaluate_actions over all (bounded) actions and is attained at greedy_actions.", "quantifier": "every mu, P, v, bounds", "why_tests_cant": "Needs correlated P and active bounds.", "anchors": ["chainerrl/action_value.py:QuadraticActionValue"]}
{"id": "C64", "title": "DiscreteActionValue.max and advantages", "statement": "greedy_actions is the first index of a maximal Q value, max is the maximal Q value, and compute_advantage is never positive and zero at the greedy action; compute_double_advantage is the difference of two advantages.", "quantifier": "all Q vectors", "why_tests_cant": "All reals.", "anchors": ["chainerrl/action_value.py:DiscreteActionValue"]}
{"id": "C65", "title": "IQN quantile loss trains the tau-quantile", "statement": "The elementwise quantile Huber loss for threshold tau weights under-estimation by tau and over-estimation by 1-tau, as in Algorithm 1 of the cited paper.", "quantifier": "all tau, predictions and targets", "why_tests_cant": "All reals.", "anchors": ["chainerrl/agents/iqn.py:compute_eltwise_huber_quantile_loss"]}
{"id": "C66", "title": "Softmax policy probabilities", "statement": "SoftmaxDistribution probabilities are at least min_prob, sum to one, keep the order of the logits for beta>0; its log probabilities are their logarithms; KL between two softmax distributions is nonnegative.", "quantifier": "all logits, beta, min_prob with min_prob*n<=1", "why_tests_cant": "All reals.", "anchors": ["chainerrl/distribution.py:SoftmaxDistribution"]}
{"id": "C67", "title": "Gaussian KL divergence", "statement": "GaussianDistribution.kl is nonnegative and zero exactly for equal means and variances.", "quantifier": "all means and positive variances", "why_tests_cant": "All reals.", "anchors": ["chainerrl/distribution.py:GaussianDistribution.kl"]}
{"id": "C68", "title": "Mellowmax is a non-expansion bounded by the maximum", "statement": "mellowmax(values) lies between min and max of the values and |mellowmax(x)-mellowmax(y)| <= max_i |x_i-y_i|.", "quantifier": "all nonempty value vectors and omega>0", "why_tests_cant": "All reals.", "anchors": ["chainerrl/functions/mellowmax.py:mellowmax"]}
{"id": "C69", "title": "InvertGradients pushes values back into range", "statement": "Backpropagated gradients are zero at the bound they push towards, keep their sign inside the range and flip it outside.", "quantifier": "all x, gy, ranges", "why_tests_cant": "All reals.", "anchors": ["chainerrl/functions/invert_gradients.py:InvertGradients"]}
{"id": "C70", "title": "Linear interpolation hook", "statement": "LinearInterpolationHook sets start_value at step 1, stop_value at and after total_steps, a value between them and monotone in between.", "quantifier": "all steps and values", "why_tests_cant": "All steps.", "anchors": ["chainerrl/experiments/hooks.py:LinearInterpolationHook"]}
{"id": "C71", "title": "TD3 delayed policy updates", "statement": "In TD3 the policy and the target networks are updated exactly once per policy_update_delay Q-function updates, and n_times_update updates are performed per training step.", "quantifier": "every history", "why_tests_cant": "Histories; ignored constructor argument.", "anchors": ["chainerrl/agents/td3.py:TD3"]}
{"id": "C72", "title": "ACER truncated importance weight plus bias correction is unbiased", "statement": "The sum of ACER's truncated off-policy policy gradient term, in expectation over the behaviour policy, and its bias correction term equals the untruncated importance weighted gradient; the correction vanishes when no weight exceeds the truncation; the sampled correction has the full correction as its expectation.", "quantifier": "all policies, behaviour policies, advantages, thresholds", "why_tests_cant": "All reals, expectation over the policy.", "anchors": ["chainerrl/agents/acer.py:compute_policy_gradient_loss", "chainerrl/agents/acer.py:compute_policy_gradient_full_correction", "chainerrl/agents/acer.py:compute_policy_gradient_sample_correction"]}
{"id": "C73", "title": "ACER regression targets are Retrace targets", "statement": "The value targets ACER regresses to are the Retrace targets of the episode segment: reward plus discounted truncated-weight correction of the next target plus the next value; on-policy with no correction they are the n-step returns. The policy's advantages are these targets (or, as an option, the uncut ones) minus the values, and the loss is half the sum of squared distances to the targets.", "quantifier": "all trajectories, weights, value estimates", "why_tests_cant": "Every trajectory length and value.", "anchors": ["chainerrl/agents/acer.py:ACER.compute_loss"]}
{"id": "C74", "title": "PCL losses are path consistency errors", "statement": "The loss PCL computes for an episode is the mean over its subtrajectories of the squared soft path consistency error of the given rollout length.", "quantifier": "all trajectories and rollout lengths", "why_tests_cant": "Every trajectory length.", "anchors": ["chainerrl/agents/pcl.py:PCL.compute_loss"]}
{"id": "C75", "title": "Gaussian policies have the normal log density, entropy and divergence", "statement": "For a Gaussian policy with any mean and diagonal variance, log_prob is the logarithm of the density of that normal distribution, entropy is its differential entropy and kl is the Kullback-Leibler divergence between the two normal distributions.", "quantifier": "all dimensions, means, positive variances, points", "why_tests_cant": "Integrals over all reals.", "anchors": ["chainerrl/distribution.py:GaussianDistribution"]}
{"id": "C76", "title": "Maximum entropy mellowmax policy", "statement": "maximum_entropy_mellowmax returns the distribution of greatest entropy among those under which the expected value is the mellowmax of the values, for the omega that is given; MellowmaxDistribution uses the omega it is given.", "quantifier": "all value vectors, omega > 0 and distributions", "why_tests_cant": "Quantifies over all distributions; a dropped argument is invisible with the default omega.", "anchors": ["chainerrl/functions/mellowmax.py:maximum_entropy_mellowmax", "chainerrl/distribution.py:MellowmaxDistribution"]}
{"id": "C77", "title": "Squashed Gaussian policies", "statement": "SquashedGaussianDistribution.log_prob is the logarithm of the density of tanh of a normal draw, sample_with_log_prob returns that log probability for its sample, all samples lie strictly between -1 and 1; bound_by_tanh maps every input strictly between the given bounds.", "quantifier": "all means, variances, draws, points", "why_tests_cant": "Change of variables over all reals.", "anchors": ["chainerrl/distribution.py:SquashedGaussianDistribution", "chainerrl/functions/bound_by_tanh.py:bound_by_tanh"]}
{"id": "C78", "title": "DDPG, TD3 and SoftActorCritic record every step and learn on schedule", "statement": "In every training history, single or batch, the replay buffer receives every environment step exactly once, in order, with the action that the agent returned, and episodes are closed exactly at their ends; each due training step makes the configured number of updates (n_times_update for DDPG); DDPG synchronises its target networks exactly at the multiples of target_update_interval and SoftActorCritic after each update; the burn-in function chooses the actions exactly until the first policy update.", "quantifier": "every history of episodes or rounds, all settings, every replay buffer", "why_tests_cant": "Unbounded histories.", "anchors": ["chainerrl/agents/ddpg.py:DDPG", "chainerrl/agents/td3.py:TD3", "chainerrl/agents/soft_actor_critic.py:SoftActorCritic"]}
{"id": "C79", "title": "Exploration noise has the documented law", "statement": "AdditiveGaussian adds independent zero-mean noise of the configured scale and keeps actions within the given bounds; AdditiveOU adds an Ornstein-Uhlenbeck process whose values follow the discretised recursion and have, at every step, the normal law that recursion implies from its starting distribution; Boltzmann exploration picks each action with probability proportional to the exponential of its value over the temperature.", "quantifier": "all greedy actions, bounds, parameters, noise draws and numbers of steps", "why_tests_cant": "Laws over all draws and unbounded numbers of steps.", "anchors": ["chainerrl/explorers/additive_gaussian.py:AdditiveGaussian", "chainerrl/explorers/additive_ou.py:AdditiveOU", "chainerrl/explorers/boltzmann.py:Boltzmann"]}
{"id": "C80", "title": "Batched multi-step forward computation equals stepping each sequence alone", "statement": "For every stateless recurrent model built from recurrent links, functions, sequential and branched containers, n_step_forward on a batch of sequences of any lengths returns for every sequence what feeding that sequence alone row by row would return, in split or concatenated form, and a recurrent state that stands for the states the sequences end in; None stands for the initial states; a sequence cut anywhere and continued from the returned state gives the same as the whole; a one-step call is one step of every sequence. Sequences may be arrays or tuples of arrays.", "quantifier": "all models (trees of layers of any depth), batches, lengths, states and cut positions", "why_tests_cant": "Quantifies over all model trees and ragged batches.", "anchors": ["chainerrl/links/stateless_recurrent.py:call_recurrent_link", "chainerrl/links/stateless_recurrent.py:split_batched_sequences", "chainerrl/links/stateless_recurrent.py:concatenate_sequences", "chainerrl/links/stateless_recurrent_sequential.py:StatelessRecurrentSequential.n_step_forward", "chainerrl/links/stateless_recurrent_branched.py:StatelessRecurrentBranched.n_step_forward"]}
{"id": "C81", "title": "Recurrent DQN regresses each step of the sampled episodes on its own history", "statement": "For every batch of sampled (sub)episodes of any lengths, the update of a recurrent DQN evaluates each stored action by the model after it has read the episode's states up to that step, starting from the recurrent state stored with the first step, and its target is the reward plus, unless terminal, the discounted maximum of the target model after it has read the episode's next states up to that step, starting from the stored next recurrent state; nothing depends on other episodes of the batch.", "quantifier": "all recurrent models, batches of episodes, stored states (including None), values", "why_tests_cant": "Ragged batches and arbitrary models; misalignment shows only for some lengths.", "anchors": ["chainerrl/replay_buffer.py:batch_recurrent_experiences", "chainerrl/agents/dqn.py:DQN._compute_y_and_t", "chainerrl/agents/dqn.py:DQN._compute_target_values", "chainerrl/links/stateless_recurrent.py:concatenate_recurrent_states"]}
{"id": "C82", "title": "Recurrent DDPG updates respect what each model has seen", "statement": "In an update of a recurrent DDPG agent from sampled episodes every loss of step i covers exactly the episodes with an i-th step; the Q-function, the target Q-function, the policy and the target policy are evaluated for an episode's step exactly after having read that episode's earlier states and actions, as the preconditions in the docstrings say.", "quantifier": "all batches of episodes of any lengths, all recurrent models", "why_tests_cant": "Ragged batches with shrinking size; hidden state is not observable in tests.", "anchors": ["chainerrl/agents/ddpg.py:DDPG.update_from_episodes", "chainerrl/agents/ddpg.py:DDPG.compute_critic_loss", "chainerrl/agents/ddpg.py:DDPG.compute_actor_loss", "chainerrl/recurrent.py:Recurrent.state_kept"]}
{"id": "C83", "title": "Processes of an asynchronous run share models, optimizer states and counters", "statement": "After the main process turned an agent's shared attributes (links, optimizers, counters and tuples of them) into shared objects and every process synchronised its own alike agent with them, nothing has failed, every process starts with the main process's values, and from then on whatever any process reads of a parameter, persistent value or optimizer state is the value that any process last wrote under the same path, without interference between paths; counters are the main process's counters. Synchronising with shared memory that has a path the model does not have raises instead of being ignored. Violated: optimizers whose state is not float32 cannot be shared, as the state is always copied into float32 memory.", "quantifier": "all trees of links with any parameters and persistent values (arrays or scalars), all optimizer states, all nestings of tuples, any number of processes, all element types, and all sequences of writes by the processes in any interleaving", "why_tests_cant": "Tests share one or two small models with float32 arrays and look at one write; the guarantee is over every tree of links, every element type and every interleaving of writes of all processes.", "anchors": ["chainerrl/misc/async_.py: as_shared_objects, synchronize_to_shared_objects, set_shared_params, set_shared_states, extract_params_as_shared_arrays, extract_states_as_shared_arrays, share_params_as_shared_arrays, share_states_as_shared_arrays", "chainerrl/misc/namedpersistent.py: namedpersistent", "chainerrl/experiments/train_agent_async.py: extract_shared_objects_from_agent, set_shared_objects"]}
{"id": "C84", "title": "ALE environment: frame skipping, rewards, ends and stacked screens", "statement": "In the middle of an episode, ALE.step(action) plays the chosen legal action for frame_skip frames, or fewer if an earlier frame ends the episode (the game is over or, with treat_life_lost_as_terminal, that frame loses a life). It returns the sum of the rewards of the frames played, done exactly if the last frame played ended the episode, and the last n_last_screens images: one image per step, the maximum of the step's last two frames, preceded by black images after a reset, and no new image for the step that ends the episode. After the end step raises until the next reset, and an action that does not exist raises without playing a frame. reset starts a new game if the game is over. Claimed and violated: reset always begins a fresh, playable episode. If the random null actions end the game, reset returns normally and the first step raises; and a reset in the middle of a game goes on with that game.", "quantifier": "all deterministic emulators, settings, actions, sequences of steps and numbers of null actions", "why_tests_cant": "Tests play a few frames of one game; when a life is lost or the game ends within the skipped frames depends on the game and on the history.", "anchors": ["chainerrl/envs/ale.py:ALE.step", "chainerrl/envs/ale.py:ALE.receive_action", "chainerrl/envs/ale.py:ALE.initialize", "chainerrl/envs/ale.py:ALE.reset", "chainerrl/envs/ale.py:ALE.current_screen", "chainerrl/envs/ale.py:ALE.is_terminal"]}
{"id": "C85", "title": "RMSpropAsync and NonbiasWeightDecay", "statement": "After any updates from a fresh optimizer, RMSpropAsync moves each element of a parameter by lr*g/sqrt(ms + eps), where ms is the exponential average (with factor alpha) of the squares of all its gradients so far. Each element depends on its own gradients only, no element moves further than lr/sqrt(1-alpha) in one update, with eps = 0 the moves do not change when all gradients are scaled by a positive number, and a parameter without gradient is left alone. The NonbiasWeightDecay hook adds rate times the parameter to the gradient of every parameter that is not named b and has a gradient, and changes nothing else. Claimed by the documentation and violated: the epsilon is outside the square root.", "quantifier": "all hyperparameters (in the stated ranges), shapes, initial values and sequences of gradients", "why_tests_cant": "Tests run the optimizer on one small problem; the average and the bound are about every history of gradients.", "anchors": ["chainerrl/optimizers/rmsprop_async.py:RMSpropAsyncRule", "chainerrl/optimizers/nonbias_weight_decay.py:NonbiasWeightDecay"]}
{"id": "C86", "title": "to_factorized_noisy converts every linear layer of a network", "statement": "On a network in which no link object occurs twice, to_factorized_noisy replaces every Linear link that is a child of a Chain, ChainList or Sequence, at any depth, by a noisy layer with the same input size, output size and bias setting, made of new and pairwise different links. All other links stay the same objects with their children under the same names and in the same places, the functions between the layers of a Sequence stay where they were, and no other object changes. Afterwards no Linear link is left outside of noisy layers, there is one noisy layer for each Linear link there was, and these can be called. Claimed and violated in other cases: a Linear link that is itself the argument is not converted; a Linear link used twice in a Chain is replaced by two different layers; a Sequence that uses a Linear link twice raises AssertionError; a network converted twice, or a sub-network used in two places, ends up with noisy layers that raise when they are called. The layer given as mu_link does not compute the mean as documented: its weights are thrown away.", "quantifier": "all networks of any size, depth and kind of containers, and all recursion limits that suffice", "why_tests_cant": "Tests convert a handful of small networks; identity and sharing of layers and the nesting of containers can be anything.", "anchors": ["chainerrl/links/noisy_chain.py:to_factorized_noisy", "chainerrl/links/noisy_chain.py:_map_links", "chainerrl/links/noisy_chain.py:_replace_unique_item", "chainerrl/links/noisy_linear.py:FactorizedNoisyLinear"]}
{"id": "C87", "title": "PPO loss: clipped objective, clipped value loss and standardised advantages", "statement": "For every transition the PPO objective is min(ratio, 1+clip_eps) * adv for a non-negative advantage and max(ratio, 1-clip_eps) * adv for a negative one: never more than the unclipped objective, equal to it while the ratio is within clip_eps of 1. As a function of the action's log probability it has slope ratio*adv for a transition that is not clipped and slope zero for one whose ratio has already moved past the range in the direction of its advantage; while the policy is the one that acted, the slope is the advantage. The value loss is the squared error, or with clip_eps_vf at least the squared error and equal to it while the value is within clip_eps_vf of the old one. The loss is the mean over the minibatch of minus the objective plus the weighted value loss minus the weighted entropy. Standardised advantages have mean zero, a standard deviation below one, and keep their order. Claimed and violated: any dataset can be trained on. If all its advantages are equal (one transition, for instance), training a recurrent model with standardized advantages raises AssertionError.", "quantifier": "all advantages, log probabilities, values, coefficients and minibatches", "why_tests_cant": "Tests compute the loss for a few arrays; clipping is about every sign and size of the advantage and the ratio.", "anchors": ["chainerrl/agents/ppo.py:PPO._lossfun", "chainerrl/agents/ppo.py:PPO._update", "chainerrl/agents/ppo.py:PPO._update_once_recurrent", "chainerrl/agents/ppo.py:_elementwise_clip"]}
{"id": "C88", "title": "Minibatches of PPO and of TRPO's value function", "statement": "One update of PPO (or of TRPO's value function) makes, minibatch after minibatch, complete passes over the dataset, one for each configured epoch and each in its own random order, followed by part (at most all) of one further pass: so a transition is used at least `epochs` and at most `epochs + 1` times, and nothing outside the dataset is used. The loop always ends. If a minibatch is no larger than the dataset, every minibatch (the last too) has exactly the configured size and the number of gradient steps is epochs * len(dataset) / minibatch_size rounded up; otherwise there is one step for each epoch.", "quantifier": "all datasets, random orders, minibatch sizes and numbers of epochs", "why_tests_cant": "Tests train for a while and look at the reward; minibatches that cross the end of a pass depend on the sizes.", "anchors": ["chainerrl/agents/ppo.py:PPO._update", "chainerrl/agents/trpo.py:TRPO._update_vf"]}
{"id": "C89", "title": "TRPO's step fits the KL constraint and ascends", "statement": "For every nonzero gradient of the gain, every symmetric positive semidefinite Hessian of the KL divergence, damping, max_kl > 0 and number of conjugate gradient iterations, TRPO's full step is a real vector along which the gain increases to first order, and the second-order approximation of the KL divergence after it is below max_kl (with damping included, equal to max_kl up to the relative error 1e-8/(dId + 1e-8)). With at least as many iterations as parameters it is a positive multiple of a vector that solves the damped natural gradient's equation up to a residual of norm below 1e-10. The gain's gradient is the mean of ratio * advantage * gradient of the log probability plus the weighted mean gradient of the entropy. Claimed and violated: if the gradient vanishes, there is no step; the step is NaN instead.", "quantifier": "all gradients, Hessians, dampings, KL limits, iteration counts, and all curves of parameters", "why_tests_cant": "Tests check one small policy; the constraint is about every Hessian and truncated conjugate gradient.", "anchors": ["chainerrl/agents/trpo.py:TRPO._compute_kl_constrained_step", "chainerrl/agents/trpo.py:TRPO._compute_gain", "chainerrl/misc/conjugate_gradient.py:conjugate_gradient"]}
{"id": "C90", "title": "DQN's value loss: clipped gradients, importance weights, priorities", "statement": "For every batch, DQN's loss is the sum (or the mean, over the batch size and not over the weights) of weight times a loss of the error y - t that is zero for no error and has the error as gradient, cut to [-1, 1] with clip_delta. So the gradient with respect to one prediction is its weight times its cut error divided by the batch size ('mean') or not ('sum'); with clip_delta no transition pulls with more than its weight; the loss without weights is the one with all weights 1; with positive weights it is zero exactly if every prediction is its target. The errors handed to prioritized replay are the absolute uncut errors in the order of the batch. Any other accumulator raises AssertionError.", "quantifier": "all batches of predictions, targets and weights, both accumulators, clipped or not", "why_tests_cant": "Tests compare a few random arrays with a reference; the identity is about every error, at the clipping boundary too.", "anchors": ["chainerrl/agents/dqn.py:compute_value_loss", "chainerrl/agents/dqn.py:compute_weighted_value_loss", "chainerrl/agents/dqn.py:DQN._compute_loss"]}
{"id": "C91", "title": "ChainerRL's own differentiable functions compute gradients", "statement": "For arctanh, muladd, sum_arrays and weighted_sum_arrays: however the inputs move, the rate of change of the output times the gradient of the output is the sum of the rates of change of the inputs times the gradients computed for them (for arctanh at every point inside (-1, 1), where it inverts tanh). scale_grad passes its input on and multiplies the gradient by the scale; so ResidualDQN follows the full gradient of the loss of the Bellman residual for grad_scale 1, the gradient with fixed targets for grad_scale 0, and the interpolation of the two otherwise.", "quantifier": "all inputs, numbers of arrays, weights, gradients, and all smooth movements of the inputs", "why_tests_cant": "Numerical gradient checks sample points; the chain rule is for every point and direction.", "anchors": ["chainerrl/functions/arctanh.py:Arctanh", "chainerrl/functions/mul_add.py:MulAdd", "chainerrl/functions/sum_arrays.py:SumArrays", "chainerrl/functions/weighted_sum_arrays.py:WeightedSumArrays", "chainerrl/functions/scale_grad.py:ScaleGrad", "chainerrl/agents/residual_dqn.py:ResidualDQN"]}
{"id": "C92", "title": "Dueling, distributional and quadratic Q-function heads", "statement": "A dueling network's Q values have the value stream's output as their mean over the actions, differ from each other as the advantage stream's outputs do, have the advantage stream's greedy action, and do not change if a constant is added to the advantage stream. The atoms of a distributional Q-function go from v_min to v_max in equal steps (fewer than 2 atoms or v_min >= v_max raise AssertionError). Distributional Q-functions give, for every output of their layers, one probability distribution with full support for each action, with log probabilities equal to the action's own outputs up to a constant (in the dueling variant: advantage minus mean over actions plus value), and Q values within [v_min, v_max]. Quadratic Q-functions have, for every output of their layers, a positive definite form, so mu is the unique maximum; with scale_mu it is strictly inside the action bounds, is the greedy action and has the value layer's output as value.", "quantifier": "all outputs of the layers, numbers of actions and atoms, action dimensions and bounds", "why_tests_cant": "Tests evaluate a few random networks; the identities hold for every output.", "anchors": ["chainerrl/q_functions/dueling_dqn.py:DuelingDQN", "chainerrl/q_functions/dueling_dqn.py:DistributionalDuelingDQN", "chainerrl/q_functions/state_q_functions.py:DistributionalFCStateQFunctionWithDiscreteAction", "chainerrl/q_functions/state_q_functions.py:FCQuadraticStateQFunction"]}
{"id": "C93", "title": "The Atari preprocessing pipeline and action randomization are faithful to the game's history", "statement": "An environment wrapped by wrap_deepmind with frame stacking shows, after every history of calls, the preprocessed images of the last four frames of the current episode, oldest first, with the first frame of the episode standing in for missing ones; the game underneath sees exactly the agent's calls, and rewards and done flags are those of the game (the reward replaced by its sign if clipping is on: -1, 0 or 1). Scaled frames have values in [0, 1] and no two byte values are identified. The stacked array has the i-th frame as its i-th channel in both channel orders. With RandomizeAction the environment gets one call for each of the agent's calls, the executed action is the agent's or one of the action space, and action b is executed with probability p/n, plus 1-p if the agent chose it.", "quantifier": "all games, configurations, call histories, frames, random draws, random fractions and numbers of actions", "why_tests_cant": "A test replays a few steps of one environment; the window and the probabilities are statements about every history.", "anchors": ["chainerrl/wrappers/atari_wrappers.py:ClipRewardEnv", "chainerrl/wrappers/atari_wrappers.py:WarpFrame", "chainerrl/wrappers/atari_wrappers.py:FrameStack", "chainerrl/wrappers/atari_wrappers.py:ScaledFloatFrame", "chainerrl/wrappers/atari_wrappers.py:LazyFrames", "chainerrl/wrappers/atari_wrappers.py:FlickerFrame", "chainerrl/wrappers/atari_wrappers.py:wrap_deepmind", "chainerrl/wrappers/randomize_action.py:RandomizeAction"]}
{"id": "C94", "title": "The ABC environment implements its documented game", "statement": "After every reset ABC is in state 0. Episodic: while the agent's actions are 0, 1, ... the state advances without reward, the last right action gives reward 1 and ends the episode, a wrong action ends it with reward 0; the return is 1 exactly if the first size actions are right. Not episodic: no step is done, the state is the number of right actions modulo size, and one reward has been paid per size right actions. Partially observable and deterministic: episodes alternate between the two observation offsets. Observations distinguish the states of an episode. With continuous actions the deterministic variant takes an action with a maximal clipped logit; the random one samples from the softmax of the clipped logits, in which every action has at least probability 1/(size e^2).", "quantifier": "all configurations, sizes, action sequences, action vectors, resets and random draws", "why_tests_cant": "Learning tests only show that an agent reaches a score; the game is defined over every action sequence.", "anchors": ["chainerrl/envs/abc.py:ABC"]}
{"id": "C95", "title": "Sequence routes keyword arguments to the layers that accept them", "statement": "Calling a Sequence computes its layers one after the other, each given exactly those of the keyword arguments that it accepts; arguments that no layer accepts are ignored and do not change the result. A keyword equal to the name of a layer's first parameter is rejected.", "quantifier": "all lists of layers, signatures, inputs and keyword arguments", "why_tests_cant": "Tests try one or two signatures; routing must work for every combination of layers and arguments.", "anchors": ["chainerrl/links/sequence.py:Sequence", "chainerrl/links/sequence.py:accept_variable_arguments"]}
{"id": "C96", "title": "Fully connected Q-functions and policies have the configured shape and respect bounds and minimum variances", "statement": "An MLP applies as many hidden layers as sizes are given, the nonlinearity after each, then the output layer, and returns as many numbers as configured. Q-functions of a state and an action return one number; the late-action variant computes its first layer from the state alone. A deterministic policy with bounds acts strictly inside them for all weights and inputs. A Gaussian policy's mean is strictly inside the bounds if given, its variances exceed min_var, and spherical variances are equal in all dimensions. The policies with state-independent or fixed covariance have the configured number of hidden layers and positive variances of the action's size.", "quantifier": "all sizes, numbers of layers, weights, nonlinearities that keep sizes, inputs and bounds", "why_tests_cant": "Tests construct a few sizes and check output shapes; the bounds hold for all weights and inputs.", "anchors": ["chainerrl/links/mlp.py:MLP", "chainerrl/q_functions/state_action_q_functions.py:FCSAQFunction", "chainerrl/q_functions/state_action_q_functions.py:FCLateActionSAQFunction", "chainerrl/policies/deterministic_policy.py:ContinuousDeterministicPolicy", "chainerrl/policies/gaussian_policy.py:FCGaussianPolicy", "chainerrl/policies/gaussian_policy.py:FCGaussianPolicyWithStateIndependentCovariance", "chainerrl/policies/gaussian_policy.py:FCGaussianPolicyWithFixedCovariance", "chainerrl/functions/bound_by_tanh.py:bound_by_tanh"]}
{"id": "C97", "title": "The orthogonal initializer produces orthogonal matrices of the given scale", "statement": "For every shape the mode permits, the result of Orthogonal has columns (if there are at most as many columns as rows, otherwise rows) that are orthogonal to each other and of length |scale|, and it is the factor of the random matrix for which the triangular factor has a non-negative diagonal. Empty arrays and shapes that the mode excludes raise ValueError.", "quantifier": "all shapes, modes, scales (of either sign), random matrices and QR decompositions of them", "why_tests_cant": "Tests check a few shapes up to a tolerance.", "anchors": ["chainerrl/initializers/orthogonal.py:Orthogonal"]}
{"id": "C98", "title": "ACER and PCL learn from every step once on-policy, record it once with its behaviour policy, and replay on schedule", "statement": "For every sequence of episodes, the training calls of ACER and PCL succeed and return the chosen actions. Every episode is cut into consecutive rollouts of t_max steps (the last may be shorter), each bootstrapped from the observation after it, the last one with 0 at a terminal state. Each rollout enters exactly one on-policy update, in order (PCL: batches of batchsize rollouts; an incomplete batch waits). The replay buffer gets every transition exactly once, in order, with the distribution its action was drawn from, and every end of an episode. Experience is replayed n_times_replay times after each on-policy update if the buffer has replay_start_size transitions (PCL: and batchsize episodes), and at no other time. With disable_online_update everything but the on-policy updates is the same. The replay buffer is optional.", "quantifier": "all sequences of episodes of any lengths, all observations, actions, distributions and rewards, all values of t_max (None for PCL), batchsize, n_times_replay and replay_start_size, all replay buffers", "why_tests_cant": "Tests train for a few hundred steps and look at scores; an off-by-one between steps, rewards and rollouts goes unnoticed.", "anchors": ["chainerrl/agents/acer.py:ACER.act_and_train", "chainerrl/agents/acer.py:ACER.stop_episode_and_train", "chainerrl/agents/acer.py:ACER.update_on_policy", "chainerrl/agents/acer.py:ACER.update_from_replay", "chainerrl/agents/pcl.py:PCL.act_and_train", "chainerrl/agents/pcl.py:PCL.stop_episode_and_train", "chainerrl/agents/pcl.py:PCL.update_on_policy", "chainerrl/agents/pcl.py:PCL.update_from_replay"]}
{"id": "C99", "title": "Factorized noisy layers compute the mean network on average, with the documented factorized noise", "statement": "In every call of a FactorizedNoisyLinear one noise value per input and one per output are drawn; the noise of a weight is its scale times the product of the two, that of a bias its scale times its output's, and all rows of the batch share them. Over the draws, the mean of every output is that of the noiseless network, different outputs are uncorrelated, and the covariance of one output at two rows x, x' is 2/pi * sum sigma_w^2 x x' + sqrt(2/pi) * sigma_b^2 (for x = x' its variance). The noise function keeps the sign and takes the root of the magnitude. With scales 0 a call is deterministic. The initial scales are sigma_scale / sqrt(in_size) for weights and sigma_scale / sqrt(out_size) for biases.", "quantifier": "all sizes, parameters, batches of inputs, with and without bias, over the law of independent standard normal draws", "why_tests_cant": "The property is about expectations over all draws; a test can only sample a few.", "anchors": ["chainerrl/links/noisy_linear.py:FactorizedNoisyLinear.__call__", "chainerrl/links/noisy_linear.py:FactorizedNoisyLinear._eps", "chainerrl/initializers/constant.py:VarianceScalingConstant.__call__"]}
{"id": "C100", "title": "Downloaded pretrained models are complete, with concurrent processes and crashes at any point", "statement": "For any number of processes calling download_model / download_and_store_model at the same time, killed at any point and with downloads failing at any time: whenever a call returns, the returned path holds every file of the model, complete, and stays so. The cache and the stored archives never hold a partial download. At most one call works at a time, a model that is stored is not fetched again, and there is no deadlock, whoever is killed.", "quantifier": "all numbers of processes and interleavings of their file system operations, all points at which processes are killed or operations raise, all models and archives", "why_tests_cant": "The failures need a crash or a race at a particular moment between two file system operations; tests download once, if at all.", "anchors": ["chainerrl/misc/pretrained_models.py:cached_download", "chainerrl/misc/pretrained_models.py:download_and_store_model"]}
{"id": "C101", "title": "Output directories are new, private to one call, and complete", "statement": "For any number of calls of prepare_output_dir at the same time, while other programs create files: the directory a call returns did not exist before, is returned by no other call, is the one named by the current time in the user's directory (if one is given), and contains the documented files with the call's arguments, environment, command and git state. Nothing that existed is changed or removed. If the user's path is a file or the output directory exists the call raises.", "quantifier": "all interleavings of any number of calls and other programs, all file systems, all arguments, kills at any point", "why_tests_cant": "The race between checking and creating the directory needs two calls at the same microsecond; a test sees a single call.", "anchors": ["chainerrl/experiments/prepare_output_dir.py:prepare_output_dir"]}
{"id": "C102", "title": "Sampled actions follow the distribution's probabilities", "statement": "sample() of a categorical distribution (softmax, mellowmax) returns action i with exactly the probability the distribution gives it, independently for the rows of a batch; an action of probability 0 is never returned, whatever random numbers are drawn. sample() of a Gaussian distribution is normal with the distribution's mean and variance. sample() of a deterministic distribution is its value.", "quantifier": "all probability vectors of any size, all batches, over the law of independent uniform (resp. standard normal) random numbers; the impossibility claim for all random numbers", "why_tests_cant": "A statement about a law; tests compare frequencies of a few thousand samples.", "anchors": ["chainerrl/distribution.py:sample_discrete_actions", "chainerrl/distribution.py:CategoricalDistribution.sample", "chainerrl/distribution.py:GaussianDistribution.sample"]}
{"id": "C103", "title": "The policy losses of REINFORCE, A3C, A2C and PGT have the policy gradient as their expected gradient", "statement": "The gradient that REINFORCE applies after batchsize complete episodes is, on average over the actions it samples and the environment's outcomes, minus the gradient of the expected sum of rewards of an episode, minus beta times the expected sum of the entropy gradients. The gradient of A3C's policy loss for a rollout is on average -pi_loss_coef times (the policy gradient with discounted, bootstrapped returns plus beta times the entropy gradients), that of A2C's minus the mean over steps and processes, with returns cut at episode ends; the value function used as baseline does not bias it. With gamma = 1 the policy gradient is the gradient of the expected return. The gradient of PGT's actor loss is on average the gradient of minus the mean over the minibatch of the expected Q-value plus beta times the entropy.", "quantifier": "all environments with finitely many actions and outcomes whose rollouts are finite (any hidden state and memory), all policies (also recurrent) with positive differentiable probabilities over any parameter space, all value and Q-functions, discounts, coefficients, batch sizes, numbers of processes and rollout lengths", "why_tests_cant": "A statement about an expectation over all rollouts; tests check that training improves on toy environments.", "anchors": ["chainerrl/agents/reinforce.py:REINFORCE.accumulate_grad", "chainerrl/agents/a3c.py:A3C.update", "chainerrl/agents/a2c.py:A2C.update", "chainerrl/agents/pgt.py:PGT.update"]}
{"id": "C104", "title": "The losses of SoftActorCritic and TD3 have the intended optima", "statement": "The expected policy loss of SoftActorCritic over the actions it samples is never below -temperature times the mean log normalising constant, and attains it exactly when in every state of the minibatch the policy is the Boltzmann policy of the smaller of the two Q-values. The learned temperature is always positive, starts at initial_temperature, and a gradient step raises it exactly if the entropy estimated from the sampled actions is below the target and lowers it exactly if above. The Q-function losses have gradient proportional to prediction minus target for each prediction, divided by the minibatch size. TD3's smoothed target actions stay in [-1, 1] and within 1/2 of the target policy's action.", "quantifier": "all minibatches and their sizes, all policies with a density with respect to any measure on actions (continuous, discrete or mixed), all pairs of Q-functions with the integrability the loss needs, all temperatures, targets, noise draws", "why_tests_cant": "The optimum is over all policies and the expectation over all sampled actions; tests run a few minibatches.", "anchors": ["chainerrl/agents/soft_actor_critic.py:SoftActorCritic.update_policy_and_temperature", "chainerrl/agents/soft_actor_critic.py:TemperatureHolder", "chainerrl/agents/soft_actor_critic.py:SoftActorCritic.update_q_func", "chainerrl/agents/td3.py:default_target_policy_smoothing_func", "chainerrl/agents/td3.py:TD3.update_q_func"]}
{"id": "C105", "title": "PGT records the environment's steps and updates on schedule, and evaluation leaves this alone", "statement": "Driven by train_agent with evaluations between episodes, PGT adds to the replay buffer exactly the steps of the environment with the actions it returned, in order, ended by the episodes' ends; evaluations add only empty ends of episodes. A training decision causes n_times_update updates exactly if the buffer has reached replay_start_size and the number of decisions is a multiple of update_interval; each update trains first the critic, then the actor. The target networks are synchronised exactly at the multiples of target_update_interval. The critic's targets are the n-step targets with the target Q-function at an action sampled from the target policy. The statistic average_q is the moving average of the Q-values of all actions, those of evaluations included.", "quantifier": "all histories of episodes and evaluations (for the schedule: all sequences of calls of the four methods), any replay buffer, all settings with positive intervals, all minibatches", "why_tests_cant": "A claim about unboundedly long call histories; the tests train for a few hundred steps and look at the final performance.", "anchors": ["chainerrl/agents/pgt.py:PGT.act_and_train", "chainerrl/agents/pgt.py:PGT.stop_episode_and_train", "chainerrl/agents/pgt.py:PGT.act", "chainerrl/agents/pgt.py:PGT.update"]}
{"id": "C106", "title": "CategoricalDQN trains towards the projected return distribution, with bounded priorities", "statement": "The target of a transition in CategoricalDQN is a probability distribution over the atoms: the projection (C46) of the n-step return bootstrapped from the target network's distribution of an action greedy for the target network (CategoricalDoubleDQN: greedy for the trained network); its mean is the mean of that return moved into the support. The priorities reported are the cross entropies of the transitions, the loss their (weighted) mean or sum. Every priority is between 0 and 10 log 10, whatever the network outputs. Among predictions without probabilities below 1e-10 the target, and only it, minimises the loss, and no prediction gets more than 1e-10 per atom below that minimum.", "quantifier": "all minibatches of n-step entries, all networks whose outputs are distributions (for the bound: any outputs), evenly spaced supports of at least two atoms, all weights", "why_tests_cant": "Claims over all real-valued outputs and targets; the optimum is over all distributions.", "anchors": ["chainerrl/agents/categorical_dqn.py:CategoricalDQN._compute_target_values", "chainerrl/agents/categorical_dqn.py:CategoricalDQN._compute_loss", "chainerrl/agents/categorical_dqn.py:compute_value_loss", "chainerrl/agents/categorical_dqn.py:compute_weighted_value_loss", "chainerrl/agents/categorical_double_dqn.py:CategoricalDoubleDQN._compute_target_values"]}
{"id": "C107", "title": "Seeding determines every generator and run_async waits for and reports on every process; but its processes share one seed", "statement": "After set_random_seed(seed, gpus) the generators of random and numpy, the cupy generators of the devices listed (negative ids ignored) and CHAINER_SEED are determined by the seed alone; seeds outside [0, 2**32) are rejected. run_async starts exactly the processes 0..n-1, all before it waits for the first, returns only when all have exited, and has then warned once, in order, about each process that exited with a non-zero status or by a signal, naming it. Unless it has returned it can go on or waits for a process that is still running. Workers of train_agent_async close each environment they made exactly once; without agent and make_agent the call is rejected. Violated: the processes of run_async, meant to get different seeds, all enter run_func with the same one; and the workers of train_agent_async seed themselves with their index, so that the seed the user set has no influence on them.", "quantifier": "all generators (abstract), all seeds and lists of devices, all numbers of processes, all interleavings of parent and children, all exit codes and moments of exit", "why_tests_cant": "Tests run one interleaving with well-behaved children; that seeds coincide for every state of the generators, and that no child is forgotten in any order of exits, are claims over all of them.", "anchors": ["chainerrl/misc/async_.py:run_async", "chainerrl/misc/random_seed.py:set_random_seed", "chainerrl/experiments/train_agent_async.py:train_agent_async"]}
{"id": "C108", "title": "IQN and DoubleIQN: networks, targets, loss and actions treat every observation and threshold on its own", "statement": "An ImplicitQuantileQFunction with row-wise layers gives, for each observation and each of its quantile thresholds, f(psi(observation) * phi(threshold)), where phi applies its layer to cos(i*pi*threshold), i = 1..n: nothing else in the batch matters, despite the reshaping. The basis functions lie in [-1, 1] and distinguish any two thresholds in [0, 1]. The targets of a transition are its n-step targets (no bootstrap after terminal states), one per threshold drawn, all from the target network's values of one action: greedy, in the mean over the thresholds drawn for that purpose, for the target network (IQN) or the trained network (DoubleIQN). Predictions are the values of the action taken. Priorities are the mean pairwise quantile Huber losses (at the reversed level, C65) and the loss is the number of thresholds times their mean or sum, weighted if there are weights. Actions are greedy in the mean over the thresholds; with act_deterministically, evaluation uses 0, 1/(K-1), ..., 1 and does not depend on random numbers, nor on the reversal of the levels.", "quantifier": "all networks with row-wise layers, all batches of n-step entries, all thresholds drawn, all numbers of thresholds and actions, all weights", "why_tests_cant": "A wrong reshape order mixes thresholds or observations only for some shapes and values; the claims range over all of them.", "anchors": ["chainerrl/agents/iqn.py:cosine_basis_functions", "chainerrl/agents/iqn.py:CosineBasisLinear", "chainerrl/agents/iqn.py:ImplicitQuantileQFunction", "chainerrl/agents/iqn.py:IQN._compute_target_values", "chainerrl/agents/iqn.py:IQN._compute_y_and_taus", "chainerrl/agents/iqn.py:IQN._compute_loss", "chainerrl/agents/iqn.py:IQN._evaluate_model_and_update_recurrent_states", "chainerrl/agents/double_iqn.py:DoubleIQN._compute_target_values"]}
{"id": "C109", "title": "PPO and TRPO learn from on-policy data with the behaviour policy's own probabilities and values", "statement": "Every update of PPO or TRPO uses only transitions whose actions were selected since the update before, whichever of the two interfaces is used. To each transition are added the log probability of its action and the value of its state and next state, from the network that selected the action; for recurrent networks after the states before it in its episode, so they are exactly those the network computed while acting, and the value of a next state is that of the following transition's state. Advantages are the discounted (gamma * lambda) sums of temporal difference errors to the end of the episode, value targets are advantage plus value. The dataset holds every transition once, in order. Until the network or the observation normalizer changes, the log probabilities computed in an update for any minibatch, also of pieces of cut and shuffled sequences of a recurrent network, equal the stored ones, so all ratios are one (the agents do change the normalizer before the first minibatch, and ratios then differ from one). The explained variance reported is not a number exactly if all targets are equal, at most one, one exactly if predictions are off by a constant, and zero for constant predictions.", "quantifier": "all histories of calls of either interface, all numbers of environments, all networks, distributions, episodes, cuts and minibatches", "why_tests_cant": "Updates fall anywhere within episodes, and recurrent states are carried, reset, stored per transition and reused at cut points; the claims range over all histories and cuts.", "anchors": ["chainerrl/agents/ppo.py:_add_log_prob_and_value_to_episodes", "chainerrl/agents/ppo.py:_add_log_prob_and_value_to_episodes_recurrent", "chainerrl/agents/ppo.py:_make_dataset", "chainerrl/agents/ppo.py:_make_dataset_recurrent", "chainerrl/agents/ppo.py:_compute_explained_variance", "chainerrl/agents/ppo.py:PPO.act_and_train", "chainerrl/agents/ppo.py:PPO.batch_observe_and_train", "chainerrl/agents/ppo.py:PPO._update_once_recurrent", "chainerrl/agents/trpo.py:TRPO.act_and_train", "chainerrl/agents/trpo.py:TRPO._update_policy_recurrent"]}
{"id": "C110", "title": "Evaluation during training leaves training alone", "statement": "Evaluating an agent between training calls does not change training, and training does not leak into evaluation. For the agents that keep separate recurrent states for evaluation (DQN and its subclasses, PPO, TRPO), any number of act, batch_act, batch_observe and stop_episode calls put anywhere between training calls leave the training state and everything the training methods return as if they had not been made. During an evaluation by run_evaluation_episodes or batch_run_evaluation_episodes the network's answer at each step depends only on the current parameters and on the observations of that environment's current evaluation episode, starting from the initial recurrent state, and after the evaluation no evaluation episode is running. For DDPG, TD3 and SAC (whose stop_episode also ends the current replay episode of environment 0) and for A3C, ACER, NSQ, PCL and REINFORCE (which evaluate with the recurrent state of the trained model) the same holds for evaluations between training episodes, where train_agent and train_agent_async make them. In batch training with a separate evaluation environment the agent acts next on the observation it has just observed in every unfinished episode. Violated in three ways: an evaluation on a plain environment during batch training of DDPG, TD3 or SAC cuts environment 0's running episode in the replay buffer; an evaluation in the middle of a training episode makes the stateful recurrent agents forget it; and train_agent_batch_with_evaluation without eval_env evaluates on the training environments in the middle of their episodes, so the agent's next observation comes from the evaluation without an episode end having been reported.", "quantifier": "all networks, parameters, training methods, histories of training and evaluation calls, evaluation budgets, episode lengths, numbers of environments and environment outcomes", "why_tests_cant": "a test evaluates at a few moments of a short run with one network; that evaluation never influences training has to hold for every interleaving of calls and every recurrent state", "anchors": ["chainerrl/agents/dqn.py:act,batch_act,batch_observe,stop_episode,_batch_reset_recurrent_states_when_episodes_end", "chainerrl/agents/ppo.py:act,batch_act,batch_observe,stop_episode", "chainerrl/agents/trpo.py:act,batch_act,batch_observe,stop_episode", "chainerrl/agents/ddpg.py:stop_episode", "chainerrl/agents/td3.py:stop_episode", "chainerrl/agents/soft_actor_critic.py:stop_episode", "chainerrl/agents/a3c.py:act,stop_episode", "chainerrl/experiments/evaluator.py:run_evaluation_episodes,batch_run_evaluation_episodes", "chainerrl/experiments/train_agent_batch.py:train_agent_batch_with_evaluation"]}
{"id": "C111", "title": "Asynchronous updates share one model without locks", "statement": "Any number of processes of A3C, NSQ, ACER or PCL update one shared model with RMSpropAsync, without locks and in any interleaving of their in-place array operations. No update is lost: each global parameter is its initial value minus the sum of everything subtracted from it. A process that has finished its updates has subtracted, for each update, exactly once from each parameter that its gradient (computed at its own model) reaches, in order, and from no other. Whatever the interleaving, the shared mean squares stay nonnegative and each subtracted component has the sign of the gradient and at most lr / sqrt(eps) times its size. When a process has synchronised, each parameter of its model is a value that the global parameter had during the synchronisation. An update that is not interrupted has exactly the effect of the update rule on each parameter, makes the process's model equal to the global model and, with ACER, moves the average model towards it by 1 - trust_region_alpha. After load, the next update starts from the saved parameters and optimizer state. Violated for ACER's average model: when two processes synchronise at the same time its weights add up to 1 + (1 - trust_region_alpha)^2 instead of 1, and load does not restore it.", "quantifier": "all numbers of processes and parameters, array contents, gradients (any functions of the local parameters, any set of parameters reached), hyperparameters, and schedules of array operations of any length", "why_tests_cant": "tests of the asynchronous agents run a few processes under whatever schedule the operating system picks; what holds under every interleaving of unlocked operations cannot be observed", "anchors": ["chainerrl/agents/a3c.py:update,sync_parameters,load", "chainerrl/agents/nsq.py:update,sync_parameters,load", "chainerrl/agents/acer.py:update,sync_parameters,load,saved_attributes", "chainerrl/agents/pcl.py:update,sync_parameters,load", "chainerrl/optimizers/rmsprop_async.py:RMSpropAsyncRule.update_core_cpu", "chainerrl/misc/copy_param.py:copy_param,soft_copy_param,copy_grad"]}
{"id": "C112", "title": "Monitor records every episode once, however it ends", "statement": "chainerrl.wrappers.Monitor records the lengths and total rewards of exactly the episodes that had a step, each once and in order, whether they ended with done, were cut by a reset (as ContinuingTimeLimit's needs_reset makes the agents do) or were running when the monitor was closed, and also when the environment raises in step or in reset and the caller tries again; it never refuses a reset after the first one, refuses a step exactly before the first reset and after done, counts every step, and writes nothing after close. Violated in three corners: the recorded episode types have an entry for every reset, so that after two resets in a row they no longer correspond to the lengths; if the environment's first reset raises, every later reset raises TypeError; and a step made after a reset that raised is accepted, and the finished episode is recorded a second time with that step added.", "quantifier": "all histories of reset, step and close calls of any length, all rewards and done flags, and all exceptions of the environment", "why_tests_cant": "a test plays a few episodes with one way of ending; episodes end in several ways in any order, and the environment can fail at any call", "anchors": ["chainerrl/wrappers/monitor.py:Monitor,_StatsRecorder"]}
{"id": "C113", "title": "The life of a vector environment: seeding, failing environments, interrupts and close", "statement": "Whatever the order in which parent and workers run: MultiprocessVectorEnv.seed with nothing, one number or one number per environment gives every environment its own seed once and returns the answers in order; anything else is refused before anything is sent; step with an action per environment and reset with any mask return if no environment raises, with the replies in order and all pipes empty again. close returns from every state of workers and pipes - also after an environment has raised or a call was interrupted - and then every worker has exited and every environment has been closed exactly once; after that every call is refused. SerialVectorEnv.seed with a list of the right length gives the same seeds. Violated: if an environment raises, its worker exits but the parent is never told and the call never returns (the parent keeps the worker's end of the pipe open); step with too few actions never returns; after an interrupted call the next call returns the old replies; SerialVectorEnv.seed refuses what MultiprocessVectorEnv.seed accepts and silently accepts lists of the wrong length; SerialVectorEnv.spec is the observation space.", "quantifier": "all numbers of environments, environments (any function of state and request, which may raise), seeds, actions and masks, states of workers and pipes, and schedules", "why_tests_cant": "tests run one schedule with environments that never raise and close an idle vector environment; hangs are what a test cannot show", "anchors": ["chainerrl/envs/multiprocess_vector_env.py:worker,MultiprocessVectorEnv.seed,MultiprocessVectorEnv.step,MultiprocessVectorEnv.reset,MultiprocessVectorEnv.close,MultiprocessVectorEnv.spec,MultiprocessVectorEnv._assert_not_closed", "chainerrl/envs/serial_vector_env.py:SerialVectorEnv.seed,SerialVectorEnv.__init__"]}
{"id": "C114", "title": "The deprecated SumTree is a map with proportional sampling", "statement": "chainerrl.misc.prioritized.SumTree (deprecated) behaves, after any sequence of assignments and deletions with indices of any sign in any order, as a map from integers to numbers: reading an index gives what was last assigned (0 if nothing or deleted), or raises for an index outside the allocated range, which contains every index ever assigned; the tree's total is the sum of all values; prioritized_choice picks the index in whose piece of [0, total) the random number falls, so in proportion to the values, and returns its share; prioritized_sample(n) with at least n positive values draws n distinct indices, each in proportion to what is left, and afterwards all values are as before, or 0 for the drawn ones with remove=True. Violated: prioritized_sample without remove erases values when n exceeds the number of positive values.", "quantifier": "all sequences of assignments and deletions, integer indices, nonnegative real values, sample sizes and random numbers", "why_tests_cant": "the tests use a few small index ranges; the tree grows to both sides by doubling and its bookkeeping must be right for every order of insertions", "anchors": ["chainerrl/misc/prioritized.py:SumTree"]}
{"id": "C115", "title": "Target networks follow the online network only through synchronisation, and are evaluated in test mode", "statement": "In DQN and its subclasses, DDPG, PGT, TD3 and SAC the parameters of the target network are at every moment determined by those the online network had at the synchronisations: with hard updates those at the last one, with soft updates their exponential average (weights tau(1-tau)^j, adding up to 1 with that of the initial value), so they never leave the range of these values. The target value of a transition depends on this transition and the target network only, not on what else is in the minibatch, and computing it does not change the target network, whose batch normalisation statistics are likewise averages of the synchronised ones. The last sentence holds for TD3 and SAC, and for the others with networks that do the same in both modes; it is violated by DQN, DDPG and PGT with batch normalisation, because the __call__ that should switch their target networks to test mode is assigned to the object, where Python does not look for it.", "quantifier": "all histories of updates and synchronisations, networks with a test mode, minibatches, values of tau", "why_tests_cant": "tests compare parameters right after one synchronisation, with networks that have no batch normalisation; averages and statistics depend on the whole history", "anchors": ["chainerrl/agents/dqn.py:DQN.sync_target_network", "chainerrl/agents/ddpg.py:disable_train", "chainerrl/agents/pgt.py:PGT", "chainerrl/agents/td3.py:TD3.sync_target_network", "chainerrl/agents/soft_actor_critic.py:SoftActorCritic.sync_target_network", "chainerrl/misc/copy_param.py:synchronize_parameters"]}
{"id": "C116", "title": "A3C in the average reward setting", "statement": "A3C with use_average_reward=True regresses on differential returns: the return of each step is the discounted sum of all later rewards of the rollout, each minus the estimated reward per step at that step, plus the discounted value of the last state. The estimate moves by average_reward_tau times the sum of the advantages; adding a constant to all rewards changes no advantage; values that satisfy the differential Bellman equation for the estimate have advantage 0 and leave it unchanged; it is an exponential average of rewards when values are level, and approaches a constant reward. Without the option the estimate has no influence. Violated: the estimate is not saved with the agent, so a loaded agent computes other returns.", "quantifier": "all rollouts, rewards, values, discount factors, averaging rates and histories of updates", "why_tests_cant": "the option is not tested; its estimate depends on the whole history", "anchors": ["chainerrl/agents/a3c.py:A3C.update"]}
{"id": "C117", "title": "Reported statistics are averages of what their names say", "statement": "get_statistics() of every agent reports, after any history of calls, for each average_* the exponential average of the quantity with that name with the configured decay (weights (1-d)d^j, starting from 0 without correction, within the range of the values and 0, approaching a constant value), or, for PPO, TRPO, TD3 and SAC, the mean of its last values, as many as the window, and nan if and only if there is none. Violated: A2C's average_value is the average of the value function's losses.", "quantifier": "all agents, histories of computed quantities, decays and windows", "why_tests_cant": "tests only look at the names of statistics; the averages depend on the whole history", "anchors": ["chainerrl/agents/a2c.py:A2C.update", "chainerrl/agents/dqn.py:DQN.get_statistics", "chainerrl/agents/ppo.py:_mean_or_nan", "chainerrl/agents/td3.py:TD3.get_statistics", "chainerrl/agents/soft_actor_critic.py:SoftActorCritic.get_statistics", "chainerrl/agents/trpo.py:TRPO.get_statistics"]}
{"id": "C118", "title": "Snapshots on disk at every crash point", "statement": "Wherever a run of train_agent is killed, every <t>_checkpoint, <t>_except and <t>_finish snapshot whose saving had finished can be loaded and gives exactly the saved agent, because no two snapshots of a run share a directory. A crash inside the saving of such a snapshot is noticed: loading it raises. After a crash inside a save, the files before the interrupted one are new, that one is unreadable and the later ones are as before. Violated: best is overwritten in place, so a crash while a better agent is saved can leave no loadable best agent although one had been saved, or one that loads without error as a mixture of two agents.", "quantifier": "all runs of train_agent (configurations, environments, exceptions, evaluations), saved attributes, agent states and crash points", "why_tests_cant": "a test cannot kill the process at every point of every save of every run", "anchors": ["chainerrl/experiments/evaluator.py:save_agent", "chainerrl/experiments/evaluator.py:Evaluator.evaluate_and_update_max_score", "chainerrl/experiments/train_agent.py:train_agent", "chainerrl/agent.py:AttributeSavingMixin.save", "chainerrl/agent.py:AttributeSavingMixin.load"]}
{"id": "C119", "title": "What an output directory holds after several runs", "statement": "At every moment of a run, scores.txt consists of the header and one line for each evaluation of this run, in order, and best holds the agent as it was at the first evaluation that attained the greatest mean of this run. A run continued with step_offset evaluates at exactly the calls at which the uninterrupted run would have, if the interval in which it was interrupted had been evaluated. Violated: continuing in the same directory erases the lines of the earlier runs; the first evaluation after continuing replaces best, however good the agent there was; an evaluation that was due when training was interrupted is left out.", "quantifier": "all configurations, numbers of runs in one directory, sequences of evaluation calls, outcomes and states of the agent", "why_tests_cant": "a test covers one history of runs; the claim is about every history and every moment in it", "anchors": ["chainerrl/experiments/evaluator.py:Evaluator", "chainerrl/experiments/evaluator.py:record_stats", "chainerrl/experiments/evaluator.py:save_agent", "chainerrl/experiments/train_agent.py:train_agent_with_evaluation"]}
{"id": "C120", "title": "GPU code computes what the CPU code computes", "statement": "ChainerRL's own GPU code computes the same as its CPU code: lower triangular matrices and their gradients for every batch size and dimension, sums and weighted sums of contiguous arrays, multiply-add and its gradients, and the parameters and state of the asynchronous RMSprop after every sequence of gradients. Violated: the GPU sum of arrays reads memory without regard to strides, so for arrays that are not contiguous, such as a transposed matrix, it gives other elements.", "quantifier": "all batch sizes, dimensions, array contents, array layouts, hyperparameters and gradient sequences", "why_tests_cant": "tests need a GPU and compare a few shapes with contiguous data", "anchors": ["chainerrl/functions/lower_triangular_matrix.py:LowerTriangularMatrix.forward", "chainerrl/functions/lower_triangular_matrix.py:LowerTriangularMatrix.backward", "chainerrl/functions/sum_arrays.py:SumArrays.forward_gpu", "chainerrl/functions/weighted_sum_arrays.py:WeightedSumArrays.forward_gpu", "chainerrl/functions/mul_add.py:MulAdd.forward_gpu", "chainerrl/optimizers/rmsprop_async.py:RMSpropAsyncRule.update_core_gpu"]}
{"id": "C121", "title": "A training run as a whole: the replay buffer holds exactly what happened in the environment", "statement": "At every moment of every run of train_agent with a DQN agent (or a subclass that inherits its training methods), also a run that an exception ends, the agent's own bookkeeping never raises and its replay buffer holds exactly the n-step entries of the environment steps the agent has been told of, in order, or the newest ones when the buffer is full. Whenever the agent is asked for an action it stores the last step first, then synchronises the target network if the number of steps so far, counted from step_offset, is a multiple of target_update_interval, and then updates, with this step number, from a buffer that contains everything that has happened so far. A run that ends normally without early success leaves one entry for each of its steps - step_offset steps.", "quantifier": "all configurations of train_agent, environments, exceptions, chosen actions, parameters after each update, capacities, num_steps, recurrent or not, and all moments of the run", "why_tests_cant": "it is a claim about every interleaving of three components over unbounded runs, with every point of failure", "anchors": ["chainerrl/experiments/train_agent.py:train_agent", "chainerrl/agents/dqn.py:DQN.act_and_train", "chainerrl/agents/dqn.py:DQN.stop_episode_and_train", "chainerrl/replay_buffers/replay_buffer.py:ReplayBuffer.append", "chainerrl/replay_buffers/replay_buffer.py:ReplayBuffer.stop_current_episode"]}
{"id": "C122", "title": "A vectorised training run as a whole: the replay buffer holds exactly what happened in each environment", "statement": "At every moment of every run of train_agent_batch with a DQN agent, also a run that an exception ends, the agent's own bookkeeping never raises and its replay buffer holds, for each environment, exactly the n-step entries of this environment's steps that the agent has been told of, in order (the environments interleaved), or the newest ones when the buffer is full. The agent makes one update per step and environment, numbered step_offset+1, step_offset+2, ... without gaps, and synchronises its target network exactly at the multiples of target_update_interval among them. A run that ends normally has told the agent about every step; for an environment whose last episode is not over the entries shorter than num_steps are not in the buffer.", "quantifier": "all configurations of train_agent_batch with at least one environment, all behaviours of vector environments and agents that answer with num_envs values, exceptions, parameters after each update, capacities, num_steps, and all moments of the run", "why_tests_cant": "it is a claim about every interleaving of three components and any number of environments over unbounded runs, with every point of failure", "anchors": ["chainerrl/experiments/train_agent_batch.py:train_agent_batch", "chainerrl/agents/dqn.py:DQN.batch_act_and_train", "chainerrl/agents/dqn.py:DQN.batch_observe_and_train", "chainerrl/replay_buffers/replay_buffer.py:ReplayBuffer.append", "chainerrl/replay_buffers/replay_buffer.py:ReplayBuffer.stop_current_episode"]}
{"id": "C123", "title": "A training run tells DDPG, TD3, SAC, PPO, TRPO and REINFORCE exactly what happened", "statement": "At every moment of every run of train_agent, with any agent, the calls that the agent has got are whole episodes followed by the decisions of an unfinished one, and read from their arguments the steps are exactly the environment's steps told so far, in order; the reward given with the first observation of an episode is 0. Therefore: the replay buffer of DDPG, TD3 and SoftActorCritic holds exactly the n-step entries of these steps, or the newest ones; the datasets of PPO's (TRPO's) updates, its memory and the transitions being recorded together are exactly these steps, no fragment spanning two episodes, each update has exactly update_interval transitions and there have been floor(steps / update_interval) of them; REINFORCE has made one update for each batchsize episodes that ended in a terminal state, with the mean of their losses. None of these agents raises by itself in a training run.", "quantifier": "all configurations of train_agent, all behaviours of environments and agents, exceptions at any point, actions, capacities, num_steps, update intervals, batch sizes, and all moments of the run", "why_tests_cant": "it is a claim about the interplay of training loop, agent and buffer over unbounded runs with every point of failure", "anchors": ["chainerrl/experiments/train_agent.py:train_agent", "chainerrl/agents/ddpg.py:DDPG.act_and_train", "chainerrl/agents/td3.py:TD3.act_and_train", "chainerrl/agents/soft_actor_critic.py:SoftActorCritic.act_and_train", "chainerrl/agents/ppo.py:PPO.act_and_train", "chainerrl/agents/trpo.py:TRPO.act_and_train", "chainerrl/agents/reinforce.py:REINFORCE.act_and_train", "chainerrl/replay_buffers/replay_buffer.py:ReplayBuffer.append"]}
{"id": "C124", "title": "A vectorised training run tells DDPG, TD3, SAC, PPO, TRPO and A2C exactly what happened", "statement": "At every moment of every run of train_agent_batch, with any agent, the calls that the agent has got are whole rounds, each with one decision and its outcome for every environment, followed perhaps by decisions whose outcome is not known yet; and what they say about an environment is exactly what has happened in it, episode by episode, as far as the agent has been told. Therefore: the replay buffer of DDPG, TD3 and SoftActorCritic holds, in some interleaving of the environments, exactly the n-step entries of these steps, or the newest ones; for each environment the datasets of PPO's (TRPO's) updates, its memory and the transitions being recorded together are exactly these steps, no fragment spanning two episodes, each update has at least update_interval and fewer than update_interval + num_envs transitions and fewer than update_interval steps are waiting; A2C has made one update after each update_steps rounds, with the return targets of exactly the steps of these rounds. None of these agents raises by itself in a training run, whatever step_offset is.", "quantifier": "all configurations of train_agent_batch, all numbers and behaviours of environments and agents, exceptions at any point, actions, capacities, num_steps, update intervals, and all moments of the run", "why_tests_cant": "it is a claim about the interplay of training loop, agent and buffer over unbounded runs of any number of environments with every point of failure", "anchors": ["chainerrl/experiments/train_agent_batch.py:train_agent_batch", "chainerrl/agents/ddpg.py:DDPG.batch_observe_and_train", "chainerrl/agents/td3.py:TD3.batch_observe_and_train", "chainerrl/agents/soft_actor_critic.py:SoftActorCritic.batch_observe_and_train", "chainerrl/agents/ppo.py:PPO.batch_observe_and_train", "chainerrl/agents/trpo.py:TRPO.batch_observe_and_train", "chainerrl/agents/a2c.py:A2C.batch_observe_and_train", "chainerrl/replay_buffers/replay_buffer.py:ReplayBuffer.append"]}
{"id": "C125", "title": "An asynchronous training run tells A3C, NSQ, ACER and PCL exactly what happened", "statement": "In every asynchronous training run (train_agent_async), under every schedule of the processes, at every moment and in every process, the calls that the agent of the process has got are whole episodes followed by the decisions of an unfinished one, and what they say is exactly what has happened in the environment of this process up to the last call: at most the latest step is missing. Therefore: the updates of A3C and NSQ are exactly those of n-step returns over these episodes, each cut into rollouts of t_max steps, and in the unfinished episode all full rollouts followed by a decision; ACER (with or without a replay buffer) and PCL (with one) have updated with exactly the rollouts of these episodes, recorded exactly their transitions and replayed at the right times. None of these agents raises by itself.", "quantifier": "all configurations of train_agent_async, numbers of processes, schedules, behaviours of environments and of shared networks, evaluations, exceptions in any process at any point, t_max, discount factors, replay buffers, and all moments of the run", "why_tests_cant": "it is a claim about the interplay of training loop and agent over all interleavings of unbounded runs", "anchors": ["chainerrl/experiments/train_agent_async.py:train_loop", "chainerrl/experiments/train_agent_async.py:train_agent_async", "chainerrl/agents/a3c.py:A3C.act_and_train", "chainerrl/agents/nsq.py:NSQ.act_and_train", "chainerrl/agents/acer.py:ACER.act_and_train", "chainerrl/agents/pcl.py:PCL.act_and_train"]}
{"id": "C126", "title": "PCL's replay update of a recurrent model treats every episode alone", "statement": "With a recurrent model, for every batch of sampled episodes of any lengths, PCL's replay update raises no exception, and its loss is the weighted sum (longest episode first) of the path consistency losses of the episodes, each with the values and log probabilities of the model after a reset and exactly the observations of this episode up to the time in question. Neither the other episodes of the batch nor what the model had seen before the update play a role, and after the update the memory of the model is what it was before.", "quantifier": "all recurrent models, non-empty batches of non-empty episodes of any lengths, weights, discount factors, rollout lengths and memories of the model", "why_tests_cant": "the shrinking batch and the reuse of the model's last outputs must keep rows and memories in step for every combination of lengths", "anchors": ["chainerrl/agents/pcl.py:PCL.update_from_replay", "chainerrl/agents/pcl.py:PCL.compute_loss", "chainerrl/recurrent.py:state_reset"]}
{"id": "C127", "title": "Choosing actions leaves networks with batch normalisation alone", "statement": "With the networks with batch normalisation (MLPBN, FCBNSAQFunction, FCBNLateActionSAQFunction, FCBNDeterministicPolicy) and any other network that is a function of rows in test mode, choosing actions does not change the network (its running averages), and what the network says about an observation does not depend on the other observations of the batch. In training mode a batch of one row is refused; a batch of more is normalised to mean beta and variance gamma squared (up to eps), nothing but the running averages changes, and these are exponential averages of the means and unbiased variances of the batches.", "quantifier": "all agents, networks with batch normalisation of any depth and with any parameters, batches of any size and modes of the program", "why_tests_cant": "it is a claim about all networks, batches and histories of batches; a test sees one network", "anchors": ["chainerrl/links/mlp_bn.py:MLPBN.__call__", "chainerrl/q_functions/state_action_q_functions.py:FCBNLateActionSAQFunction.__call__", "chainerrl/policies/deterministic_policy.py:FCBNDeterministicPolicy", "chainerrl/agents/a3c.py:A3C.act", "chainerrl/agents/ddpg.py:DDPG.act", "chainerrl/agents/dqn.py:DQN.act"]}
{"id": "C128", "title": "Loading from a file with other entries", "statement": "When an agent is loaded, each saved link or optimizer gets from its file exactly the entries that both have; entries that the file lacks stay as they were and those that the object lacks are ignored; loading a readable file never raises, there is a warning exactly when an entry of the object is missing in the file, and a file written by an object with all entries of the loading object restores them all.", "quantifier": "all objects and files, with any sets of entries and any values, and unreadable files", "why_tests_cant": "the first, strict pass stops in the middle at the first missing entry, wherever it is; the result must be the same for every combination of entries", "anchors": ["chainerrl/agent.py:load_npz_no_strict", "chainerrl/agent.py:AttributeSavingMixin.load"]}
{"id": "C129", "title": "Stochastic dueling networks: ACER's action values and state values agree on average", "statement": "With ACERSDNSeparateModel (and the shared one), for every policy, state value and advantage network: the value of an action is on average over the drawn samples the state's value plus the action's advantage over the policy's mean advantage; averaged over the policy's actions it is the state's value; its noise has the variance of the advantage under the policy divided by n; a constant added to the advantage network changes nothing; the difference of two actions' values is on average the difference of their advantages. With n = 0 it raises. With ACERSeparateModel the state's value is the mean of the action values under the policy.", "quantifier": "all action spaces, policies (probability measures), integrable advantage functions, state values, actions and numbers of samples", "why_tests_cant": "it is a statement about expectations over continuous distributions", "anchors": ["chainerrl/agents/acer.py:ACERSDNSeparateModel.__call__", "chainerrl/agents/acer.py:ACERSeparateModel.__call__", "chainerrl/action_value.py:SingleActionValue"]}
{"id": "C130", "title": "Wrappers that render, scale, cast, clip, seed or delegate change only what they say", "statement": "For every environment and every history of calls: Render makes the user's calls in their order and one render call after each reset and step, and if rendering does not change the environment the results are those without it; when rendering raises, the step has been made and its result is lost. make_rendered renders after each step, not after reset, and before close. ScaleReward multiplies each reward (original_reward is the latest unscaled one), two of them multiply their factors; CastObservation converts each observation (original_observation is the latest one), make_reward_clipped replaces a reward by the nearest number of the interval; nothing else changes. RandomizeAction.seed makes everything afterwards reproducible and returns None. Through any number of VectorEnvWrappers a public attribute is the outermost one's that has it, a private one is never looked up further in, and the spaces are those at construction. Closing an environment after make_rendered closes it: false when its render does not accept close=True, then it is never closed.", "quantifier": "all environments (state machines whose calls may raise), states, histories of calls, render arguments, factors, bounds, conversions, random generators, numbers of wrappers and attribute names", "why_tests_cant": "it is about arbitrary environments and histories, including ones whose calls raise", "anchors": ["chainerrl/wrappers/render.py:Render", "chainerrl/wrappers/scale_reward.py:ScaleReward", "chainerrl/wrappers/cast_observation.py:CastObservation", "chainerrl/wrappers/randomize_action.py:RandomizeAction.seed", "chainerrl/wrappers/vector_frame_stack.py:VectorEnvWrapper", "chainerrl/misc/env_modifiers.py:make_rendered", "chainerrl/misc/env_modifiers.py:make_reward_clipped"]}
{"id": "C131", "title": "Which images the convolutional heads accept and which pixels they read", "statement": "NatureDQNHead and DuelingDQN accept an image exactly if it has the configured number of channels and 84 to 91 rows and columns (or one of two degenerate shapes, 36-43 by 420-427 and the transposed), NIPSDQNHead likewise with 84 to 91 (or four degenerate shapes); every other size raises, whatever the parameters. Of an image of 84 to 91 rows and columns they read the first 84 rows and columns: the features and action values are those of the cropped image. NatureDQNHead and NIPSDQNHead return as many features as they were built with, each of them a value of the activation.", "quantifier": "all heights, widths, numbers of channels and outputs, pixels, parameters (in any commutative semiring) and activations", "why_tests_cant": "image sizes are unbounded, and that pixels are ignored is a statement about all images and parameters", "anchors": ["chainerrl/links/dqn_head.py:NatureDQNHead", "chainerrl/links/dqn_head.py:NIPSDQNHead", "chainerrl/q_functions/dueling_dqn.py:DuelingDQN"]}
{"id": "C132", "title": "A whole training run of a DQN with prioritized replay never fails and keeps entries, priorities and weights consistent", "statement": "At every moment of every run of train_agent with a DQN and a PrioritizedReplayBuffer (capacity not 0, eps > 0 so that clipped errors give positive priorities, minibatch_size at most replay_start_size, 0 <= beta0 <= 1): no call raises by itself; the buffer holds exactly the n-step entries of the environment steps the agent has been told of, or the newest ones, each with one positive priority not above the greatest one seen; each update below replay_start_size or between intervals does nothing and otherwise makes n_times_update batches of minibatch_size entries at distinct positions; the weights are those of priority / sum, positive and, if normalised, at most 1; each sampled entry gets the priority (clip(error) + eps) ** alpha of its own error and every other entry keeps its own; beta is annealed once per batch. With eps = 0 one zero error ends the run with an AssertionError.", "quantifier": "all environments, numbers of steps, episode limits, actions, capacities, n-step lengths, schedules, random variates, TD errors, moments of the run (also runs that an exception of the environment or a hook ends)", "why_tests_cant": "the entries, priorities and weights depend on the whole history of episodes, evictions, random draws and errors", "anchors": ["chainerrl/experiments/train_agent.py:train_agent", "chainerrl/agents/dqn.py:DQN.update", "chainerrl/replay_buffer.py:ReplayUpdater.update_if_necessary", "chainerrl/replay_buffers/prioritized.py:PrioritizedReplayBuffer", "chainerrl/misc/prioritized.py:PrioritizedBuffer"]}
{"id": "C133", "title": "A training run continued from a snapshot with step_offset goes on exactly as the run that was not interrupted", "statement": "Take any run of train_agent and any environment reset inside it after which the run goes on, after k steps. A new run with step_offset advanced by k, in an environment that answers from there on as before, makes exactly the calls of the first run after that reset (same observations, actions, rewards, step numbers, results, hooks, checkpoints, ending); only the episode count given to the evaluator starts anew. For DQN this is exact: a new agent that loads the snapshot and a replay buffer that loads the saved memory do exactly what the first agent did (transitions, updates, target synchronisations) and end in the same state with the same replay buffer. This fails for A3C, NSQ, ACER, PCL and A2C, which never make another update when their step counter is set to T > 0 (KeyError, AssertionError or AttributeError at the first update); for the average network of ACER, which is not in the snapshot, so that the trust region starts from the initial random network; for PrioritizedReplayBuffer, whose annealed exponent beta is not saved and starts from beta0 again; and for train_agent_async, whose step_offset changes nothing about training (steps are numbered from 1 again) but suppresses the evaluations of the first T steps.", "quantifier": "all environments, actions, episode lengths, limits, hooks, exceptions, results of gradient steps, resets inside the run, offsets; all call sequences for the agents that fail; all schedules for train_agent_async", "why_tests_cant": "the state at the snapshot depends on the whole history before it, and a lost attribute shows only in some later call", "anchors": ["chainerrl/experiments/train_agent.py:train_agent", "chainerrl/experiments/train_agent_batch.py:train_agent_batch", "chainerrl/experiments/train_agent_async.py:train_agent_async", "chainerrl/agent.py:AttributeSavingMixin", "chainerrl/agents/dqn.py:DQN", "chainerrl/agents/a3c.py:A3C", "chainerrl/agents/nsq.py:NSQ", "chainerrl/agents/acer.py:ACER", "chainerrl/agents/pcl.py:PCL", "chainerrl/agents/a2c.py:A2C"]}
{"id": "C134", "title": "The soft operators of DPP and DPPL are bounded by the maximum and approach that of DPPGreedy", "statement": "For eta > 0 and every non-empty row of action preferences, the operator of DPP (the expectation under the softmax of eta times the preferences) is at most the maximum and at least the maximum minus log(n)/eta, and the operator of DPPL (log of the summed exponentials over eta) is at least the maximum and at most the maximum plus log(n)/eta. Both approach the operator of DPPGreedy as eta grows. The targets that DPP and DPPL compute for an n-step entry of any batch differ from those of DPPGreedy by at most (1 + gamma^n) log|A| / eta.", "quantifier": "all rows of real preferences, numbers of actions, eta > 0, discount factors, batches, n-step entries", "why_tests_cant": "bounds on exponentials and logarithms over all real vectors, which rounding and single examples cannot settle", "anchors": ["chainerrl/agents/dpp.py:DPP._l_operator", "chainerrl/agents/dpp.py:DPPL._l_operator", "chainerrl/agents/dpp.py:DPPGreedy._l_operator", "chainerrl/agents/dpp.py:AbstractDPP._compute_target_values", "chainerrl/action_value.py:DiscreteActionValue.compute_expectation"]}
{"id": "C135", "title": "A Q-function that meets its own targets holds the optimal values", "statement": "In any Markov decision process with any states, finitely many outcomes per action, and stochastic rewards and ends of episodes: if a bounded table of action values equals, for every state and action, the expected target that the agent computes from the table for the batch of the one transition, then its greedy values are the optimal ones: within any number n of steps, no policy (also randomised and history dependent) gets an expected discounted return above max Q + gamma^n B, and the greedy policy gets at least max Q - gamma^n B. This holds for the targets of DQN, of Double DQN with synchronised networks, of AL with alpha < 1, where moreover the gaps between actions are those of the optimal values divided by 1 - alpha, and of PAL with 0 <= alpha < 1. The targets of DQN contract: two target networks at most delta apart give targets at most gamma^n delta apart for an n-step entry, and equal ones when the entry contains a terminal transition. Hence if each table fits the targets computed with the table before, the distance to a table that meets its own targets shrinks by gamma each time, and acting greedily by a table eps away from it loses at most 2 eps in each step (discounted). A bounded table that meets the targets of SARSA on average holds the values of the policy of the explorer.", "quantifier": "all Markov decision processes with finitely many outcomes per state and action, discount factors, tables, horizons, policies, batches for the contraction", "why_tests_cant": "optimality compares with every policy over every horizon", "anchors": ["chainerrl/agents/dqn.py:DQN._compute_target_values", "chainerrl/agents/double_dqn.py:DoubleDQN._compute_target_values", "chainerrl/agents/al.py:AL._compute_y_and_t", "chainerrl/agents/pal.py:PAL._compute_y_and_t", "chainerrl/replay_buffer.py:batch_experiences"]}
{"id": "C136", "title": "PCL's loss vanishes exactly at the optimum with an entropy bonus", "statement": "In any deterministic environment: if the loss that PCL computes vanishes for every single transition (with tau > 0, coefficients of the losses not negative and not both zero, any rollout length), for bounded values and a policy with positive probabilities, then the values are the best possible expected discounted returns with the bonus -tau log pi(a|s) per step: within any number n of steps, no policy (also history dependent) gets more than V + gamma^n B, and the learnt policy gets at least V - gamma^n B. Moreover V(s) = tau log sum_a exp((r + gamma V(s'))/tau) and pi(a|s) = exp((r + gamma V(s') - V(s))/tau). Conversely, at values and a policy of this form the loss is zero for every episode of the environment, of any length, for every rollout length.", "quantifier": "all deterministic environments with finitely many actions, states, rewards, discount factors, temperatures, coefficients, rollout lengths, horizons, policies, episodes", "why_tests_cant": "optimality compares with every policy over every horizon", "anchors": ["chainerrl/agents/pcl.py:PCL.compute_loss", "chainerrl/agents/pcl.py:PCL.update_from_replay"]}
{"id": "C137", "title": "ACER's Retrace targets evaluate the current policy from the data of any other policy", "statement": "In any Markov decision process with finitely many outcomes per action, for segments of experience of any length generated by any behaviour policy (also history dependent): computed from the true values of the current policy, the expected regression target of ACER is the true value, for any trace coefficients, and so is the target without cutting (use_Q_opc). Computed from values delta away from the true ones, the expected target is at most gamma*delta away, with the trace coefficients min(1, rho) of discrete policies. For gamma < 1, values that meet their own expected targets are therefore the true values of the current policy.", "quantifier": "all processes, current policies, behaviour policies, action values, segment lengths, histories, discount factors; all trace coefficients for the fixed point", "why_tests_cant": "expectations over all trajectories of every behaviour policy", "anchors": ["chainerrl/agents/acer.py:ACER.compute_loss", "chainerrl/agents/acer.py:compute_importance", "chainerrl/agents/acer.py:ACER.update_from_replay"]}
{"id": "C138", "title": "The targets of A3C, A2C, PPO and TRPO evaluate the current policy", "statement": "In any Markov decision process with finitely many outcomes per action, for paths of any length of the current policy, cut by the end of the episode or bootstrapped at the end of the rollout: with value predictions delta away from the true values of the policy, the expected return target of a step of A3C and of A2C without GAE, followed by up to n more steps, is at most gamma^(n+1) delta away from the true value of its action, whatever A2C's rollout contains after the end of the episode; the expected value target of PPO and TRPO for any lambda in [0,1], and of A2C with GAE, is at most gamma delta away. With true predictions the expected target is the true action value and the expected advantage of PPO and TRPO is the true advantage. For gamma < 1, predictions that meet their own targets on average are the true values.", "quantifier": "all processes, policies, value predictions, path lengths, discount factors, lambdas, continuations of the rollout", "why_tests_cant": "expectations over all trajectories of every process and policy", "anchors": ["chainerrl/agents/ppo.py:_add_advantage_and_value_target_to_episode", "chainerrl/agents/a3c.py:A3C.update", "chainerrl/agents/a2c.py:A2C._compute_returns", "chainerrl/agents/trpo.py:TRPO"]}
{"id": "C139", "title": "Critics of DDPG, TD3 and SoftActorCritic that meet their targets hold the values of the policy", "statement": "In any Markov decision process with actions of any kind and finitely many outcomes per action, for any policy that samples finitely many actions: two bounded critics of SoftActorCritic that both meet, on average over outcomes and sampled actions, the targets computed from them are equal, and are within gamma^n B of the expected n-step return of the policy with the bonus -temperature * log prob for each later action; for TD3 the same holds without bonus for the policy with the smoothing noise of the targets; a critic of DDPG that meets its one-step targets holds the returns of the deterministic policy. Critics fitted to the targets of two SoftActorCritic critics that are delta away from the values of the policy are gamma delta away.", "quantifier": "all processes, policies, critics, discount factors, temperatures, horizons", "why_tests_cant": "expectations over all outcomes of every process and policy, and the limit over all horizons", "anchors": ["chainerrl/agents/ddpg.py:DDPG.compute_critic_loss", "chainerrl/agents/td3.py:TD3.update_q_func", "chainerrl/agents/soft_actor_critic.py:SoftActorCritic.update_q_func"]}
{"id": "C140", "title": "Multi-step Q-learning targets of DQN and NSQ: optimal for greedy data, never above the optimal values otherwise", "statement": "In any Markov decision process with finitely many outcomes per action and discount factor below 1, for a table of action values that meets, on average over the paths of a behaviour policy, the targets computed from it for multi-step replay entries (DQN) or rollouts (NSQ) of any lengths: if the behaviour policy takes only actions that are greedy for the table, the table holds the optimal values and its greedy policy is optimal. For every other behaviour policy the table never exceeds the optimal action values and is never below the values of the behaviour policy; but it need not be optimal: with a uniformly random behaviour policy and two-step entries there is a table that meets its targets and says half of the optimal return.", "quantifier": "all processes, behaviour policies, tables, entry lengths (per state and action), discount factors below 1", "why_tests_cant": "expectations over all paths of every process and behaviour policy", "anchors": ["chainerrl/replay_buffer.py:batch_experiences", "chainerrl/agents/dqn.py:DQN._compute_target_values", "chainerrl/agents/nsq.py:NSQ.update"]}
{"id": "C141", "title": "Continuing a run: DDPG, TD3 and SoftActorCritic are exact with a saved replay buffer; PPO, TRPO and REINFORCE lose collected data", "statement": "Take any training run of train_agent and any reset inside it, after k steps, at which the agent is saved. A new agent of the same kind that loads the snapshot and is trained with step_offset advanced by k, in an environment that answers from there on as it did in the first run, (a) for DDPG, TD3 and SoftActorCritic with a replay buffer that loads the saved one makes exactly the calls, updates and synchronisations of the first agent from there on and ends in the same state with the same buffer; (b) for PPO and TRPO makes floor(m / interval) updates for m further steps, where the uninterrupted agent has made floor((k + m) / interval) in all and floor(k / interval) until the reset: the k mod interval transitions collected since the last update are lost, and if there are none, the continuation makes exactly the same updates; (c) for REINFORCE forgets the complete episodes since the last update in the same way.", "quantifier": "all training runs, resets inside them, environments, hyperparameters, candidate actions, buffer capacities", "why_tests_cant": "two histories of arbitrary length are compared at every possible stopping point", "anchors": ["chainerrl/experiments/train_agent.py:train_agent", "chainerrl/agents/ddpg.py:DDPG", "chainerrl/agents/td3.py:TD3", "chainerrl/agents/soft_actor_critic.py:SoftActorCritic", "chainerrl/agents/ppo.py:PPO", "chainerrl/agents/trpo.py:TRPO", "chainerrl/agents/reinforce.py:REINFORCE", "chainerrl/agent.py:AttributeSavingMixin"]}
{"id": "C142", "title": "Prioritized sampling in floating-point arithmetic", "statement": "With priorities that are Python floats and every sum, difference and product rounded to the nearest float: (a) the sum and min queues behind the prioritized buffer return and show after every history exactly what a plain list does, bit for bit, and the minimum is exact; (b) the reported total differs from the exact one only by the rounding of h additions, where 2^h is at most four times the largest number of elements ever held; (c) drawing n elements without replacement from a queue with at least n positive priorities returns n different elements with positive priorities and raises nothing.", "quantifier": "all histories of append, popleft and index assignment, all floats, all variates numpy can produce, all batch sizes", "why_tests_cant": "the failures of (c) need priorities whose sums round in a particular way and a variate next to 1: no practical number of random tests meets them, and (a), (b) are about histories of every length", "anchors": ["chainerrl/misc/prioritized.py:SumTreeQueue", "chainerrl/misc/prioritized.py:MinTreeQueue", "chainerrl/misc/prioritized.py:_find", "chainerrl/misc/prioritized.py:_reduce", "chainerrl/misc/prioritized.py:PrioritizedBuffer"]}
{"id": "C143", "title": "The double-backprop check of TRPO", "statement": "Before it differentiates the KL divergence twice, TRPO raises RuntimeError if and only if an old-style function took part in computing it, for every policy network; the check takes a number of steps that is bounded by the size of the computation, so that it also finishes for recurrent policies on sequences of every length.", "quantifier": "all computational graphs, all depths of the interpreter stack, all sequence lengths", "why_tests_cant": "tests use small networks and sequences of a few steps, for which the number of walks through the graph is small; the cost grows as a power of two of the sequence length", "anchors": ["chainerrl/agents/trpo.py:_find_old_style_function", "chainerrl/agents/trpo.py:TRPO._compute_kl_constrained_step"]}
{"id": "C144", "title": "The policy update of TRPO makes progress", "statement": "For softmax and Gaussian policies whose outputs are twice continuously differentiable at the current parameters: the Fisher-vector product that TRPO gives to the conjugate gradient method is linear, symmetric and positive semidefinite; half of its quadratic form is the second-order approximation of the mean KL divergence from the current policy, and for the step it is below max_kl; when the gradient of the gain does not vanish, an update with enough backtracking steps accepts new parameters, different from the old ones, with a gain that is not lower and a mean KL divergence of at most max_kl.", "quantifier": "all networks, feed-forward or recurrent, all datasets, all parameter vectors and shapes, all positive damping and max_kl", "why_tests_cant": "positive semidefiniteness and Taylor expansions are statements about all directions and limits; a test evaluates one network at one point in floating point", "anchors": ["chainerrl/agents/trpo.py:_hessian_vector_product", "chainerrl/agents/trpo.py:TRPO._compute_kl_constrained_step", "chainerrl/agents/trpo.py:TRPO._update_policy", "chainerrl/agents/trpo.py:TRPO._update_policy_recurrent", "chainerrl/agents/trpo.py:TRPO._line_search", "chainerrl/agents/trpo.py:_get_ordered_params", "chainerrl/agents/trpo.py:_flatten_and_concat_variables"]}
{"id": "C145", "title": "Iterating the targets of AL and PAL", "statement": "For alpha in [0, 1) and gamma in [0, 1), in every process with bounded expected rewards, fitting the targets of AL or PAL again and again makes the best value of every state converge to the optimal one, from every initial table; the gap between the best action and any other does not shrink below the optimal one in the limit (for AL it converges to the optimal gap divided by 1 - alpha), and from some iteration on the greedy action of each state is an optimal one. For alpha = 1 the values need not converge.", "quantifier": "all Markov decision processes with finitely many actions and bounded expected rewards, all initial tables, all alpha in [0, 1), all gamma in [0, 1)", "why_tests_cant": "convergence is a statement about an infinite sequence of iterations; the test of the agent trains for a few thousand steps on one small environment", "anchors": ["chainerrl/agents/al.py:AL._compute_y_and_t", "chainerrl/agents/pal.py:PAL._compute_y_and_t"]}
{"id": "C146", "title": "Iterating the targets of DPP, DPPL and DPPGreedy", "statement": "For gamma in [0, 1), in every process with bounded expected rewards, fitting the targets of DPP, DPPL (for every eta > 0) or DPPGreedy again and again gives, after k iterations from any bounded initial table, action values that are minus k times what the action loses against the optimal one, up to a constant that does not depend on k, the state or the action. So the greedy action loses at most a constant divided by k in each step and a constant divided by k (1 - gamma) of the best possible return, an action that loses at least delta is not greedy after a number of iterations that depends on delta only, and the softmax policy chooses it with a probability that decreases exponentially in k. The values themselves do not converge: those of other actions decrease without bound.", "quantifier": "all Markov decision processes with finitely many actions and bounded expected rewards, any number of states, all bounded initial tables, all numbers of iterations, all eta > 0, all gamma in [0, 1)", "why_tests_cant": "the claim is about every number of iterations and every process; the test of the agent trains for a few thousand steps on one small environment and asserts a return", "anchors": ["chainerrl/agents/dpp.py:AbstractDPP._compute_y_and_t", "chainerrl/agents/dpp.py:AbstractDPP._compute_target_values", "chainerrl/agents/dpp.py:DPP._l_operator", "chainerrl/agents/dpp.py:DPPL._l_operator", "chainerrl/agents/dpp.py:DPPGreedy._l_operator"]}
{"id": "C147", "title": "Ready-made recurrent networks, softmax policies and value functions", "statement": "For all weights of the constructed shapes, FCLSTMStateQFunction, FCLSTMSAQFunction and FCLSTMDeterministicPolicy accept every sequence of inputs of the configured sizes after a reset and give one output of the configured size for each. Each output stays within the sum of the absolute weights of the last layer around its bias, whatever has been fed and for however long; actions of the bounded policy are strictly inside the bounds at every step. A call is one step on the state of its row, where a reset stands for a state of zeros. FCSoftmaxPolicy gives for every input a distribution over the actions whose probabilities are positive, at least min_prob and sum to one, and raises AssertionError exactly when min_prob times the number of actions exceeds one. FCVFunction gives one value per input.", "quantifier": "all weights, all numbers of layers and units, all sequences of inputs of the configured sizes, of any length, all size-preserving nonlinearities, all action bounds, all beta and min_prob", "why_tests_cant": "the tests feed one random batch to one random network of each kind and check shapes", "anchors": ["chainerrl/q_functions/state_q_functions.py:FCLSTMStateQFunction", "chainerrl/q_functions/state_action_q_functions.py:FCLSTMSAQFunction", "chainerrl/policies/deterministic_policy.py:FCLSTMDeterministicPolicy", "chainerrl/policies/softmax_policy.py:FCSoftmaxPolicy", "chainerrl/v_functions/v_functions.py:FCVFunction"]}
{"id": "C148", "title": "Iterating the targets of CategoricalDQN and CategoricalDoubleDQN", "statement": "For gamma in [0, 1), in every process with finitely many actions and any states, let each network fit the distributional targets computed with the one before, starting from any distributions (CategoricalDoubleDQN: with synchronised networks). Fitting, the mixture of the targets of what may follow, is always possible and is what the loss is smallest for. If rewards plus discounted atoms exceed the range of the atoms by at most eps, the expected action values are after k iterations within gamma^k C + eps / (1 - gamma) of the optimal ones. If they do not exceed it, in every state the greedy action is optimal from some iteration on; and if moreover the optimal actions are unique by a margin, the distributions converge, and are in the end within dz / (2 (1 - gamma)) of the distributions of the discounted returns of the optimal policy in Wasserstein distance, where dz is the distance between atoms.", "quantifier": "all Markov decision processes with finitely many actions and finitely many outcomes per action, any number of states, all initial distributions, all numbers of iterations, all evenly spaced atoms, all gamma in [0, 1), all functions f that change by at most their argument (Wasserstein distance)", "why_tests_cant": "the claim is about every number of iterations, every process and every set of atoms; the tests train for a few thousand steps on one small environment", "anchors": ["chainerrl/agents/categorical_dqn.py:CategoricalDQN._compute_target_values", "chainerrl/agents/categorical_dqn.py:CategoricalDQN._compute_loss", "chainerrl/agents/categorical_dqn.py:_apply_categorical_projection", "chainerrl/agents/categorical_double_dqn.py:CategoricalDoubleDQN._compute_target_values"]}
{"id": "C149", "title": "Alternating critics and actors of DDPG, TD3 and SoftActorCritic", "statement": "For gamma in [0, 1), in processes with any states and actions: for a fixed policy with bounded expected rewards and bonuses, critics of SoftActorCritic fitted again and again to the targets of target critics that are updated softly (0 <= tau <= 1) approach the values of the policy by the factor 1 - tau (1 - gamma) per round, from all bounded initial target critics. When the critics meet their targets, a policy whose actor loss is in no state above that of the policy the critics belong to has at least its values for every state and action (SoftActorCritic with the entropy bonus, DDPG, TD3 without target policy smoothing). If each policy in turn has, in every state, a loss no larger than its predecessor and a competitor, the values after k rounds are at most gamma^k 2 B below those of the competitor: alternating exact critics and actors reaches the best policy.", "quantifier": "all processes with any states and actions and finitely many outcomes per action, all policies that sample finitely many actions, all bounded critics, all numbers of rounds, all tau, temperature and gamma in [0, 1)", "why_tests_cant": "the claims are about every process and every number of rounds; the tests train one small network for a few thousand steps", "anchors": ["chainerrl/agents/soft_actor_critic.py:SoftActorCritic.update_q_func", "chainerrl/agents/soft_actor_critic.py:SoftActorCritic.update_policy_and_temperature", "chainerrl/agents/soft_actor_critic.py:SoftActorCritic.sync_target_network", "chainerrl/agents/td3.py:TD3.update_policy", "chainerrl/agents/ddpg.py:DDPG.compute_actor_loss", "chainerrl/misc/copy_param.py:soft_copy_param"]}
{"id": "C150", "title": "Batches of distributions: queries, slices and copies", "statement": "A batch of distributions answers every query row by row as the single distribution of that row would (probabilities, log probabilities, entropy, KL divergence, most probable vector), whatever was asked before. distrib[i:j] is the batch of the rows i to j-1 with the same beta, min_prob and omega, and every entry of an answer for a batch is the answer of the slice of that row alone. copy() gives a batch with the same answers, which stay the same whatever is written later into the memory of the original, and the divergence between a distribution and its copy is zero in every row; a slice shares the memory of the original and follows it. SquashedGaussianDistribution has no entropy and no divergence, and ContinuousDeterministicDistribution only its point.", "quantifier": "all batch sizes and widths, all parameter arrays, slices, query histories and later in-place writes", "why_tests_cant": "aliasing and caching show only in particular orders of slicing, copying, asking and writing; the tests only compare the identity of the arrays", "anchors": ["chainerrl/distribution.py:SoftmaxDistribution", "chainerrl/distribution.py:MellowmaxDistribution", "chainerrl/distribution.py:GaussianDistribution", "chainerrl/distribution.py:SquashedGaussianDistribution", "chainerrl/distribution.py:ContinuousDeterministicDistribution"]}
{"id": "C151", "title": "Policy updates of PPO and TRPO that improve their objectives improve the policy", "statement": "With true value predictions, gamma in [0, 1) and policies that give every action a positive probability: the expected gain of TRPO for a transition from a state is the expected advantage of the new policy in that state, for paths of any length and any lambda; the expected clipped objective of PPO is no larger; both are 0 for an unchanged policy. A new policy whose expected objective (either of them) is negative in no state has at least the values of the old policy in every state, and one whose expected gain is positive in no state has no larger values. If the divergence that TRPO constrains is at most delta in every state and advantages are bounded by eps, the values of the new policy are those of the old one plus the discounted gains over the states that the old policy visits, up to 4 gamma eps delta / (1 - gamma)^2.", "quantifier": "all Markov decision processes with any states and finitely many actions and outcomes, all pairs of policies, path lengths, lambda in [0, 1], gamma in [0, 1), clipping parameters and KL bounds", "why_tests_cant": "the claim relates the objective that is computed from old data to the return of the new policy in every process; a test sees one noisy learning curve", "anchors": ["chainerrl/agents/trpo.py:TRPO._compute_gain", "chainerrl/agents/trpo.py:TRPO._line_search", "chainerrl/agents/ppo.py:PPO._lossfun", "chainerrl/agents/ppo.py:_add_advantage_and_value_target_to_episode"]}
{"id": "C152", "title": "DQN on a table learns the optimal values whatever is replayed", "statement": "Let the network of DQN be a table of action values, trained by gradient descent on the loss of DQN (clipped or not, weighted or not, sum or mean) with any sequence of minibatches of recorded steps such that no minibatch gives an entry more than its whole weight, and let the target network be moved towards the network by any factors between 0 and 1. If rewards are at most R and R + gamma B is at most B, values that start in [-B, B] never leave it, in any process. In a deterministic process with finitely many states, if every action of every state keeps getting some weight and the target network keeps being renewed, the values converge to those of an optimal table and from some update on every greedy action is optimal. For the mean over minibatches of bounded size, a learning rate in (0, 1] and weights in [m, 1] it is enough that every action of every state is replayed infinitely often and the target network is copied infinitely often. Such trainings exist for all sequences of minibatches.", "quantifier": "all Markov decision processes (deterministic and finite for convergence), first tables, sequences of minibatches in any order and with any repetitions, importance weights, learning rates, schedules of hard and soft target updates, gamma in [0, 1)", "why_tests_cant": "the claim is about all infinite sequences of minibatches and the limit; a test sees one finite run and one replay order", "anchors": ["chainerrl/agents/dqn.py:DQN.update", "chainerrl/agents/dqn.py:DQN._compute_loss", "chainerrl/agents/dqn.py:DQN._compute_target_values", "chainerrl/agents/dqn.py:DQN.sync_target_network", "chainerrl/misc/copy_param.py:soft_copy_param"]}
{"id": "C153", "title": "init_like_torch gives every linear and convolutional layer fresh weights of the documented size", "statement": "After init_like_torch(link) every weight and bias of every L.Linear and L.Convolution2D at or below the link lies in [-1/sqrt(n), 1/sqrt(n)), where n is the number of inputs of a unit; the entries, scaled by sqrt(n), are 2u - 1 for consecutive random numbers u, each used once; shapes, missing biases and the parameters of all other links stay. For uniform random numbers an entry has mean 0 and variance 1/(3n). An initialised linear layer maps an input to outputs of at most its Euclidean norm plus 1/sqrt(n).", "quantifier": "all networks (trees of links of any depth with layers of any sizes), sequences of random numbers and inputs", "why_tests_cant": "must hold for every architecture, every nesting and every random state; tests check one layer and one seed", "anchors": ["chainerrl/misc/init_like_torch.py:init_like_torch"]}
{"id": "C154", "title": "Asking before a replay buffer is saved, collecting variables, branched links", "statement": "ask_yes_no returns the meaning of the first line that is y, ye, yes, n or no in any case, asks once per line up to it, leaves later lines unread, and raises EOFError exactly if there is no such line. ask_and_save_agent_replay_buffer writes the replay buffer to <t><suffix>.replay.pkl exactly if the agent has one and the answer is yes, changes no other file, and does not ask about agents without a replay buffer. The prompt ends with [y/N], so the empty line should mean no. collect_variables returns the variables of nested lists in order. Branched returns the outputs of all children for the same arguments in order, or raises what the first failing child raises.", "quantifier": "all sequences of typed lines, files, step numbers and suffixes, nested lists of any depth, numbers of children and behaviours of children", "why_tests_cant": "the inputs are unbounded sequences and trees; the tests cover ask_yes_no not at all", "anchors": ["chainerrl/misc/ask_yes_no.py:ask_yes_no", "chainerrl/experiments/train_agent.py:ask_and_save_agent_replay_buffer", "chainerrl/experiments/train_agent.py:save_agent_replay_buffer", "chainerrl/misc/draw_computational_graph.py:collect_variables", "chainerrl/links/branched.py:Branched"]}
{"id": "C155", "title": "With random outcomes, learning rates that decrease and enough exploration, the DQN update on a table learns the optimal values almost surely", "statement": "Let the network be a table, the optimizer plain gradient descent, and let each update use the step that just happened with the unclipped loss (mean or sum) of DQN. States, actions and learning rates may depend on the past in any way and outcomes follow the process. If the squares of the learning rates have a bounded sum and the target network keeps moving, then almost surely: if the learning rates used for each state and action have an infinite sum, the values converge to the optimal values and from some update on all greedy actions are optimal. The condition holds almost surely if every state and action is used among each n updates with probability at least p > 0, whatever happened before, and the learning rates decrease and have an infinite sum. The probability condition holds for an agent that walks through the process, episode after episode, and gives every action a positive probability in each step, for example with epsilon-greedy actions for the table being learned, if each state can be reached from each other. Such random runs exist for all ways of choosing states, actions and rates.", "quantifier": "all finite decision processes, discounts below 1, first tables, ways of choosing states, actions and learning rates that depend on the past, schedules of the target network, for almost all histories", "why_tests_cant": "a limit along infinitely many random updates; runs of any length show only a finite part of one history", "anchors": ["chainerrl/agents/dqn.py:DQN._compute_loss", "chainerrl/agents/dqn.py:DQN.update", "chainerrl/agents/dqn.py:compute_value_loss", "chainerrl/agents/dqn.py:DQN.sync_target_network", "chainerrl/misc/copy_param.py:soft_copy_param"]}
{"id": "C156", "title": "What a table learns from a replay buffer whose contents stay", "statement": "Let the network be a table, the optimizer plain gradient descent, and let every update of DQN use all steps of one fixed buffer, in any order. With the unclipped loss the values converge to the optimal values of the process that the buffer shows, in which the outcomes of a state and an action have the probabilities with which they occur in the buffer, and from some update on the greedy actions are optimal in it. The clipped loss, which is the default, does the same as long as rewards and values stay below 1/2. In general it does not: with rewards 0, 0 and 30 for one action and 1 for another it learns 1/2 and 1, and prefers the action that is worth a tenth of the other.", "quantifier": "all finite sets of states, buffers that contain every action of every state, discounts below 1, first tables, learning rates, mean or sum, schedules of the target network that keep moving it", "why_tests_cant": "a limit along infinitely many updates, for every buffer", "anchors": ["chainerrl/agents/dqn.py:DQN._compute_loss", "chainerrl/agents/dqn.py:DQN.update", "chainerrl/agents/dqn.py:compute_value_loss", "chainerrl/agents/dqn.py:DQN.sync_target_network"]}
{"id": "C157", "title": "ResidualDQN comes to rest only at the optimum, if there is no chance in the environment", "statement": "Let the network be a table. What ResidualDQN backpropagates to an entry is grad_scale times the derivative of its loss plus 1 - grad_scale times the derivative of the loss of a DQN whose target network is a copy. In environments without chance and for batches that contain every action of every state, the loss is zero, and the gradients vanish, exactly for tables that hold the best possible returns; for grad_scale of size below 1 / gamma, clipped or not, mean or sum, with all positive weights, also where several actions are best. With chance this fails: the true values are neither a resting point nor a minimum of the loss.", "quantifier": "all finite processes without chance, tables, batches that cover them, positive weights, discounts, values of grad_scale; for the failure all discounts and positive values of grad_scale", "why_tests_cant": "resting points among all tables cannot be enumerated", "anchors": ["chainerrl/agents/residual_dqn.py:ResidualDQN._compute_target_values", "chainerrl/agents/residual_dqn.py:ResidualDQN._compute_y_and_t", "chainerrl/functions/scale_grad.py:ScaleGrad", "chainerrl/agents/dqn.py:DQN._compute_loss"]}
{"id": "C158", "title": "Iterating the targets of Double DQN", "statement": "Between two copies to the target network, the network of Double DQN is trained towards targets that depend on the network itself. If it is trained until it meets its targets, then copied to the target network, and so on, the values converge to the optimal values: the distance after k rounds is at most gamma^k times a constant. But the training between two copies need not have an end: there are processes and target networks for which no table meets the targets. For DQN such a table always exists.", "quantifier": "all processes, with chance or not, bounded tables, discounts below 1, numbers of rounds; for the failure all positive discounts", "why_tests_cant": "a limit over rounds, for all processes; tables that meet the targets cannot be enumerated", "anchors": ["chainerrl/agents/double_dqn.py:DoubleDQN._compute_target_values", "chainerrl/agents/dqn.py:DQN.sync_target_network"]}
{"id": "C159", "title": "What the importance weights of prioritized replay make up for", "statement": "When a prioritized replay buffer is sampled one entry at a time, with or without a uniform part, the importance weights with beta 1 make up exactly for the uneven draws: on average over the draw the weighted quantity is the plain mean over everything stored (for normalize_by_max memory, this mean times one factor between 0 and 1). For other beta an entry with probability P counts (N P)^(1 - beta) times as much as in the plain mean. With normalize_by_max batch and one entry nothing is made up for. For minibatches of several entries, which are drawn without replacement, the weighted mean should be the plain mean on average too.", "quantifier": "all histories of a prioritized buffer, all stored priorities, all quantities, all values of beta, the average over the random draw", "why_tests_cant": "an average over a continuous random variate, for all buffers; with a sampled mean one cannot tell a small bias from noise", "anchors": ["chainerrl/replay_buffers/prioritized.py:PriorityWeightError.weights_from_probabilities", "chainerrl/misc/prioritized.py:PrioritizedBuffer.sample", "chainerrl/agents/dqn.py:compute_weighted_value_loss"]}
{"id": "C160", "title": "What SARSA with an epsilon-greedy explorer learns", "statement": "SARSA learns the action values of its own behaviour: with an explorer that is epsilon-greedy with constant epsilon and uniformly random actions, exactly one bounded table meets the targets on average, it holds the values of the epsilon-greedy behaviour for this table, and no policy that explores at least as much gets a higher expected return. Training to the targets and copying to the target network, repeated, approaches this table at the rate gamma. It is in general not the table that DQN learns: near an edge SARSA keeps away.", "quantifier": "all processes with bounded expected rewards, with chance or not, all epsilon in [0,1], discounts below 1, numbers of rounds, policies with memory", "why_tests_cant": "limits over rounds and comparison with all policies, for all processes", "anchors": ["chainerrl/agents/sarsa.py:SARSA._compute_target_values", "chainerrl/explorers/epsilon_greedy.py:select_action_epsilon_greedily", "chainerrl/agents/dqn.py:DQN.sync_target_network"]}
{"id": "C161", "title": "Seeds of the environments in the example scripts", "statement": "From --seed and the number of environments every training script in examples/ gives each environment its own seed: within a run no two training environments and no two test environments share a seed, no training environment shares one with a test environment, runs with different --seed share none, and all seeds are in the documented range. Held exactly when the range of test seeds does not meet that of the training seeds: always with one environment or a power of two of them, and for seeds in the lower half of the range; violated with three environments for one accepted seed of every script with several environments, and by mujoco/train_trpo_gym.py, whose test seed with the default --seed 0 is outside the range.", "quantifier": "all scripts with a seed, all values of --seed, all numbers of environments", "why_tests_cant": "a statement about all pairs of seeds of all runs; the collisions are at particular seeds that a test will not try", "anchors": ["examples/gym/train_a3c_gym.py:make_env", "examples/atari/train_nsq_ale.py:make_env", "examples/mujoco/train_trpo_gym.py:make_env", "examples/atari/train_dqn_ale.py:make_env", "chainerrl/misc/random_seed.py:set_random_seed"]}
{"id": "C162", "title": "The environment of the grasping example", "statement": "Through every history of calls, including calls that raise, the wrapped environment of the grasping example shows the image with the colour axis first and the number of steps that returned since the last reset; it refuses steps beyond the maximum and nothing else; every number shown has an embedding in the Q-function; observations lie in the space exactly when those below do; actions reach the environment cast, and one that cannot be cast does not reach it; videos are numbered 0, 1, 2, ... by the resets that return.", "quantifier": "all environments below (stateful, raising), all histories of reset and step, all maxima, all permutations of axes and shapes", "why_tests_cant": "histories are unbounded and may contain exceptions at any point", "anchors": ["examples/grasping/train_dqn_batch_grasping.py:CastAction", "examples/grasping/train_dqn_batch_grasping.py:TransposeObservation", "examples/grasping/train_dqn_batch_grasping.py:ObserveElapsedSteps", "examples/grasping/train_dqn_batch_grasping.py:RecordMovie", "examples/grasping/train_dqn_batch_grasping.py:GraspingQFunction"]}
{"id": "C163", "title": "How far beta is annealed in a training run with prioritized replay", "statement": "At every moment of every run of train_agent with a DQN and a prioritized replay buffer, the number of batches made is n_times_update times the number of decisions at a multiple of update_interval that came after at least replay_start_size steps (with num_steps > 1 the start is delayed by at most num_steps - 1 steps), and beta is beta0 plus one increment per batch, at most 1. With the betasteps of the gym scripts a complete run ends with beta = 1, and beta is below 1 until the last two update intervals. With the betasteps of the Atari scripts, whose comment promises annealing to 1 throughout training, beta never becomes 1: the part of 1 - beta0 that remains is at least (replay_start_size - update_interval + 1) / steps and at most (replay_start_size + num_steps + update_interval - 2) / steps.", "quantifier": "all environments, actions, random variates, TD errors, lengths of training, sizes, intervals, offsets, numbers of steps of the returns", "why_tests_cant": "the number of batches depends on the whole run; the shortfall of beta shows only after millions of steps", "anchors": ["examples/gym/train_dqn_gym.py:main", "examples/gym/train_categorical_dqn_gym.py:main", "examples/atari/train_dqn_ale.py:main", "examples/atari/train_double_iqn.py:main", "examples/atari/reproduction/rainbow/train_rainbow.py:main", "chainerrl/replay_buffers/prioritized.py:PriorityWeightError", "chainerrl/replay_buffer.py:ReplayUpdater.update_if_necessary"]}
{"id": "C164", "title": "The value set by a decay hook through a whole training run", "statement": "With a LinearInterpolationHook among the step hooks, the attribute it sets is on the straight line from start_value at step 1 to stop_value at step total_steps at every point of every run at which the agent acts or learns: in train_agent it has the value of the current step number, in train_agent_batch the value of the number of steps complete before the iteration, in train_agent_async the value of the global number of the last step of the same process. Before the first step of the run (of the process) it has the value it was created with. With total_steps equal to steps and a decreasing line, every action is chosen with a value strictly above stop_value, the value never increases, and a complete run ends with stop_value, so the learning from the last episode at the last step uses stop_value. The clipping parameter set through max(value, 1e-8) is always positive.", "quantifier": "all environments, agents, hooks and positions among the hooks, exceptions at any call, numbers of environments and processes, schedules of the processes, offsets", "why_tests_cant": "the value at a decision depends on the order of hooks, actions and ends of episodes over the whole run and, with several processes, on the schedule", "anchors": ["chainerrl/experiments/hooks.py:LinearInterpolationHook", "chainerrl/experiments/train_agent.py:train_agent", "chainerrl/experiments/train_agent_batch.py:train_agent_batch", "chainerrl/experiments/train_agent_async.py:train_loop", "examples/mujoco/train_ppo_gym.py:main", "examples/mujoco/train_ppo_batch_gym.py:main", "examples/atari/train_ppo_ale.py:main", "examples/atari/train_a3c_ale.py:main", "examples/atari/train_nsq_ale.py:main", "examples/atari/train_acer_ale.py:main", "examples/atari/reproduction/a3c/train_a3c.py:main"]}
{"id": "C165", "title": "SARSA with an epsilon-greedy explorer learns the values of its own behaviour, almost surely", "statement": "A table that is trained by gradient descent on the loss of SARSA, unclipped, on each step as it happens, with the next actions that an epsilon-greedy explorer selects for the target network at the time of the update, converges almost surely to the one table that meets the expected targets for the final epsilon: the values of the epsilon-greedy behaviour for that table, which no policy that explores as much exceeds. The greedy actions become greedy for this table. States and actions may be chosen in any way from the past, as long as the learning rates at the visits of each pair have an infinite sum (and squares a finite one), the target network may be copied or moved softly, and epsilon may change during a prefix of any length. An agent that walks through a process in which each state can be reached, with the actions of the same kind of explorer, meets all of this.", "quantifier": "all finite decision processes with random rewards and transitions, discounts below 1, initial tables, learning rates, target update schedules, epsilon schedules that become constant, ways of choosing states and actions; almost all outcomes of the random numbers", "why_tests_cant": "it is a statement about the limit of an infinite random run; a test sees a finite run with one seed", "anchors": ["chainerrl/agents/sarsa.py:SARSA._compute_target_values", "chainerrl/agents/dqn.py:DQN.update", "chainerrl/agents/dqn.py:DQN._compute_loss", "chainerrl/explorers/epsilon_greedy.py:select_action_epsilon_greedily", "chainerrl/explorers/epsilon_greedy.py:LinearDecayEpsilonGreedy", "chainerrl/misc/copy_param.py:soft_copy_param"]}
{"id": "C166", "title": "A training run with train_agent tells PGT, A3C, NSQ, ACER and PCL exactly what happened; but a positive step_offset breaks the on-policy ones", "statement": "At every moment of a run of train_agent, also one that an exception ends: PGT has returned the actions of the run, and its replay buffer holds exactly the n-step entries of the steps of the environment that it has been told of, or the newest ones. A3C and NSQ, from step 0, have cut each finished episode into rollouts of t_max steps and updated with the n-step return of every step; of the unfinished episode the full rollouts have been used. ACER and PCL, from step 0, have made the on-policy updates, buffer entries and replays that belong to the episodes of the environment. None of these agents raises by itself. Wanted, and not true: the same for a run that starts at a positive step_offset. There A3C, NSQ, ACER and PCL never make an update: the first one, at the latest at the end of the first episode, raises a KeyError (an AssertionError in PCL), because train_agent sets t and not t_start.", "quantifier": "all environments, actions, network outputs, lengths of training and of episodes, step offsets, t_max, capacities, step counts of entries, replay buffers, exceptions at any call, and every prefix of the run", "why_tests_cant": "the claim is about all call sequences of the training loop; the agents are tested from step 0 in short runs on one environment", "anchors": ["chainerrl/experiments/train_agent.py:train_agent", "chainerrl/agents/pgt.py:PGT.act_and_train", "chainerrl/agents/a3c.py:A3C.act_and_train", "chainerrl/agents/a3c.py:A3C.update", "chainerrl/agents/nsq.py:NSQ.act_and_train", "chainerrl/agents/acer.py:ACER.act_and_train", "chainerrl/agents/pcl.py:PCL.act_and_train", "examples/gym/train_pcl_gym.py"]}
{"id": "C167", "title": "Which values IQN learns", "statement": "When IQN is trained until its network minimises the expected loss at every quantile threshold, the average of its values over the thresholds is the expected return, and repeating this with the trained network as target network leads to the optimal values and to optimal choices. This holds in environments without chance: values never stay too high, errors shrink geometrically once they are smaller than half the gap between actions or when the discount factor is below 1/3, and from any start if the thresholds by which the next action is chosen are fixed within an iteration. It is violated when rewards are random: with the Huber threshold 1 the minimisers are not quantiles, the average for a lottery that pays 1 with probability 1/4 is (3/4) log 3 - 1/2 instead of 1/4, and the trained agent prefers it to a sure 3/10.", "quantifier": "every environment without chance, discount factor, start network and thresholds drawn; every distribution of the targets; for the violation every trained network and almost every sequence of uniform thresholds", "why_tests_cant": "The minimiser of an expected loss and the limit of repeated training are not reached by any test; a test with random rewards cannot tell the bias from sampling noise.", "anchors": ["chainerrl/agents/iqn.py: compute_eltwise_huber_quantile_loss, IQN._compute_target_values, IQN._compute_loss", "chainerrl/action_value.py: QuantileDiscreteActionValue"]}
{"id": "C168", "title": "Where agents with a softmax policy come to rest", "statement": "For REINFORCE, A3C and A2C with a softmax policy that has logits of its own for every state the agent can tell apart, the expected update vanishes exactly if in every state that is visited the probabilities are the Boltzmann distribution of the policy's own action values, averaged over the visits, with the temperature beta (A2C: entropy_coeff / pi_loss_coef); without an entropy bonus exactly if all actions of a visited state have the same value. If the state tells all that matters for the action values, such a policy loses at most n beta log |A| against any policy in rollouts of at most n steps. It is violated that an agent at rest maximises the expected return plus the entropy bonus: it does not value the bonus it will get later. It is also violated that it is near-optimal among policies of the same form if the state hides something.", "quantifier": "every finite environment with chance, every map from histories to states, every table of logits, every configuration and number of environments, every policy to compare with", "why_tests_cant": "A test sees single noisy updates; that the mean of all possible updates is zero, and only there, is a statement about all rollouts and all tables of logits.", "anchors": ["chainerrl/agents/reinforce.py: REINFORCE.batch_update", "chainerrl/agents/a3c.py: A3C.update", "chainerrl/agents/a2c.py: A2C.update", "chainerrl/distribution.py: SoftmaxDistribution"]}
{"id": "C169", "title": "Step limits in a whole training run: which ones are learned as ends of the game", "statement": "Whether episodes are limited to n steps by max_episode_len of train_agent, by ContinuingTimeLimit or by make_timestep_limited, no episode of a run is longer than n steps, and in an environment that never ends an episode by itself every episode followed by another has exactly n steps. With max_episode_len or ContinuingTimeLimit the replay buffer of a DQN holds, at every moment of the run, exactly what happened in the environment inside, with its own terminal flags; so in an endless environment no stored transition is terminal and every target bootstraps. This is violated for make_timestep_limited: the n-th step of each episode is stored as terminal, and in a game of one state with reward 1 in every step DQN on a table, trained with the whole buffer, learns 1 / (1 - gamma (1 - 1/n)) instead of the value 1 / (1 - gamma).", "quantifier": "every environment, limit, configuration and outcome of a training run (including exceptions), every moment of it, every capacity and number of steps per entry of the buffer; for the violation every limit, number of episodes, discount factor, learning rate and schedule of target updates", "why_tests_cant": "A test runs one environment for a few episodes; that the wrapper, the training loop, the agent and the buffer together never mark a cut as an end, whatever the environment and the length of the run, and what is learned in the limit otherwise, quantifies over all runs.", "anchors": ["chainerrl/experiments/train_agent.py: train_agent", "chainerrl/wrappers/continuing_time_limit.py: ContinuingTimeLimit", "chainerrl/misc/env_modifiers.py: make_timestep_limited", "chainerrl/agents/dqn.py: DQN.act_and_train, DQN.stop_episode_and_train", "chainerrl/replay_buffers/replay_buffer.py: ReplayBuffer"]}
{"id": "C170", "title": "Step limits in a vectorised training run: each environment is cut on its own, and which cuts are learned as ends of the game", "statement": "In train_agent_batch, whether the episodes of an environment are limited to n steps by max_episode_len, by ContinuingTimeLimit or by make_timestep_limited, no episode of it is longer than n steps whatever the other environments do, and if it never ends an episode by itself every episode of it followed by another has exactly n steps. With max_episode_len or ContinuingTimeLimit its entries in the replay buffer of a DQN are, at every moment of the run, exactly what happened in the environment inside the wrapper, with its own terminal flags; so with endless environments no stored transition is terminal. This is violated for make_timestep_limited: the n-th step of each episode is stored as terminal although the environment did not end.", "quantifier": "every number of environments, every environment among them and behaviour of the others, limit, configuration and outcome of a vectorised training run (including exceptions), every moment of it, every capacity and number of steps per entry of the buffer", "why_tests_cant": "A test runs two or three environments for a few episodes; that the episode counters, reset masks, wrappers, agent and buffer of the environments never mix, for every pattern of resets, quantifies over all runs.", "anchors": ["chainerrl/experiments/train_agent_batch.py: train_agent_batch", "chainerrl/wrappers/continuing_time_limit.py: ContinuingTimeLimit", "chainerrl/misc/env_modifiers.py: make_timestep_limited", "chainerrl/agents/dqn.py: DQN.batch_act_and_train, DQN.batch_observe_and_train", "chainerrl/replay_buffers/replay_buffer.py: ReplayBuffer"]}
{"id": "C171", "title": "What max_kl of TRPO and clip_eps of PPO limit when observations are normalized", "statement": "An update of TRPO that accepts a step moves the policy that acts by at most max_kl, in the mean divergence over the observations it was made from, if there is no normalizer of observations or it no longer learns; under the same condition no transition is clipped in the first minibatch of PPO, where the objective of each transition has the slope of its advantage. The normalizer holds the mean and variance of the states of all transitions learned from, each counted once (in whole updates until its limit). With a normalizer that still learns the bound holds only if the old policy is also looked at through the statistics learned in this update. As a claim about the policy that acted it is violated: for every max_kl and every bound there are parameters and two episodes from which an accepted update moves the policy further than the bound on the very observation it learned from, and for every clip_eps there are parameters for which a transition with positive advantage has no influence on any parameter in the first minibatch, before anything has changed.", "quantifier": "every policy, class of distributions, dataset, state and configuration of the normalizer, max_kl, bound, clip_eps, damping, entropy coefficient and number of iterations of conjugate gradients", "why_tests_cant": "Tests check that performance improves on a toy problem; that a limit on the change of a policy holds for every dataset and history of statistics, or for none of its values, is a statement about all updates.", "anchors": ["chainerrl/agents/trpo.py: TRPO._update, TRPO._update_obs_normalizer, TRPO._update_policy", "chainerrl/agents/ppo.py: PPO._update, PPO._update_obs_normalizer, PPO._lossfun", "chainerrl/links/empirical_normalization.py: EmpiricalNormalization.experience, EmpiricalNormalization.__call__"]}
{"id": "C172", "title": "What actor-critic and policy gradient agents make of step limits in a training run", "statement": "In train_agent with episodes limited by max_episode_len or ContinuingTimeLimit, at every moment: the buffers of DDPG, TD3, SoftActorCritic and PGT and the datasets of PPO and TRPO hold exactly what happened in the environment inside, with its own terminal flags, so in an environment that never ends an episode no transition counts as terminal and every target and advantage bootstraps; there A3C and NSQ (from step 0) bootstrap the last rollout of every episode from the value in the call that ended it, but REINFORCE never makes an update, however long the training. With make_timestep_limited REINFORCE makes one update for each batchsize episodes that reach the limit. Wanted and not true: that make_timestep_limited leaves the terminal flags alone; the n-th step of each episode is terminal in the data of PPO and TRPO although the environment did not end.", "quantifier": "every environment, limit, configuration and outcome of a training run (including exceptions), every moment of it, all sizes, intervals, network outputs and random choices of the agents", "why_tests_cant": "A test trains for a few short episodes; which flags reach which agent for every environment, limit and length of training, and that an agent never updates at all, quantifies over all runs.", "anchors": ["chainerrl/experiments/train_agent.py: train_agent", "chainerrl/wrappers/continuing_time_limit.py: ContinuingTimeLimit", "chainerrl/misc/env_modifiers.py: make_timestep_limited", "chainerrl/agents/reinforce.py: REINFORCE.stop_episode_and_train", "chainerrl/agents/ppo.py: PPO.stop_episode_and_train", "chainerrl/agents/a3c.py: A3C.stop_episode_and_train"]}
{"id": "C173", "title": "What the other agents make of step limits in a vectorised training run", "statement": "Let `train_agent_batch` train an agent on several environments, one of which is limited to n steps per episode. If the limit is set with `max_episode_len` or `ContinuingTimeLimit`, then of that environment the replay buffers of DDPG, TD3 and SoftActorCritic, and the datasets and the memory of PPO and TRPO, hold what happened in the environment inside, with its own terminal flags: no end if it never ends an episode. With `make_timestep_limited` they hold ends that did not happen. A2C should tell the two apart as well, but does not: however the limit is set, it takes it for the end of the episode. The target of a step whose episode reaches the limit inside the rollout is the discounted sum of the rewards up to the limit; and if n divides `update_steps`, the targets do not depend on the value function at all.", "quantifier": "for every configuration of the training loop, every number of environments, every behaviour of the environments, every agent configuration, every value function, every limit, every moment of the run", "why_tests_cant": "A test runs a short training with one limit; a bootstrap value missing at the limit only shows as a biased value function after long training, and the claim is about every step of every run.", "anchors": ["chainerrl/experiments/train_agent_batch.py: train_agent_batch", "chainerrl/agents/a2c.py: A2C.batch_observe_and_train", "chainerrl/agents/ppo.py: PPO.batch_observe_and_train", "chainerrl/agents/trpo.py: TRPO.batch_observe_and_train", "chainerrl/agents/ddpg.py: DDPG.batch_observe_and_train", "chainerrl/wrappers/continuing_time_limit.py: ContinuingTimeLimit", "chainerrl/misc/env_modifiers.py: make_timestep_limited"]}
{"id": "C174", "title": "Step limits in an asynchronous training run", "statement": "Let a process of `train_agent_async` be limited to n steps per episode by `max_episode_len`, or by `ContinuingTimeLimit` or `make_timestep_limited` around its environment. Then none of its episodes is longer than n steps, whatever the other processes do. With `max_episode_len` or `ContinuingTimeLimit` A3C, NSQ, ACER and PCL learn from what happened in the environment inside, with its own ends: if it never ends an episode, the last rollout of every episode bootstraps from the value of the state in which it was cut, also when it was cut because another process finished the training, and no recorded episode ends in a terminal state. A limit should never be learned as the end of the game, but with `make_timestep_limited` it is: an episode of n steps has no value after its end.", "quantifier": "for every number of processes, every schedule of them, every configuration of the training loop, every environment, every agent configuration and every limit, at every moment of the run", "why_tests_cant": "A test runs a few processes for a few steps on one schedule; the claim is about every interleaving, and a missing bootstrap value only shows as a bias after long training.", "anchors": ["chainerrl/experiments/train_agent_async.py: train_loop", "chainerrl/agents/a3c.py: A3C.stop_episode_and_train", "chainerrl/agents/nsq.py: NSQ.stop_episode_and_train", "chainerrl/agents/acer.py: ACER.stop_episode_and_train", "chainerrl/agents/pcl.py: PCL.stop_episode_and_train", "chainerrl/wrappers/continuing_time_limit.py: ContinuingTimeLimit", "chainerrl/misc/env_modifiers.py: make_timestep_limited"]}
{"id": "C175", "title": "What has been recorded stays as it was, although objects are shared", "statement": "Frame stacks and replay buffers hand out objects that they go on using: deques of frames that the next step changes, transitions that belong to several n-step entries. Nevertheless (1) an observation returned by `FrameStack` or `VectorFrameStack`, read at any later time, shows the frames it showed when it was returned; (2) the entries of a replay buffer, read through the objects they consist of, are at any time what was appended, and an entry drawn by `sample` keeps its transitions under all later calls, also after it has been dropped from the buffer; (3) when `PrioritizedReplayBuffer.sample` draws distinct entries and writes the weights into their first transitions, each entry of the batch carries exactly its own weight, also for n-step entries that share transitions, until `sample` is called again.", "quantifier": "for every history of calls of reset and step, of append, stop_current_episode and sample, every number of frames, environments, steps n >= 1 and every capacity, and every moment at which the observation or the batch is read", "why_tests_cant": "A missing copy shows only when an old observation or entry is read again after later calls; tests look at what a call has just returned.", "anchors": ["chainerrl/wrappers/atari_wrappers.py: FrameStack, LazyFrames", "chainerrl/wrappers/vector_frame_stack.py: VectorFrameStack", "chainerrl/replay_buffers/replay_buffer.py: ReplayBuffer.append, ReplayBuffer.stop_current_episode", "chainerrl/replay_buffers/prioritized.py: PrioritizedReplayBuffer.sample", "chainerrl/agents/dqn.py: DQN.update"]}
{"id": "C176", "title": "What an Atari game goes through, and what is scored, under make_atari and wrap_deepmind", "statement": "Let an environment be made by `make_atari` with or without `max_frames` and `wrap_deepmind` with any options, and let the agent reset it at the start and after every end of an episode. Then the emulated game is never stepped before it has been reset or after it is over, and no game has more than `max_frames` frames, with the no-ops and fire actions of the reset. Each step of the agent plays one to four frames, all with the agent's action, and fewer than four only if the episode is over with them; its reward is the sum of theirs (or the sign of the sum with `clip_rewards`); `done` is told when the game is over. Without `episode_life` an episode ends only when the game is over or at the frame limit, and, without `clip_rewards`, its rewards add up to those of the game from the moment at which the agent took over; the frames before that are no-ops and fire actions.", "quantifier": "for every game, every sequence of calls, all options of the two functions and all random draws of no-ops and flickering", "why_tests_cant": "The claim is about the composition of up to nine wrappers on every history of a game; tests drive single wrappers for a few steps of dummy environments.", "anchors": ["chainerrl/wrappers/atari_wrappers.py: make_atari, wrap_deepmind, NoopResetEnv, FireResetEnv, EpisodicLifeEnv, MaxAndSkipEnv, ClipRewardEnv", "chainerrl/wrappers/continuing_time_limit.py: ContinuingTimeLimit"]}
{"id": "C177", "title": "Training runs on Atari games: no frame is played in a finished game, and what is learned from", "statement": "Let an environment be made by `make_atari` and `wrap_deepmind` and be used by `train_agent`, as one of the environments of `train_agent_batch`, or by a process of `train_agent_async`. Then at every moment of the run, however it ends, every frame of the emulated game has been played between a reset and the end of the game, and no game has more than `max_frames` frames, if `episode_life` is off; with `episode_life` the only exceptions are frames in games that ended in a no-op frame. Each transition in the replay buffer of a DQN is about one to four consecutive frames, all played with the transition's action, its reward is the sum of theirs (or the sign of the sum), and it is terminal if the last of them ended the game, without `episode_life` only then.", "quantifier": "for every game, all options, random draws, configurations and outcomes of the three loops (with exceptions and schedules), every moment of the run and every capacity and number of steps per entry of the buffer", "why_tests_cant": "It is about whole runs of training loops around nine wrappers and an arbitrary game; tests run a few steps with dummy environments.", "anchors": ["chainerrl/wrappers/atari_wrappers.py: make_atari, wrap_deepmind", "chainerrl/experiments/train_agent.py: train_agent", "chainerrl/experiments/train_agent_batch.py: train_agent_batch", "chainerrl/experiments/train_agent_async.py: train_loop", "chainerrl/agents/dqn.py: DQN.act_and_train, DQN.stop_episode_and_train"]}
{"id": "C178", "title": "Scores reported by evaluations of Atari games are those of the games", "statement": "Let an environment made by `make_atari` and `wrap_deepmind` with `episode_life=False` and `clip_rewards=False`, new or after any proper use, be evaluated by `run_evaluation_episodes`. With `n_episodes=k` the reported scores are, in order, the sums of the unclipped rewards that `k` successive games of the emulator awarded for all frames since the agent took over, whatever frames were skipped. Each of these games begins with a reset followed by no-op and fire actions only, none of which ended it, and is played until it is over or has `max_frames` frames or, with `max_episode_len=m`, for `m` steps, that is `m` to `4m` frames. Besides these only games that were over before the agent could play are seen by the emulator, and no frame is played in a finished game. With `n_steps=n` the same holds, with `n` to `4n` frames in total; only the last game may be left unfinished and its score is reported only if it is the only one. When `batch_run_evaluation_episodes` is used with `n_episodes=k`, each environment plays such a sequence of games (of which the last may be left), and the `j`-th score is that of the `j`-th game to begin, in the order of the environments for equal times. With `n_steps=n` the scores are those of the first games to begin, all played to their ends, of at most `4n` frames together; if the very first is not over by then, the only score is what it awarded so far.", "quantifier": "for every game, agent, options without episode_life and clip_rewards, random draws, evaluation budget, max_episode_len and history of the environment", "why_tests_cant": "It relates the result of an evaluation loop to the rewards at the far end of nine wrappers, for arbitrary games and agents; tests check the loop on dummy environments and the wrappers one by one.", "anchors": ["chainerrl/experiments/evaluator.py: run_evaluation_episodes, batch_run_evaluation_episodes", "chainerrl/wrappers/atari_wrappers.py: make_atari, wrap_deepmind"]}
{"id": "C179", "title": "Recurrent updates of PPO and of TRPO's value function make whole passes", "statement": "With a recurrent model, every update of a PPO agent, and of the value function of a TRPO agent, makes `epochs` (`vf_epochs`) passes over the dataset of the update: in every pass each transition collected since the last update is in exactly one minibatch, every minibatch has exactly `minibatch_size` transitions, and consists of pieces of consecutive transitions of an episode no longer than `max_recurrent_sequence_len`. This is so whenever `minibatch_size` divides the number of transitions, which is `update_interval` rounded up to a multiple of the number of environments, whatever the environments do. It is false otherwise: then every update raises `IndexError` in its first epoch, after all whole minibatches of it (the defaults with three environments are an example). If `minibatch_size` divides `update_interval` and is not less than the number of environments, updates succeed exactly if the number of environments divides `update_interval`. After the outcomes of T steps have been seen, exactly floor(T / that number) updates have been made. And PPO with `standardize_advantages` raises `AssertionError` at the first minibatch if all advantages are the same.", "quantifier": "for every history of calls of the agent, number of environments, update_interval, minibatch_size, number of epochs, max_recurrent_sequence_len, advantages and result of the shuffles", "why_tests_cant": "Whether an update raises depends on a divisibility between three parameters, and which transitions are in which minibatch on the lengths of the episodes and on random shuffles; tests run a few fixed configurations.", "anchors": ["chainerrl/agents/ppo.py: PPO._update_recurrent, PPO._update_once_recurrent, PPO._update_if_dataset_is_ready, _yield_subset_of_sequences_with_fixed_number_of_items, _limit_sequence_length", "chainerrl/agents/trpo.py: TRPO._update_vf_recurrent"]}
{"id": "C180", "title": "Prioritized replay with agents that report no errors, and after an exception in an update", "statement": "A `PrioritizedReplayBuffer` works with every agent whose constructor takes a replay buffer, and an agent that is used on after an exception (for example a KeyboardInterrupt) in an update goes on learning from all that is stored. Both are false. Reporting the errors of a batch, before any other operation on the buffer, leaves it as an uninterrupted update does (`update_errors` after `sample`). But `DDPG`, `TD3`, `SoftActorCritic` and `PGT` never report errors: with them the first batch is drawn, and the second raises AssertionError, whatever is stored and whenever updates are due. So no run of `train_agent` or `train_agent_batch` with them gets beyond `replay_start_size + 2 * update_interval` environment steps (with n-step entries, `num_steps - 1` more in `train_agent`). If an exception ends an update of a DQN between drawing a batch and reporting its errors, nothing stored is lost and new entries are stored, but the next update that is due raises AssertionError. If the exception ends the drawing itself, training goes on without any error and with all batches that are due, but the entries selected so far are never drawn again.", "quantifier": "for every sequence of stored entries and updates before and after the exception, every capacity, batch size, update interval, number of repetitions, random variates and errors, and every number of batches or selected entries before the exception", "why_tests_cant": "Which entries can still be drawn depends on the whole history and on the moment of the exception; a test sees that a batch is drawn, not that an entry never is.", "anchors": ["chainerrl/replay_buffers/prioritized.py: PrioritizedReplayBuffer.sample, PrioritizedReplayBuffer.update_errors", "chainerrl/misc/prioritized.py: PrioritizedBuffer.sample, PrioritizedBuffer.set_last_priority, SumTreeQueue.prioritized_sample", "chainerrl/agents/ddpg.py: DDPG.update", "chainerrl/agents/td3.py: TD3.update", "chainerrl/agents/soft_actor_critic.py: SoftActorCritic.update", "chainerrl/agents/pgt.py: PGT.update", "chainerrl/agents/dqn.py: DQN.update", "chainerrl/replay_buffer.py: ReplayUpdater.update_if_necessary"]}
