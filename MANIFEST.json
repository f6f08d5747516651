{
 "claims": [
  {
   "property": "C01",
   "status": "proved",
   "theorems": [
    "C01_queue_is_bounded_list",
    "C01_length_limit",
    "C01_popleft"
   ],
   "note": ""
  },
  {
   "property": "C02",
   "status": "proved",
   "theorems": [
    "C02_getitem",
    "C02_setitem"
   ],
   "note": ""
  },
  {
   "property": "C03",
   "status": "proved",
   "theorems": [
    "C03_raises_iff",
    "C03_distinct_in_range",
    "C03_queue_sample"
   ],
   "note": ""
  },
  {
   "property": "C04",
   "status": "proved",
   "theorems": [
    "C04_sum_tree_is_list",
    "C04_min_tree_is_list"
   ],
   "note": ""
  },
  {
   "property": "C05",
   "status": "proved",
   "theorems": [
    "C05_selection_interval",
    "C05_zero_priority_never_selected",
    "C05_selection_probability"
   ],
   "note": ""
  },
  {
   "property": "C06",
   "status": "proved",
   "theorems": [
    "C06_sample_without_replacement",
    "C06_uniform_sample"
   ],
   "note": ""
  },
  {
   "property": "C07",
   "status": "proved",
   "theorems": [
    "C07_aligned",
    "C07_append_popleft",
    "C07_round"
   ],
   "note": ""
  },
  {
   "property": "C08",
   "status": "partial",
   "theorems": [
    "C08_partial",
    "C08_violated"
   ],
   "note": "C08_violated shows the code loses the sampled item's priority when an append evicts between sample and set_last_priority; C08_partial proves the property when no eviction happens in between."
  },
  {
   "property": "C09",
   "status": "proved",
   "theorems": [
    "C09_one_slice_per_transition",
    "C09_single_env"
   ],
   "note": ""
  },
  {
   "property": "C10",
   "status": "proved",
   "theorems": [
    "C10_no_mixing"
   ],
   "note": ""
  },
  {
   "property": "C11",
   "status": "proved",
   "theorems": [
    "C11_newest_entries",
    "C11_capacity",
    "C11_sample"
   ],
   "note": ""
  },
  {
   "property": "C12",
   "status": "partial",
   "theorems": [
    "C12_round_trip",
    "C12_continuation_partial",
    "C12_violated_mid_episode"
   ],
   "note": "C12_violated_mid_episode: the n-step window is not saved, so saving mid-episode with num_steps>1 loses entries; C12_continuation_partial proves the continuation when saving between episodes."
  },
  {
   "property": "C13",
   "status": "proved",
   "theorems": [
    "C13_views_agree",
    "C13_too_long_episode",
    "C13_load"
   ],
   "note": ""
  },
  {
   "property": "C14",
   "status": "proved",
   "theorems": [
    "C14_subsequences",
    "C14_raises",
    "C14_sample"
   ],
   "note": ""
  },
  {
   "property": "C15",
   "status": "partial",
   "theorems": [
    "C15_capacity_partial",
    "C15_load_partial",
    "C15_violated_after_load"
   ],
   "note": "C15_violated_after_load: load() does not restore capacity_left; everything else is proved in C15_capacity_partial."
  },
  {
   "property": "C16",
   "status": "proved",
   "theorems": [
    "C16_batch_rows",
    "C16_empty_entry"
   ],
   "note": ""
  },
  {
   "property": "C17",
   "status": "proved",
   "theorems": [
    "C17_schedule",
    "C17_never_oversamples",
    "C17_one_request_per_update"
   ],
   "note": ""
  },
  {
   "property": "C18",
   "status": "proved",
   "theorems": [
    "C18_batch_weights",
    "C18_memory_weights",
    "C18_beta",
    "C18_values",
    "C18_priorities_positive",
    "C18_priorities_monotone"
   ],
   "note": ""
  },
  {
   "property": "C19",
   "status": "partial",
   "theorems": [
    "C19_epsilon_partial",
    "C19_violated_zero_decay"
   ],
   "note": "C19_epsilon_partial proves the schedule for decay_steps>0; C19_violated_zero_decay: decay_steps=0 is accepted by the constructor but step 0 raises ZeroDivisionError."
  },
  {
   "property": "C20",
   "status": "proved",
   "theorems": [
    "C20_exactly_one_call",
    "C20_extremes",
    "C20_probability",
    "C20_linear_decay"
   ],
   "note": ""
  },
  {
   "property": "C21",
   "status": "proved",
   "theorems": [
    "C21_protocol",
    "C21_step_count",
    "C21_numbers",
    "C21_hooks",
    "C21_success_stops"
   ],
   "note": ""
  },
  {
   "property": "C22",
   "status": "proved",
   "theorems": [
    "C22_finish",
    "C22_except",
    "C22_reraised",
    "C22_checkpoints",
    "C22_checkpoints_crash"
   ],
   "note": ""
  },
  {
   "property": "C23",
   "status": "proved",
   "theorems": [
    "C23_protocol",
    "C23_step_count",
    "C23_hooks_checkpoints"
   ],
   "note": ""
  },
  {
   "property": "C24",
   "status": "partial",
   "theorems": [
    "C24_success_stops_partial",
    "C24_violated_zero_score"
   ],
   "note": "C24_violated_zero_score: the evaluation score is tested for truth, so a score of 0.0 never counts as successful; C24_success_stops_partial proves the property for non-zero scores."
  },
  {
   "property": "C25",
   "status": "proved",
   "theorems": [
    "C25_unique_numbers",
    "C25_finish_once",
    "C25_successful_once",
    "C25_counter_bound",
    "C25_finish_saved",
    "C25_protocol",
    "C25_stops_at_limit",
    "C25_after_success",
    "C25_except_only_first",
    "C25_except_saved",
    "C25_episodes_counted",
    "C25_episodes_exact",
    "C25_episode_numbers",
    "C25_success_only",
    "C25_success_ends"
   ],
   "note": ""
  },
  {
   "property": "C26",
   "status": "proved",
   "theorems": [
    "C26_due",
    "C26_each_interval_once",
    "C26_max_score",
    "C26_best"
   ],
   "note": ""
  },
  {
   "property": "C27",
   "status": "proved",
   "theorems": [
    "C27_claims",
    "C27_header",
    "C27_max_score",
    "C27_best_increasing"
   ],
   "note": ""
  },
  {
   "property": "C28",
   "status": "proved",
   "theorems": [
    "C28_episodes",
    "C28_steps",
    "C28_steps_returns",
    "C28_episodes_returns"
   ],
   "note": ""
  },
  {
   "property": "C29",
   "status": "proved",
   "theorems": [
    "C29_episodes",
    "C29_steps",
    "C29_calls"
   ],
   "note": ""
  },
  {
   "property": "C30",
   "status": "partial",
   "theorems": [
    "C30_episodes_partial",
    "C30_steps_partial",
    "C30_violated_max_episode_len"
   ],
   "note": "C30_violated_max_episode_len: the limit is tested before episode_len is incremented, so episodes last max_episode_len+1 steps; the _partial theorems prove everything else with that bound."
  },
  {
   "property": "C31",
   "status": "partial",
   "theorems": [
    "C31_roundtrip",
    "C31_no_error",
    "C31_save_detects_cycle",
    "C31_load_self_loop_partial",
    "C31_violated_load_cycle"
   ],
   "note": "C31_violated_load_cycle: load passes no ancestors on, so cycles longer than one are not detected on load; the round trip and cycle detection on save are proved in full."
  },
  {
   "property": "C32",
   "status": "proved",
   "theorems": [
    "C32_product",
    "C32_lengths"
   ],
   "note": ""
  },
  {
   "property": "C33",
   "status": "proved",
   "theorems": [
    "C33_serial",
    "C33_no_deadlock",
    "C33_terminates"
   ],
   "note": ""
  },
  {
   "property": "C34",
   "status": "proved",
   "theorems": [
    "C34_vector",
    "C34_vector_no_error",
    "C34_single",
    "C34_single_before_reset"
   ],
   "note": ""
  },
  {
   "property": "C35",
   "status": "proved",
   "theorems": [
    "C35_time_limit"
   ],
   "note": ""
  },
  {
   "property": "C36",
   "status": "partial",
   "theorems": [
    "C36_step",
    "C36_reset_partial",
    "C36_first_reset",
    "C36_violated_game_over_in_reset"
   ],
   "note": "C36_violated_game_over_in_reset: the result of the no-op step in reset() is discarded, so a game over in it is not noticed by an immediately following reset; C36_reset_partial proves the property for game overs in step()."
  },
  {
   "property": "C37",
   "status": "partial",
   "theorems": [
    "C37_frames",
    "C37_max_partial",
    "C37_skip_one",
    "C37_violated_stale_frames"
   ],
   "note": "C37_violated_stale_frames: a step cut short by done/needs_reset returns frames of earlier steps; C37_max_partial proves the maximum for uninterrupted steps, C37_frames the frames and rewards in full."
  },
  {
   "property": "C38",
   "status": "partial",
   "theorems": [
    "C38_noop",
    "C38_fire_partial",
    "C38_violated_fire"
   ],
   "note": "C38_violated_fire: FireResetEnv drops the observation of the reset after its second action; NoopResetEnv is proved in full."
  },
  {
   "property": "C39",
   "status": "proved",
   "theorems": [
    "C39_ends",
    "C39_affine",
    "C39_monotone",
    "C39_strict",
    "C39_range"
   ],
   "note": ""
  },
  {
   "property": "C40",
   "status": "proved",
   "theorems": [
    "C40_timestep_limit",
    "C40_action_repeat",
    "C40_action_repeat_zero",
    "C40_reward_filter",
    "C40_action_filter"
   ],
   "note": ""
  },
  {
   "property": "C41",
   "status": "partial",
   "theorems": [
    "C41_defined_partial",
    "C41_averages_partial",
    "C41_average_filter_partial",
    "C41_divisor_above_partial",
    "C41_violated_zero_rewards"
   ],
   "note": "C41_violated_zero_rewards: min is used instead of max, so the divisor is bounded above, and it is zero while all rewards are zero; C41_defined_partial proves it is positive once a reward was non-zero."
  },
  {
   "property": "C42",
   "status": "proved",
   "theorems": [
    "C42_single",
    "C42_single_recurrent",
    "C42_batch",
    "C42_batch_env",
    "C42_batch_recurrent",
    "C42_batch_short"
   ],
   "note": ""
  },
  {
   "property": "C43",
   "status": "proved",
   "theorems": [
    "C43_single_times",
    "C43_batch_times",
    "C43_hard",
    "C43_target",
    "C43_source"
   ],
   "note": ""
  },
  {
   "property": "C44",
   "status": "partial",
   "theorems": [
    "C44_dqn",
    "C44_residual_dqn",
    "C44_double_dqn",
    "C44_sarsa",
    "C44_td3",
    "C44_sac",
    "C44_iqn",
    "C44_al",
    "C44_dpp",
    "C44_pal_partial",
    "C44_double_pal_partial",
    "C44_violated_pal",
    "C44_ddpg",
    "C44_categorical"
   ],
   "note": "Proved for DQN, residual DQN, Double DQN, SARSA, TD3, SAC, IQN, AL, DPP, DDPG and categorical DQN. Persistent advantage learning (PAL, DoublePAL) does not mask the advantage in the next state at terminal transitions (pal.py:64-68): C44_violated_pal."
  },
  {
   "property": "C45",
   "status": "partial",
   "theorems": [
    "C45_one_step_partial",
    "C45_violated_two_steps"
   ],
   "note": "ddpg.py:197 multiplies the bootstrap by gamma instead of gamma^n: violated for every entry of two or more non-terminal steps; proved for one-step entries."
  },
  {
   "property": "C46",
   "status": "proved",
   "theorems": [
    "C46_paper",
    "C46_row",
    "C46_mean",
    "C46_shape"
   ],
   "note": ""
  },
  {
   "property": "C47",
   "status": "proved",
   "theorems": [
    "C47_episode",
    "C47_history",
    "C47_partition",
    "C47_nothing_pending"
   ],
   "note": ""
  },
  {
   "property": "C48",
   "status": "proved",
   "theorems": [
    "C48_rollout",
    "C48_history",
    "C48_no_leak"
   ],
   "note": ""
  },
  {
   "property": "C49",
   "status": "proved",
   "theorems": [
    "C49_gae",
    "C49_td",
    "C49_monte_carlo"
   ],
   "note": ""
  },
  {
   "property": "C50",
   "status": "proved",
   "theorems": [
    "C50_exactly_once",
    "C50_dataset_size",
    "C50_as_soon_as",
    "C50_no_error"
   ],
   "note": ""
  },
  {
   "property": "C51",
   "status": "partial",
   "theorems": [
    "C51_limit",
    "C51_limit_refused",
    "C51_subsets_partial",
    "C51_violated_remainder",
    "C51_cuts"
   ],
   "note": "The limiting half is proved in full. Cutting into subsets is proved when the total number of transitions is a multiple of the subset size (every subset then has exactly that size, in order, nothing lost). When it is not, the code pops from an empty list: C51_violated_remainder proves the IndexError, so the claim for arbitrary totals is false of the code."
  },
  {
   "property": "C52",
   "status": "proved",
   "theorems": [
    "C52_constraint",
    "C52_closest",
    "C52_unconstrained"
   ],
   "note": ""
  },
  {
   "property": "C53",
   "status": "partial",
   "theorems": [
    "C53_uniform_partial",
    "C53_violated"
   ],
   "note": "Episode weights stay in sampled order while the episodes are sorted longest first (reversed stable sort), so a weight multiplies another episode's loss. C53_uniform_partial proves the claim for equal weights; C53_violated is the counterexample for unequal weights."
  },
  {
   "property": "C54",
   "status": "proved",
   "theorems": [
    "C54_updates",
    "C54_same_modes",
    "C54_empty"
   ],
   "note": ""
  },
  {
   "property": "C55",
   "status": "proved",
   "theorems": [
    "C55_line_search",
    "C55_round_trip",
    "C55_replace"
   ],
   "note": ""
  },
  {
   "property": "C56",
   "status": "proved",
   "theorems": [
    "C56_hard",
    "C56_soft",
    "C56_iterated",
    "C56_errors",
    "C56_method",
    "C56_grad"
   ],
   "note": ""
  },
  {
   "property": "C57",
   "status": "proved",
   "theorems": [
    "C57_statistics",
    "C57_batching",
    "C57_resume",
    "C57_call_learns"
   ],
   "note": ""
  },
  {
   "property": "C58",
   "status": "partial",
   "theorems": [
    "C58_output_partial",
    "C58_update_mixes_partial",
    "C58_violated_update",
    "C58_violated_load",
    "C58_violated_load_witness",
    "C58_load_fresh_partial",
    "C58_round_trip_partial",
    "C58_clipped"
   ],
   "note": "Normalisation and its inverse are proved for stable statistics; the call that updates uses the new mean with the cached old deviation, and load_state_dict-style loading does not clear the cached deviation (proved as violations)."
  },
  {
   "property": "C59",
   "status": "partial",
   "theorems": [
    "C59_restores_partial",
    "C59_overlay_partial",
    "C59_entry",
    "C59_ignores",
    "C59_violated_initial",
    "C59_violated_exception",
    "C59_set_state"
   ],
   "note": "Restoring is proved for LSTMs whose state is set; an LSTM in its initial state is not restored, and an exception escaping an inner context leaves a stale entry on the shared stack (proved as violations)."
  },
  {
   "property": "C60",
   "status": "proved",
   "theorems": [
    "C60_get_of_concat",
    "C60_mask",
    "C60_mask_one",
    "C60_get_of_none",
    "C60_get_many",
    "C60_mask_out_of_range",
    "C60_concat_empty",
    "C60_concat_wrong_size"
   ],
   "note": ""
  },
  {
   "property": "C61",
   "status": "proved",
   "theorems": [
    "C61_forward",
    "C61_backward",
    "C61_round_trip"
   ],
   "note": ""
  },
  {
   "property": "C62",
   "status": "partial",
   "theorems": [
    "C62_sequence",
    "C62_solves",
    "C62_exact",
    "C62_violated_zero"
   ],
   "note": "Exact solution within n iterations is proved for every symmetric positive definite operator; b = 0 divides 0 by 0 (proved as a violation)."
  },
  {
   "property": "C63",
   "status": "partial",
   "theorems": [
    "C63_greedy_allowed",
    "C63_inside_partial",
    "C63_diagonal_partial",
    "C63_advantage_partial",
    "C63_violated"
   ],
   "note": "Proved without bounds, with mu inside the bounds, and for diagonal positive matrices; false for correlated matrices with active bounds (C63_violated)."
  },
  {
   "property": "C64",
   "status": "proved",
   "theorems": [
    "C64_greedy",
    "C64_max",
    "C64_advantage",
    "C64_advantage_zero_iff",
    "C64_distributional",
    "C64_quantile",
    "C64_double_advantage"
   ],
   "note": ""
  },
  {
   "property": "C65",
   "status": "partial",
   "theorems": [
    "C65_reflected_partial",
    "C65_violated",
    "C65_zero_iff",
    "C65_uniform_weights",
    "C65_row_partial"
   ],
   "note": "iqn.py:213 takes the indicator of t - y > 0 where the paper has t - y < 0: the loss is the paper's for 1 - tau (C65_reflected_partial), and differs from the paper's for tau wherever it matters (C65_violated)."
  },
  {
   "property": "C66",
   "status": "proved",
   "theorems": [
    "C66_probabilities",
    "C66_order",
    "C66_kl_entropy"
   ],
   "note": ""
  },
  {
   "property": "C67",
   "status": "proved",
   "theorems": [
    "C67_kl"
   ],
   "note": ""
  },
  {
   "property": "C68",
   "status": "proved",
   "theorems": [
    "C68_bounds",
    "C68_non_expansion",
    "C68_at_least_mean"
   ],
   "note": ""
  },
  {
   "property": "C69",
   "status": "proved",
   "theorems": [
    "C69_increasing",
    "C69_decreasing",
    "C69_shrinks"
   ],
   "note": ""
  },
  {
   "property": "C70",
   "status": "proved",
   "theorems": [
    "C70_values",
    "C70_monotone"
   ],
   "note": ""
  },
  {
   "property": "C71",
   "status": "partial",
   "theorems": [
    "C71_delay_partial",
    "C71_counts_partial",
    "C71_violated_n_times"
   ],
   "note": "The delay schedule is proved for every history (C71_delay_partial, C71_counts_partial); n_times_update is ignored by TD3 (td3.py:133 passes 1), proved as C71_violated_n_times."
  },
  {
   "property": "C72",
   "status": "proved",
   "theorems": [
    "C72_full",
    "C72_untruncated",
    "C72_sample",
    "C72_vanishes"
   ],
   "note": ""
  },
  {
   "property": "C73",
   "status": "proved",
   "theorems": [
    "C73_retrace",
    "C73_on_policy",
    "C73_coef",
    "C73_advantages",
    "C73_loss"
   ],
   "note": ""
  },
  {
   "property": "C74",
   "status": "proved",
   "theorems": [
    "C74_path_consistency"
   ],
   "note": ""
  },
  {
   "property": "C75",
   "status": "proved",
   "theorems": [
    "C75_log_prob",
    "C75_entropy",
    "C75_kl"
   ],
   "note": ""
  },
  {
   "property": "C76",
   "status": "partial",
   "theorems": [
    "C76_expectation_partial",
    "C76_maximum_entropy_partial",
    "C76_distribution_partial",
    "C76_violated"
   ],
   "note": "Expectation and maximality of the entropy are proved for the default omega and an exact root of Brent's method (a root is shown to exist); maximum_entropy_mellowmax calls mellowmax without omega and MellowmaxDistribution does not pass it on, so other omegas are ignored (C76_violated)."
  },
  {
   "property": "C77",
   "status": "proved",
   "theorems": [
    "C77_log_det",
    "C77_sample",
    "C77_density",
    "C77_bound"
   ],
   "note": ""
  },
  {
   "property": "C78",
   "status": "proved",
   "theorems": [
    "C78_updates",
    "C78_sac_schedule",
    "C78_ddpg_schedule",
    "C78_burnin",
    "C78_recorded_single",
    "C78_recorded_batch",
    "C78_buffer"
   ],
   "note": ""
  },
  {
   "property": "C79",
   "status": "proved",
   "theorems": [
    "C79_gaussian_bounds",
    "C79_gaussian_noise",
    "C79_ou_recursion",
    "C79_ou_law",
    "C79_boltzmann_prob",
    "C79_boltzmann_choice"
   ],
   "note": ""
  },
  {
   "property": "C80",
   "status": "partial",
   "theorems": [
    "C80_split_partial",
    "C80_concat_partial",
    "C80_none_partial",
    "C80_carry_partial",
    "C80_one_step_partial",
    "C80_violated_tuple_input",
    "C80_violated_one_step_tuple",
    "C80_wrong_states",
    "C80_no_children",
    "C80_missing_states",
    "C80_violated_branch_states"
   ],
   "note": "Proved for every model tree with arrays as input of sequential models. StatelessRecurrentSequential computes section boundaries with len() of a tuple, so tuple sequences are cut at wrong places (C80_violated_tuple_input), and one-step calls assert that the input is not a tuple although it is documented (C80_violated_one_step_tuple). States that do not fit are refused by sequential models (C80_wrong_states) and by branched models in split mode (C80_missing_states), but in concat mode a branched model silently leaves out children without a state (C80_violated_branch_states)."
  },
  {
   "property": "C81",
   "status": "proved",
   "theorems": [
    "C81_update"
   ],
   "note": ""
  },
  {
   "property": "C82",
   "status": "partial",
   "theorems": [
    "C82_critic",
    "C82_actor_exact",
    "C82_actor_partial",
    "C82_violated_actor",
    "C82_violated_batch_training"
   ],
   "note": "Proved for the critic update. In the actor update state_kept does not restore an initial (None) state, so from the second step on the Q-function has read the first state twice (C82_violated_actor; C82_actor_exact gives exactly what is computed). With transitions recorded by batch training, which stores no next actions, the critic update raises KeyError (C82_violated_batch_training)."
  },
  {
   "property": "C83",
   "status": "partial",
   "theorems": [
    "C83_visible_partial",
    "C83_mismatch",
    "C83_violated_state_dtype"
   ],
   "note": "Violated for optimizer states whose elements are not 4 bytes wide (async_.py:153 always uses typecode 'f'): C83_violated_state_dtype; C83_visible_partial needs float32 states."
  },
  {
   "property": "C84",
   "status": "partial",
   "theorems": [
    "C84_reset",
    "C84_step",
    "C84_after_end",
    "C84_bad_action",
    "C84_history",
    "C84_violated_reset_over",
    "C84_violated_reset_continues"
   ],
   "note": "The conversion of a raw screen to an 84x84 image is an arbitrary function; the random number of null actions is an argument."
  },
  {
   "property": "C85",
   "status": "partial",
   "theorems": [
    "C85_update",
    "C85_bounded",
    "C85_scale_free",
    "C85_elementwise",
    "C85_no_gradient",
    "C85_violated_epsilon",
    "C85_decay",
    "C85_decay_no_gradient",
    "C85_decay_update"
   ],
   "note": "Real numbers instead of floats; Chainer's loop over parameters is not modelled."
  },
  {
   "property": "C86",
   "status": "partial",
   "theorems": [
    "C86_convert",
    "C86_count",
    "C86_callable",
    "C86_violated_root",
    "C86_violated_mean",
    "C86_violated_sharing",
    "C86_violated_sequence",
    "C86_violated_twice",
    "C86_violated_shared_chain"
   ],
   "note": "The recursion limit of Python is an argument; values of weights are not modelled, only their identity."
  },
  {
   "property": "C87",
   "status": "partial",
   "theorems": [
    "C87_objective",
    "C87_pessimistic",
    "C87_gradient",
    "C87_first_gradient",
    "C87_value",
    "C87_loss",
    "C87_loss_gradient",
    "C87_standardized",
    "C87_standardized_order",
    "C87_usable",
    "C87_violated_recurrent"
   ],
   "note": "Real numbers instead of floats; the network's outputs are part of the rows, the chain rule through the network is not modelled."
  },
  {
   "property": "C88",
   "status": "proved",
   "theorems": [
    "C88_ends",
    "C88_passes",
    "C88_uses",
    "C88_only",
    "C88_updates",
    "C88_size",
    "C88_small_dataset"
   ],
   "note": "SerialIterator belongs to Chainer and is modelled after Chainer's implementation; not part of /repo."
  },
  {
   "property": "C89",
   "status": "partial",
   "theorems": [
    "C89_step",
    "C89_natural",
    "C89_violated_zero",
    "C89_gain",
    "C89_gain_gradient"
   ],
   "note": "Exact real arithmetic. That Chainer's Hessian of the KL divergence is positive semidefinite, and that its gradients are the derivatives, is assumed."
  },
  {
   "property": "C90",
   "status": "proved",
   "theorems": [
    "C90_weighted",
    "C90_unweighted",
    "C90_gradient",
    "C90_bounded",
    "C90_zero",
    "C90_errors",
    "C90_bad_accumulator"
   ],
   "note": "Real numbers. F.huber_loss and F.mean_squared_error belong to Chainer and are modelled by their documented formulas."
  },
  {
   "property": "C91",
   "status": "proved",
   "theorems": [
    "C91_weighted_sum",
    "C91_sum",
    "C91_muladd",
    "C91_arctanh",
    "C91_scale_grad",
    "C91_residual"
   ],
   "note": "Real numbers, CPU code. weighted_sum_arrays is assumed to get as many weights as arrays."
  },
  {
   "property": "C92",
   "status": "proved",
   "theorems": [
    "C92_dueling",
    "C92_dueling_shift",
    "C92_atoms",
    "C92_distributional",
    "C92_distributional_dueling",
    "C92_quadratic"
   ],
   "note": "Real numbers (with floats exp may underflow to 0). The layers before are arbitrary functions."
  },
  {
   "property": "C93",
   "status": "proved",
   "theorems": [
    "C93_pipeline",
    "C93_clip",
    "C93_scaled",
    "C93_lazy",
    "C93_randomize",
    "C93_randomize_probability",
    "C93_flicker"
   ],
   "note": "Warping (cv2) is an arbitrary function of the frame; real numbers. EpisodicLife and FireReset are covered by the wrapper model of earlier properties."
  },
  {
   "property": "C94",
   "status": "proved",
   "theorems": [
    "C94_reset",
    "C94_alternate",
    "C94_episodic",
    "C94_return",
    "C94_continuing",
    "C94_observations",
    "C94_continuous"
   ],
   "note": "Real numbers for continuous actions."
  },
  {
   "property": "C95",
   "status": "partial",
   "theorems": [
    "C95_routing_partial",
    "C95_ignored",
    "C95_violated_var_positional",
    "C95_first_parameter"
   ],
   "note": "Partial: a layer with *args but without **kwargs is given every keyword argument, also those it does not accept, and the call raises TypeError (C95_violated_var_positional). Proved for all other layers."
  },
  {
   "property": "C96",
   "status": "partial",
   "theorems": [
    "C96_mlp",
    "C96_q",
    "C96_deterministic",
    "C96_gaussian",
    "C96_mean_networks",
    "C96_violated_no_hidden",
    "C96_independent_var"
   ],
   "note": "Partial: with n_hidden_layers=0, the default, FCGaussianPolicyWithStateIndependentCovariance has one hidden layer (C96_violated_no_hidden). Real numbers: with floats tanh can round to 1."
  },
  {
   "property": "C97",
   "status": "proved",
   "theorems": [
    "C97_orthogonal"
   ],
   "note": "Real numbers. Arrays of more than two axes are taken in their reshaped form; the 0-dimensional case is not modelled."
  },
  {
   "property": "C98",
   "status": "partial",
   "theorems": [
    "C98_history_partial",
    "C98_rollouts",
    "C98_replay_only",
    "C98_violated_pcl_without_buffer"
   ],
   "note": "Partial: PCL without a replay buffer, its default, raises AttributeError at the second call of every run (C98_violated_pcl_without_buffer); proved with a buffer, and for ACER with and without. C98_replay_only assumes for PCL that batchsize is 1 or that the buffer's number of episodes does not matter. What a replay update computes is C53/C73."
  },
  {
   "property": "C99",
   "status": "proved",
   "theorems": [
    "C99_noise_function",
    "C99_mean",
    "C99_covariance",
    "C99_no_noise",
    "C99_factorized",
    "C99_initial_scales"
   ],
   "note": "The original paper scales the bias's noise by the number of inputs; the code by the number of outputs (proved as it is)."
  },
  {
   "property": "C100",
   "status": "partial",
   "theorems": [
    "C100_returned_partial",
    "C100_complete_downloads",
    "C100_exclusive",
    "C100_progress",
    "C100_violated_interrupted"
   ],
   "note": "Partial: proved for executions in which no extraction is interrupted (kills and failures at all other points allowed). If the process is killed, or extractall raises, after the archive has been renamed to its final path, every later call reports the model as cached although files are missing, for ever (C100_violated_interrupted)."
  },
  {
   "property": "C101",
   "status": "proved",
   "theorems": [
    "C101_returned",
    "C101_nothing_overwritten",
    "C101_alone"
   ],
   "note": ""
  },
  {
   "property": "C102",
   "status": "proved",
   "theorems": [
    "C102_action_probability",
    "C102_batch",
    "C102_impossible",
    "C102_gaussian",
    "C102_deterministic"
   ],
   "note": ""
  },
  {
   "property": "C103",
   "status": "proved",
   "theorems": [
    "C103_reinforce",
    "C103_a3c",
    "C103_a3c_scale",
    "C103_undiscounted",
    "C103_a2c",
    "C103_pgt"
   ],
   "note": "A2C without GAE (with GAE the targets differ, C48). keep_loss_scale_same and normalize_grad_by_t_max of A3C are modelled and set to their default (off): they weight rollouts by their length, and so do not have this property. The gradient of the value loss, which is added, is not part of the claim."
  },
  {
   "property": "C104",
   "status": "proved",
   "theorems": [
    "C104_temperature",
    "C104_temperature_gradient",
    "C104_temperature_direction",
    "C104_policy_optimum",
    "C104_q_gradient",
    "C104_td3_policy",
    "C104_smoothing"
   ],
   "note": "Gradients are with respect to the log temperature and the predictions; the chain rule through the networks is Chainer's."
  },
  {
   "property": "C105",
   "status": "proved",
   "theorems": [
    "C105_recorded",
    "C105_schedule",
    "C105_updates",
    "C105_target",
    "C105_buffer"
   ],
   "note": "The actor's loss is C103. Recurrent models are not modelled."
  },
  {
   "property": "C106",
   "status": "proved",
   "theorems": [
    "C106_loss",
    "C106_accumulator",
    "C106_bounded",
    "C106_optimum",
    "C106_near_optimum",
    "C106_target",
    "C106_prediction"
   ],
   "note": ""
  },
  {
   "property": "C107",
   "status": "partial",
   "theorems": [
    "C107_seed",
    "C107_seed_range",
    "C107_returned",
    "C107_started",
    "C107_progress",
    "C107_violated_same_seed",
    "C107_violated_worker_seed",
    "C107_environments",
    "C107_arguments",
    "C107_shared"
   ],
   "note": "The two violated theorems show that seeds of processes coincide."
  },
  {
   "property": "C108",
   "status": "proved",
   "theorems": [
    "C108_embedding",
    "C108_basis",
    "C108_network",
    "C108_target",
    "C108_prediction",
    "C108_loss",
    "C108_act",
    "C108_act_deterministic",
    "C108_symmetric"
   ],
   "note": ""
  },
  {
   "property": "C109",
   "status": "proved",
   "theorems": [
    "C109_plain",
    "C109_recurrent",
    "C109_behaviour",
    "C109_advantages",
    "C109_dataset",
    "C109_ratio_one",
    "C109_ratio_one_recurrent",
    "C109_explained",
    "C109_fragments",
    "C109_on_policy",
    "C109_normalizer_moves_ratio"
   ],
   "note": ""
  },
  {
   "property": "C110",
   "status": "partial",
   "theorems": [
    "C110_training_alone",
    "C110_cleared",
    "C110_single",
    "C110_batch",
    "C110_actor_critic",
    "C110_actor_critic_init",
    "C110_stop_discards",
    "C110_violated_plain_eval_env",
    "C110_stateful_memory",
    "C110_stateful",
    "C110_violated_stateful_middle",
    "C110_env_separate",
    "C110_violated_shared_env"
   ],
   "note": "The claim fails in the three situations proved as C110_violated_plain_eval_env, C110_violated_stateful_middle and C110_violated_shared_env. The global random numbers drawn by sampling during an evaluation are not part of the model."
  },
  {
   "property": "C111",
   "status": "partial",
   "theorems": [
    "C111_no_lost_update",
    "C111_each_once",
    "C111_step_size",
    "C111_snapshot",
    "C111_serial",
    "C111_violated_average",
    "C111_load",
    "C111_violated_load_average"
   ],
   "note": "Violated for ACER's average model (C111_violated_average, C111_violated_load_average); everything else is proved. A single in-place array operation is taken as atomic."
  },
  {
   "property": "C112",
   "status": "partial",
   "theorems": [
    "C112_file",
    "C112_final",
    "C112_running",
    "C112_total_steps",
    "C112_reset_allowed",
    "C112_step_refused",
    "C112_violated_types",
    "C112_types",
    "C112_violated_first_reset",
    "C112_violated_step_after_failed_reset"
   ],
   "note": "Violated as C112_violated_types, C112_violated_first_reset and C112_violated_step_after_failed_reset show. gym's StatsRecorder and Monitor are not in the repository and are modelled as published."
  },
  {
   "property": "C113",
   "status": "partial",
   "theorems": [
    "C113_close",
    "C113_closed",
    "C113_closed_once",
    "C113_seed",
    "C113_seed_refused",
    "C113_step",
    "C113_reset",
    "C113_violated_env_raises",
    "C113_violated_few_actions",
    "C113_violated_interrupted",
    "C113_serial_seed",
    "C113_violated_serial_seed",
    "C113_spaces",
    "C113_violated_serial_spec",
    "C113_interrupted_rests"
   ],
   "note": "Violated in the five ways proved as C113_violated_env_raises, C113_violated_few_actions, C113_violated_interrupted, C113_violated_serial_seed and C113_violated_serial_spec. Pipes are unbounded and the operating system's pipe behaviour (no end of file while the parent holds the other end) is assumed."
  },
  {
   "property": "C114",
   "status": "partial",
   "theorems": [
    "C114_map",
    "C114_sum",
    "C114_choice",
    "C114_sample",
    "C114_violated_oversampling"
   ],
   "note": "Violated when more entries are sampled than have positive values (C114_violated_oversampling)."
  },
  {
   "property": "C115",
   "status": "partial",
   "theorems": [
    "C115_violated_disable_train",
    "C115_soft",
    "C115_weights",
    "C115_between",
    "C115_hard",
    "C115_test_mode",
    "C115_stats",
    "C115_violated_minibatch",
    "C115_violated_statistics",
    "C115_violated_drift"
   ],
   "note": "Violated for DQN, DDPG and PGT with batch normalisation (C115_violated_disable_train, C115_violated_minibatch, C115_violated_statistics)."
  },
  {
   "property": "C116",
   "status": "partial",
   "theorems": [
    "C116_return",
    "C116_rate",
    "C116_shift",
    "C116_fixed",
    "C116_average",
    "C116_converges",
    "C116_off",
    "C116_violated_save"
   ],
   "note": "Violated by save and load (C116_violated_save)."
  },
  {
   "property": "C117",
   "status": "partial",
   "theorems": [
    "C117_averages",
    "C117_names",
    "C117_parameters",
    "C117_complete",
    "C117_violated_a2c",
    "C117_bounds",
    "C117_constant",
    "C117_violated_a2c_constant",
    "C117_converges",
    "C117_nan"
   ],
   "note": "Violated by A2C (C117_violated_a2c, C117_violated_a2c_constant)."
  },
  {
   "property": "C118",
   "status": "partial",
   "theorems": [
    "C118_complete",
    "C118_inside",
    "C118_detected",
    "C118_violated_best_lost",
    "C118_violated_best_mixed",
    "C118_names",
    "C118_saved",
    "C118_train"
   ],
   "note": "Violated for the directory best (C118_violated_best_lost, C118_violated_best_mixed)."
  },
  {
   "property": "C119",
   "status": "partial",
   "theorems": [
    "C119_scores",
    "C119_best",
    "C119_violated_scores",
    "C119_last_run",
    "C119_violated_best",
    "C119_resume",
    "C119_violated_due"
   ],
   "note": "Violated over several runs: C119_violated_scores, C119_violated_best, C119_violated_due."
  },
  {
   "property": "C120",
   "status": "partial",
   "theorems": [
    "C120_tril",
    "C120_tril_backward",
    "C120_sum",
    "C120_weighted",
    "C120_violated_views",
    "C120_muladd",
    "C120_rmsprop"
   ],
   "note": "Violated for non-contiguous arrays (C120_violated_views). Real arithmetic, no floats."
  },
  {
   "property": "C121",
   "status": "proved",
   "theorems": [
    "C121_buffer",
    "C121_finished",
    "C121_count",
    "C121_update"
   ],
   "note": ""
  },
  {
   "property": "C122",
   "status": "proved",
   "theorems": [
    "C122_buffer",
    "C122_finished",
    "C122_times"
   ],
   "note": ""
  },
  {
   "property": "C123",
   "status": "proved",
   "theorems": [
    "C123_calls",
    "C123_actor_critic",
    "C123_ppo",
    "C123_ppo_updates",
    "C123_reinforce"
   ],
   "note": ""
  },
  {
   "property": "C124",
   "status": "partial",
   "theorems": [
    "C124_calls",
    "C124_actor_critic",
    "C124_ppo",
    "C124_ppo_updates",
    "C124_a2c",
    "C124_a2c_offset_violated"
   ],
   "note": "Violated by A2C when step_offset > 0: train_agent_batch sets agent.t to step_offset and A2C allocates its storage only when t is 0, so the first batch_act_and_train raises AttributeError (C124_a2c_offset_violated); C124_a2c holds for step_offset = 0."
  },
  {
   "property": "C125",
   "status": "proved",
   "theorems": [
    "C125_calls",
    "C125_nothing_missed",
    "C125_nstep",
    "C125_online"
   ],
   "note": ""
  },
  {
   "property": "C126",
   "status": "proved",
   "theorems": [
    "C126_seen",
    "C126_replay",
    "C126_feed_forward"
   ],
   "note": ""
  },
  {
   "property": "C127",
   "status": "partial",
   "theorems": [
    "C127_mlp_bn",
    "C127_saq",
    "C127_late",
    "C127_policy",
    "C127_test_values",
    "C127_modes_agree",
    "C127_single_raises",
    "C127_batch_accepted",
    "C127_centred",
    "C127_scaled",
    "C127_running",
    "C127_training_network",
    "C127_linear_bias",
    "C127_act_partial",
    "C127_act_two",
    "C127_act_violated",
    "C127_columns"
   ],
   "note": "Holds for DQN and its variants, DDPG, TD3, SAC, PGT, PPO and TRPO. Violated (C127_act_violated): act of A2C, A3C, ACER, PCL, REINFORCE and NSQ runs the network in the mode of the program, which is training by default, so that with an MLPBN it raises an AssertionError, and evaluation with A2C in several environments changes the network."
  },
  {
   "property": "C128",
   "status": "partial",
   "theorems": [
    "C128_load",
    "C128_unreadable",
    "C128_round_trip",
    "C128_violated_missing"
   ],
   "note": "Violated as a round trip for objects that had fewer entries when they were saved (C128_violated_missing): a snapshot of an optimizer from before its first update, loaded into an agent that has been trained, leaves the moments of the latter in place. Shapes and types of arrays are not modelled."
  },
  {
   "property": "C129",
   "status": "proved",
   "theorems": [
    "C129_returns",
    "C129_shift",
    "C129_unbiased",
    "C129_consistent",
    "C129_variance",
    "C129_double_advantage",
    "C129_no_greedy",
    "C129_discrete"
   ],
   "note": ""
  },
  {
   "property": "C130",
   "status": "partial",
   "theorems": [
    "C130_render_calls",
    "C130_render_transparent",
    "C130_render_raises",
    "C130_make_rendered_calls",
    "C130_make_rendered_transparent",
    "C130_close_violated",
    "C130_scale_reward",
    "C130_scale_twice",
    "C130_cast_observation",
    "C130_reward_clipped",
    "C130_clip_nearest",
    "C130_clip_swapped",
    "C130_seed_reproducible",
    "C130_seed_returns_none",
    "C130_public_attribute",
    "C130_private_attribute",
    "C130_spaces"
   ],
   "note": "C130_close_violated: an environment whose render refuses close=True is never closed after make_rendered."
  },
  {
   "property": "C131",
   "status": "proved",
   "theorems": [
    "C131_nature_accepts",
    "C131_nature_reads",
    "C131_dueling",
    "C131_dueling_reads",
    "C131_nips_accepts",
    "C131_nips_reads",
    "C131_flatten",
    "C131_activated"
   ],
   "note": ""
  },
  {
   "property": "C132",
   "status": "proved",
   "theorems": [
    "C132_round",
    "C132_update",
    "C132_batches",
    "C132_run",
    "C132_eps_needed"
   ],
   "note": ""
  },
  {
   "property": "C133",
   "status": "partial",
   "theorems": [
    "C133_train_agent",
    "C133_dqn",
    "C133_nstep_violated",
    "C133_online_violated",
    "C133_a2c_violated",
    "C133_acer_average_violated",
    "C133_prioritized_violated",
    "C133_async_violated",
    "C133_async_evaluation_violated"
   ],
   "note": "Proved for train_agent itself and DQN (C133_train_agent, C133_dqn); the *_violated theorems each give a component for which the claim fails."
  },
  {
   "property": "C134",
   "status": "proved",
   "theorems": [
    "C134_operators",
    "C134_limit",
    "C134_targets"
   ],
   "note": ""
  },
  {
   "property": "C135",
   "status": "proved",
   "theorems": [
    "C135_dqn",
    "C135_double_dqn",
    "C135_al",
    "C135_pal",
    "C135_double_pal",
    "C135_contraction",
    "C135_iteration",
    "C135_approximate",
    "C135_sarsa"
   ],
   "note": ""
  },
  {
   "property": "C136",
   "status": "proved",
   "theorems": [
    "C136_optimal",
    "C136_all_episodes"
   ],
   "note": ""
  },
  {
   "property": "C137",
   "status": "proved",
   "theorems": [
    "C137_fixed_point",
    "C137_contraction",
    "C137_unique"
   ],
   "note": ""
  },
  {
   "property": "C138",
   "status": "proved",
   "theorems": [
    "C138_ppo",
    "C138_a3c",
    "C138_a2c",
    "C138_a2c_gae",
    "C138_unique"
   ],
   "note": ""
  },
  {
   "property": "C139",
   "status": "proved",
   "theorems": [
    "C139_sac",
    "C139_td3",
    "C139_ddpg",
    "C139_sac_contraction"
   ],
   "note": ""
  },
  {
   "property": "C140",
   "status": "partial",
   "theorems": [
    "C140_bounds",
    "C140_greedy",
    "C140_not_optimal"
   ],
   "note": "C140_bounds, C140_greedy; C140_not_optimal shows that the claim fails without their conditions."
  },
  {
   "property": "C141",
   "status": "partial",
   "theorems": [
    "C141_actor_critic",
    "C141_ppo_not_continued",
    "C141_reinforce_not_continued"
   ],
   "note": "The parts of PPO, TRPO and REINFORCE state how the continuation differs, so the property is not met for these agents; optimizer states and network parameters are saved and belong to what the candidate actions are."
  },
  {
   "property": "C142",
   "status": "partial",
   "theorems": [
    "C142_contents",
    "C142_total",
    "C142_sampling_partial",
    "C142_in_range",
    "C142_violated_range",
    "C142_violated_repeat"
   ],
   "note": "Claim (c) is false in general: C142_violated_range is a buffer of three positive priorities whose sample() raises TypeError, C142_violated_repeat a batch of two from four positive priorities containing the same item twice. C142_sampling_partial proves (c) when the sums are exact; C142_in_range proves for all priorities that no draw leaves the queue unless one of the 126 largest of the 2^53 variates is drawn. Overflow to inf and NaN are not modelled."
  },
  {
   "property": "C143",
   "status": "partial",
   "theorems": [
    "C143_exact",
    "C143_check",
    "C143_visits",
    "C143_violated_depth",
    "C143_violated_cost"
   ],
   "note": "The bound on the cost is violated (C143_violated_cost): the search keeps no set of visited functions, so a recurrent policy trained on sequences of t steps needs 2^t visits, and RecursionError is raised once the computation is deeper than the stack (C143_violated_depth). The graph of n_step_lstm is an assumption about Chainer, stated in the model."
  },
  {
   "property": "C144",
   "status": "proved",
   "theorems": [
    "C144_second_order",
    "C144_fisher_softmax",
    "C144_update_softmax",
    "C144_fisher_gaussian",
    "C144_update_gaussian"
   ],
   "note": "Discharges the hypothesis on the Hessian under which C89 is stated. Real arithmetic; networks with ReLU meet the hypothesis at parameters where no pre-activation is zero."
  },
  {
   "property": "C145",
   "status": "proved",
   "theorems": [
    "C145_al",
    "C145_pal",
    "C145_double_pal",
    "C145_alpha_one"
   ],
   "note": "Fitting is exact: every entry of the new table is the expectation of its targets. Function approximation, sampling and the schedule of target updates are outside this property."
  },
  {
   "property": "C146",
   "status": "proved",
   "theorems": [
    "C146_operator",
    "C146_dpp",
    "C146_dppl",
    "C146_greedy",
    "C146_eventually_optimal",
    "C146_softmax"
   ],
   "note": "Fitting is exact: every entry of the new table is the expectation of its targets. Function approximation, sampling and the schedule of target updates are outside this property."
  },
  {
   "property": "C147",
   "status": "proved",
   "theorems": [
    "C147_accepts",
    "C147_bounded",
    "C147_step",
    "C147_policy",
    "C147_saq",
    "C147_state_q",
    "C147_softmax_policy",
    "C147_v",
    "C147_forgets",
    "C147_state_q_rectified"
   ],
   "note": "Real numbers; L.LSTM is part of Chainer, its cell is modelled from its documentation. No batch normalization."
  },
  {
   "property": "C148",
   "status": "proved",
   "theorems": [
    "C148_fit",
    "C148_exists",
    "C148_means",
    "C148_optimal",
    "C148_returns",
    "C148_limit"
   ],
   "note": "Fitting is exact: every distribution of the new table is the mixture of its targets. Function approximation, sampling and the schedule of target updates are outside this property. What the distributions do when several actions are optimal is not covered."
  },
  {
   "property": "C149",
   "status": "proved",
   "theorems": [
    "C149_soft_targets",
    "C149_sac",
    "C149_ddpg",
    "C149_td3",
    "C149_sac_iteration",
    "C149_ddpg_iteration"
   ],
   "note": "Fitting is exact and the tables are free: no function approximation, no sampling error; the actor condition is per state. TD3 with smoothing noise is not covered, its critics belong to the noisy policy."
  },
  {
   "property": "C150",
   "status": "proved",
   "theorems": [
    "C150_new",
    "C150_categorical",
    "C150_categorical_kl",
    "C150_gaussian",
    "C150_squashed",
    "C150_deterministic",
    "C150_slice",
    "C150_copy",
    "C150_writes",
    "C150_write_shown",
    "C150_shared",
    "C150_one_at_a_time",
    "C150_kl_copy",
    "C150_stale"
   ],
   "note": "Labels or vectors, one per row, are the only points; integer indices (which give one-dimensional parameters), sampling (C102) and argmax of the categorical classes are not part of this model. C150_stale shows why a copy is needed: a Gaussian whose variance array is written into keeps the logarithm of the old variance."
  },
  {
   "property": "C151",
   "status": "proved",
   "theorems": [
    "C151_gain",
    "C151_clipped",
    "C151_unchanged",
    "C151_improves",
    "C151_no_gain",
    "C151_trust_region"
   ],
   "note": "Expectations are exact and predictions true: sampling error, standardised advantages and the entropy bonus are not covered. The code bounds the divergence averaged over the states of the dataset, the theorem needs the bound in every state."
  },
  {
   "property": "C152",
   "status": "proved",
   "theorems": [
    "C152_bounded",
    "C152_converges",
    "C152_replay",
    "C152_exists"
   ],
   "note": "The network is a table and the optimizer plain gradient descent; convergence is for deterministic processes (for random outcomes a constant learning rate does not converge). The expected updates for random outcomes are C135 and C145."
  },
  {
   "property": "C153",
   "status": "proved",
   "theorems": [
    "C153_entries",
    "C153_bounds",
    "C153_moments",
    "C153_output"
   ],
   "note": "Real numbers; layers whose sizes are not yet known (Chainer initialises them at the first call) and layers without inputs are not covered."
  },
  {
   "property": "C154",
   "status": "partial",
   "theorems": [
    "C154_ask",
    "C154_eof",
    "C154_save",
    "C154_default_violated",
    "C154_collect",
    "C154_branched"
   ],
   "note": "Violated for the default answer: the empty line is not taken as no, the question is asked again (C154_default_violated). Something that is not supported inside a list makes collect_variables raise TypeError, at the top it returns None."
  },
  {
   "property": "C155",
   "status": "proved",
   "theorems": [
    "C155_converges",
    "C155_exists",
    "C155_explores",
    "C155_epsilon_greedy",
    "C155_walk"
   ],
   "note": "A replay buffer that holds one step, a table instead of a neural network, plain gradient descent, the unclipped loss. For every replay order with deterministic outcomes and also the clipped loss see C152."
  },
  {
   "property": "C156",
   "status": "partial",
   "theorems": [
    "C156_unclipped",
    "C156_small",
    "C156_clip_violated"
   ],
   "note": "The clipped loss violates the claim for general rewards (C156_clip_violated). Batches that are random parts of the buffer, neural networks and other optimizers are not covered."
  },
  {
   "property": "C157",
   "status": "partial",
   "theorems": [
    "C157_zero",
    "C157_stationary",
    "C157_gradient",
    "C157_chance_violated"
   ],
   "note": "With chance the claim is violated (C157_chance_violated): the known bias of residual gradients. Recurrent networks are not covered, convergence of the updates is not claimed."
  },
  {
   "property": "C158",
   "status": "partial",
   "theorems": [
    "C158_iteration",
    "C158_rest_violated"
   ],
   "note": "That the training between two copies can always end is violated (C158_rest_violated). With a copy after every update Double DQN is DQN, see C152."
  },
  {
   "property": "C159",
   "status": "partial",
   "theorems": [
    "C159_beta",
    "C159_unbiased",
    "C159_memory",
    "C159_batch_violated",
    "C159_whole",
    "C159_mixed",
    "C159_several_violated"
   ],
   "note": "False for minibatches of several entries (C159_several_violated: two entries with priorities 1 and 3, always both drawn, count 2 and 2/3) and for batch normalization of a single entry (C159_batch_violated). C159_whole gives the weighted mean for a minibatch of everything stored."
  },
  {
   "property": "C160",
   "status": "proved",
   "theorems": [
    "C160_learns",
    "C160_unique",
    "C160_cautious"
   ],
   "note": ""
  },
  {
   "property": "C161",
   "status": "partial",
   "theorems": [
    "C161_accepted",
    "C161_distinct",
    "C161_runs",
    "C161_range",
    "C161_single",
    "C161_overlap",
    "C161_powers",
    "C161_low",
    "C161_violated_overlap",
    "C161_violated_trpo"
   ],
   "note": "Proved where the seed ranges do not meet (C161_distinct, C161_overlap, C161_powers, C161_low); C161_violated_overlap and C161_violated_trpo prove the two defects."
  },
  {
   "property": "C162",
   "status": "proved",
   "theorems": [
    "C162_elapsed",
    "C162_embedded",
    "C162_cast",
    "C162_transpose",
    "C162_image",
    "C162_space",
    "C162_env",
    "C162_movies"
   ],
   "note": ""
  },
  {
   "property": "C163",
   "status": "partial",
   "theorems": [
    "C163_batches",
    "C163_count",
    "C163_beta",
    "C163_gym",
    "C163_atari",
    "C163_violated_atari"
   ],
   "note": "C163_batches, C163_count, C163_beta, C163_gym, C163_atari; C163_violated_atari: with the betasteps of the Atari scripts beta does not reach 1, contrary to their comment."
  },
  {
   "property": "C164",
   "status": "proved",
   "theorems": [
    "C164_train",
    "C164_train_end",
    "C164_train_positive",
    "C164_train_last",
    "C164_train_decreasing",
    "C164_clip_positive",
    "C164_batch",
    "C164_batch_end",
    "C164_async",
    "C164_async_positive",
    "C164_async_decreasing"
   ],
   "note": ""
  },
  {
   "property": "C165",
   "status": "proved",
   "theorems": [
    "C165_weight",
    "C165_converges",
    "C165_walk",
    "C165_epsilon_greedy"
   ],
   "note": ""
  },
  {
   "property": "C166",
   "status": "partial",
   "theorems": [
    "C166_pgt",
    "C166_nstep",
    "C166_violated_offset_nstep",
    "C166_online",
    "C166_violated_offset_online"
   ],
   "note": "Violated for a positive step_offset (C166_violated_offset_nstep, C166_violated_offset_online). A2C has the same defect with train_agent_batch (C124)."
  },
  {
   "property": "C167",
   "status": "partial",
   "theorems": [
    "C167_between",
    "C167_not_above",
    "C167_close",
    "C167_small_discount",
    "C167_fixed",
    "C167_choices",
    "C167_converges",
    "C167_violated_value",
    "C167_violated_choice",
    "C167_loss"
   ],
   "note": "C167_between, C167_not_above, C167_close, C167_small_discount, C167_fixed, C167_converges, C167_choices, C167_loss; C167_violated_value and C167_violated_choice show that it fails with random rewards. Convergence from any start with thresholds drawn anew for every update is proved only for discount factors below 1/3."
  },
  {
   "property": "C168",
   "status": "partial",
   "theorems": [
    "C168_reinforce",
    "C168_a3c",
    "C168_a2c",
    "C168_near_optimal",
    "C168_violated_bonus",
    "C168_violated_hidden",
    "C168_distribution"
   ],
   "note": "C168_reinforce, C168_a3c, C168_a2c, C168_near_optimal, C168_distribution; C168_violated_bonus: beta does not regularise as the documentation suggests; C168_violated_hidden: a rest that is far from optimal when the state hides the time step."
  },
  {
   "property": "C169",
   "status": "partial",
   "theorems": [
    "C169_length",
    "C169_own_history",
    "C169_limited",
    "C169_full",
    "C169_violated_limited",
    "C169_never_terminal"
   ],
   "note": "C169_length, C169_full, C169_own_history, C169_never_terminal; C169_limited says exactly what make_timestep_limited adds; C169_violated_limited: its effect on the learned values."
  },
  {
   "property": "C170",
   "status": "partial",
   "theorems": [
    "C170_length",
    "C170_full",
    "C170_own_history",
    "C170_limited",
    "C170_violated_limited",
    "C170_never_terminal"
   ],
   "note": "C170_length, C170_full, C170_own_history, C170_never_terminal; C170_limited says exactly what make_timestep_limited adds; C170_violated_limited: the false ends it stores. Assumes, as C122, that the vector environment and the agent answer with num_envs values."
  },
  {
   "property": "C171",
   "status": "partial",
   "theorems": [
    "C171_measured",
    "C171_trust_region",
    "C171_first_minibatch",
    "C171_statistics",
    "C171_violated_trust_region",
    "C171_violated_first_minibatch"
   ],
   "note": "C171_measured, C171_trust_region, C171_first_minibatch, C171_statistics; C171_violated_trust_region and C171_violated_first_minibatch for a normalizer that still learns, with its settings in the examples. Networks that are not recurrent; the violations use update_interval 2."
  },
  {
   "property": "C172",
   "status": "partial",
   "theorems": [
    "C172_actor_critic",
    "C172_ppo",
    "C172_violated_ppo_limited",
    "C172_reinforce_starves",
    "C172_reinforce_limited",
    "C172_nstep",
    "C172_pgt"
   ],
   "note": "C172_actor_critic, C172_pgt, C172_ppo, C172_nstep, C172_reinforce_starves, C172_reinforce_limited; C172_violated_ppo_limited."
  },
  {
   "property": "C173",
   "status": "partial",
   "theorems": [
    "C173_actor_critic",
    "C173_violated_actor_critic_limited",
    "C173_ppo",
    "C173_violated_ppo_limited",
    "C173_violated_a2c",
    "C173_violated_a2c_no_value"
   ],
   "note": "The C173_violated_a2c theorems prove the defect of A2C (resets count as ends, a2c.py:252-260 warns about it); the *_limited ones that of `make_timestep_limited`. For A2C the run starts at step 0 (see C124) and GAE is off."
  },
  {
   "property": "C174",
   "status": "partial",
   "theorems": [
    "C174_length",
    "C174_nstep",
    "C174_violated_nstep_limited",
    "C174_online",
    "C174_violated_online_limited"
   ],
   "note": "C174_length, C174_nstep, C174_online; the C174_violated theorems prove the defect of `make_timestep_limited`."
  },
  {
   "property": "C175",
   "status": "proved",
   "theorems": [
    "C175_frame_stack",
    "C175_vector_frame_stack",
    "C175_contents",
    "C175_batch_stays",
    "C175_weights"
   ],
   "note": "C175_frame_stack, C175_vector_frame_stack, C175_contents, C175_batch_stays, C175_weights. Frames and the fields of transitions are values: an environment that changes an array it has returned is not modelled."
  },
  {
   "property": "C176",
   "status": "partial",
   "theorems": [
    "C176_step",
    "C176_legal",
    "C176_ends",
    "C176_score",
    "C176_violated_life",
    "C176_legal_but",
    "C176_legal_life"
   ],
   "note": "C176_legal, C176_ends and C176_score need episode_life=False (as in evaluation); C176_step holds for all options. C176_violated_life: with episode_life a game that ends in the no-op of reset is stepped after it is over (see also C36). C176_legal_but: that is the only way, with all options; C176_legal_life: no frame is out of place with episode_life if no-ops do not end games and there is no limit."
  },
  {
   "property": "C177",
   "status": "proved",
   "theorems": [
    "C177_train",
    "C177_batch",
    "C177_async",
    "C177_buffer",
    "C177_buffer_batch"
   ],
   "note": "C177_train, C177_batch, C177_async, C177_buffer, C177_buffer_batch. What is excepted with episode_life happens: C176_violated_life."
  },
  {
   "property": "C178",
   "status": "proved",
   "theorems": [
    "C178_episodes",
    "C178_steps",
    "C178_batch",
    "C178_batch_steps"
   ],
   "note": "C178_episodes, C178_steps, C178_batch (n_episodes), C178_batch_steps (n_steps)."
  },
  {
   "property": "C179",
   "status": "partial",
   "theorems": [
    "C179_ppo_partial",
    "C179_trpo_partial",
    "C179_pass",
    "C179_violated_ppo",
    "C179_violated_trpo",
    "C179_violated_equal",
    "C179_single_size",
    "C179_vector_size",
    "C179_training",
    "C179_updates_vector",
    "C179_updates_single",
    "C179_run_batch",
    "C179_run",
    "C179_when",
    "C179_run_trpo",
    "C179_run_batch_trpo"
   ],
   "note": "C179_ppo_partial, C179_trpo_partial, C179_pass: whole passes when minibatch_size divides the size (and, with standardized advantages, they are not all equal). C179_single_size, C179_vector_size, C179_training: the size, and what it means for a training run. C179_updates_vector, C179_updates_single: how many updates have been made. C179_run, C179_run_batch, C179_run_trpo, C179_run_batch_trpo: all this at every point of runs of train_agent and train_agent_batch. C179_when: in terms of the parameters. C179_violated_ppo, C179_violated_trpo, C179_violated_equal: the update raises otherwise. Real numbers for advantages: with floats the standard deviation of equal advantages may differ from 0 by rounding."
  },
  {
   "property": "C180",
   "status": "partial",
   "theorems": [
    "C180_violated_lost",
    "C180_report",
    "C180_violated_unreported",
    "C180_violated_interrupted",
    "C180_violated_calls_num_steps",
    "C180_violated_run_num_steps",
    "C180_violated_calls",
    "C180_violated_run",
    "C180_violated_finish",
    "C180_run_entries",
    "C180_batch_run_entries",
    "C180_violated_batch_run"
   ],
   "note": "C180_report: the positive part. C180_violated_unreported, C180_violated_interrupted, C180_violated_lost: the three defects. Real numbers. In C180_violated_lost the exception falls between two selections and enough entries are left for a batch. C180_violated_calls, C180_violated_run, C180_violated_finish: the first defect for any sequence of calls of DDPG, TD3 and SoftActorCritic, and for whole runs of train_agent (num_steps = 1; C180_violated_calls_num_steps, C180_violated_run_num_steps: any num_steps, n - 1 steps later): it is raised within replay_start_size + 2 * update_interval environment steps. C180_violated_batch_run: the same for train_agent_batch. C180_run_entries, C180_batch_run_entries: what is stored in these runs."
  }
 ]
}