{
 "claims": [
  {
   "property": "C01",
   "status": "proved",
   "theorems": [
    "Pfrl.Queue.raq_refines_bounded_list",
    "Pfrl.Queue.raq_new_error_iff"
   ],
   "note": ""
  },
  {
   "property": "C02",
   "status": "proved",
   "theorems": [
    "Pfrl.Queue.raq_keeps_newest",
    "Pfrl.Queue.raq_unbounded_keeps_all",
    "Pfrl.Queue.raq_length_le_maxlen"
   ],
   "note": ""
  },
  {
   "property": "C03",
   "status": "proved",
   "theorems": [
    "Pfrl.Sample.sample_n_k_value_error_iff",
    "Pfrl.Sample.sample_n_k_sound",
    "Pfrl.Sample.sample_n_k_no_other_error",
    "Pfrl.Sample.sample_n_k_progress",
    "Pfrl.Sample.sample_n_k_equivariant",
    "Pfrl.Sample.sample_n_k_first_draws"
   ],
   "note": ""
  },
  {
   "property": "C04",
   "status": "proved",
   "theorems": [
    "Pfrl.Tree.sum_queue_refines_list"
   ],
   "note": ""
  },
  {
   "property": "C05",
   "status": "proved",
   "theorems": [
    "Pfrl.Tree.min_queue_refines_list"
   ],
   "note": ""
  },
  {
   "property": "C06",
   "status": "proved",
   "theorems": [
    "Pfrl.Tree.prioritized_draw_inverse_cdf",
    "Pfrl.Tree.zero_priority_never_drawn",
    "Pfrl.Tree.prioritized_draw_measure"
   ],
   "note": ""
  },
  {
   "property": "C07",
   "status": "proved",
   "theorems": [
    "Pfrl.Tree.prioritized_sample_without_replacement",
    "Pfrl.Tree.uniform_sample_without_replacement"
   ],
   "note": "requires at least n positive priorities; see the example for what happens otherwise"
  },
  {
   "property": "C08",
   "status": "proved",
   "theorems": [
    "Pfrl.PBuf.prioritized_buffer_refines"
   ],
   "note": ""
  },
  {
   "property": "C09",
   "status": "partial",
   "theorems": [
    "Pfrl.PBuf.set_last_priority_updates_sampled_partial",
    "Pfrl.PBuf.set_last_priority_wrong_item"
   ],
   "note": "False of the code when an item is evicted between sample and set_last_priority: set_last_priority_wrong_item is a concrete counterexample. Proved when no eviction happens in between."
  },
  {
   "property": "C10",
   "status": "proved",
   "theorems": [
    "Pfrl.Weights.importance_weights",
    "Pfrl.Weights.importance_weights_unnormalised",
    "Pfrl.Weights.beta_anneals",
    "Pfrl.Weights.beta_constant",
    "Pfrl.Weights.priority_positive"
   ],
   "note": ""
  },
  {
   "property": "C11",
   "status": "proved",
   "theorems": [
    "Pfrl.Replay.replay_buffer_stores_windows",
    "Pfrl.Replay.stored_experience_within_episode",
    "Pfrl.Replay.prioritized_replay_stores_windows"
   ],
   "note": ""
  },
  {
   "property": "C12",
   "status": "proved",
   "theorems": [
    "Pfrl.Replay.replay_buffer_capacity_fifo",
    "Pfrl.Replay.prioritized_replay_stores_windows"
   ],
   "note": ""
  },
  {
   "property": "C13",
   "status": "proved",
   "theorems": [
    "Pfrl.Replay.environments_independent"
   ],
   "note": ""
  },
  {
   "property": "C14",
   "status": "proved",
   "theorems": [
    "Pfrl.Replay.replay_sample_distinct",
    "Pfrl.Episodic.episodic_sample_distinct"
   ],
   "note": ""
  },
  {
   "property": "C15",
   "status": "proved",
   "theorems": [
    "Pfrl.Episodic.episodic_buffer_invariant"
   ],
   "note": ""
  },
  {
   "property": "C16",
   "status": "proved",
   "theorems": [
    "Pfrl.Episodic.sample_episodes_pieces"
   ],
   "note": ""
  },
  {
   "property": "C17",
   "status": "partial",
   "theorems": [
    "Pfrl.Episodic.prioritized_episodic_learning",
    "Pfrl.Episodic.prioritized_episodic_consistent_partial",
    "Pfrl.Episodic.prioritized_episodic_store_mismatch",
    "Pfrl.Episodic.prioritized_episodic_never_fails"
   ],
   "note": "The last part is false of the code: prioritized_episodic_store_mismatch is a concrete history after which the transition store and the stored episodes differ."
  },
  {
   "property": "C18",
   "status": "proved",
   "theorems": [
    "Pfrl.Persist.crash_during_append_recovers"
   ],
   "note": "Process crash at any byte of any write; power loss (un-synced operating system cache) is not modelled."
  },
  {
   "property": "C19",
   "status": "partial",
   "theorems": [
    "Pfrl.Persist.persistent_session_matches_memory_partial",
    "Pfrl.Persist.persistent_extend_iterator_loses",
    "Pfrl.Persist.persistent_set_refused",
    "Pfrl.Persist.persistent_close"
   ],
   "note": "Item assignment raises NotImplementedError and popleft returns None, so the full claim is false of the code; also extend with a one-shot iterator writes the items to disk but not to memory (persistent_extend_iterator_loses). Proved for all other calls."
  },
  {
   "property": "C20",
   "status": "partial",
   "theorems": [
    "Pfrl.Persist.restarts_keep_newest_partial",
    "Pfrl.Persist.restart_after_torn_meta_fails"
   ],
   "note": "False of the code if the very first open crashes while meta.pkl is being written: restart_after_torn_meta_fails. Proved for every other history of sessions and crashes."
  },
  {
   "property": "C21",
   "status": "proved",
   "theorems": [
    "Pfrl.Batch.batch_experiences_n_step",
    "Pfrl.Batch.batch_next_action",
    "Pfrl.Batch.stored_terminal_only_last"
   ],
   "note": "The target equation needs only the last transition of an experience to be terminal, which stored_terminal_only_last proves for everything a replay buffer stores."
  },
  {
   "property": "C22",
   "status": "partial",
   "theorems": [
    "Pfrl.Batch.update_schedule_partial",
    "Pfrl.Batch.update_interval_zero_raises"
   ],
   "note": "False for update_interval=0, which the constructor accepts: update_interval_zero_raises. Proved for every other configuration."
  },
  {
   "property": "C23",
   "status": "proved",
   "theorems": [
    "Pfrl.Categorical.categorical_projection_preserves",
    "Pfrl.Categorical.categorical_projection_eq"
   ],
   "note": ""
  },
  {
   "property": "C24",
   "status": "proved",
   "theorems": [
    "Pfrl.Returns.gae_episodes",
    "Pfrl.Returns.gae_is_discounted_td_sum",
    "Pfrl.Returns.gae_lambda_zero",
    "Pfrl.Returns.gae_lambda_one"
   ],
   "note": ""
  },
  {
   "property": "C25",
   "status": "proved",
   "theorems": [
    "Pfrl.Returns.a2c_returns",
    "Pfrl.Returns.a2c_return_no_leak"
   ],
   "note": ""
  },
  {
   "property": "C26",
   "status": "proved",
   "theorems": [
    "Pfrl.Returns.a3c_returns"
   ],
   "note": ""
  },
  {
   "property": "C27",
   "status": "partial",
   "theorems": [
    "Pfrl.Returns.reinforce_updates_partial",
    "Pfrl.Returns.reinforce_coefficient_iff",
    "Pfrl.Returns.reinforce_wrong_coefficient"
   ],
   "note": "False of the code: the last reward is counted twice and the reward of the action itself is left out (reinforce_wrong_coefficient). Proved: the exact coefficients the code uses, when they agree with the claim, and which episodes enter which update."
  },
  {
   "property": "C28",
   "status": "proved",
   "theorems": [
    "Pfrl.Returns.acer_targets_retrace",
    "Pfrl.Returns.acer_trace",
    "Pfrl.Returns.retrace_n_step",
    "Pfrl.Returns.retrace_one_step",
    "Pfrl.Returns.retrace_fixed_point"
   ],
   "note": ""
  },
  {
   "property": "C29",
   "status": "proved",
   "theorems": [
    "Pfrl.Returns.trust_region_projection"
   ],
   "note": ""
  },
  {
   "property": "C30",
   "status": "proved",
   "theorems": [
    "Pfrl.Ppo.minibatches_fair"
   ],
   "note": ""
  },
  {
   "property": "C31",
   "status": "proved",
   "theorems": [
    "Pfrl.Ppo.limit_sequence_length_pieces",
    "Pfrl.Ppo.subsets_fixed_size",
    "Pfrl.Ppo.limit_sequence_length_rejects"
   ],
   "note": ""
  },
  {
   "property": "C32",
   "status": "proved",
   "theorems": [
    "Pfrl.Ppo.Dataset.datasets_partition_experience"
   ],
   "note": ""
  },
  {
   "property": "C33",
   "status": "proved",
   "theorems": [
    "Pfrl.Recurrent.flatten_time_first_packed",
    "Pfrl.Recurrent.flatten_time_first_rows"
   ],
   "note": ""
  },
  {
   "property": "C34",
   "status": "proved",
   "theorems": [
    "Pfrl.Recurrent.concatenate_get_round_trip",
    "Pfrl.Recurrent.mask_zeroes_exactly",
    "Pfrl.Recurrent.concatenate_mask_get"
   ],
   "note": ""
  },
  {
   "property": "C35",
   "status": "proved",
   "theorems": [
    "Pfrl.Interact.interaction_schedule",
    "Pfrl.Interact.evaluation_changes_nothing",
    "Pfrl.Interact.target_interval_zero_raises"
   ],
   "note": "For a positive target_update_interval; with 0, which the constructor accepts, the first step raises (target_interval_zero_raises)."
  },
  {
   "property": "C36",
   "status": "proved",
   "theorems": [
    "Pfrl.Interact.stored_transitions",
    "Pfrl.Interact.agent_buffer_contents",
    "Pfrl.Interact.interaction_schedule"
   ],
   "note": ""
  },
  {
   "property": "C37",
   "status": "proved",
   "theorems": [
    "Pfrl.Interact.Learner.learner_loop_raises",
    "Pfrl.Interact.Learner.learner_loop_updates",
    "Pfrl.Interact.Learner.learner_loop_complete"
   ],
   "note": ""
  },
  {
   "property": "C38",
   "status": "proved",
   "theorems": [
    "Pfrl.Interact.Actors.actor_transitions_unmixed",
    "Pfrl.Interact.Actors.actor_transitions_arrive",
    "Pfrl.Interact.Actors.actor_sends_experience"
   ],
   "note": ""
  },
  {
   "property": "C39",
   "status": "proved",
   "theorems": [
    "Pfrl.Eval.evaluation_schedule"
   ],
   "note": ""
  },
  {
   "property": "C40",
   "status": "proved",
   "theorems": [
    "Pfrl.Eval.best_agent_saved"
   ],
   "note": ""
  },
  {
   "property": "C41",
   "status": "proved",
   "theorems": [
    "Pfrl.Eval.Async.thresholds_claimed_once",
    "Pfrl.Eval.Async.call_claims_iff",
    "Pfrl.Eval.Async.header_written_once",
    "Pfrl.Eval.Async.shared_best_is_max",
    "Pfrl.Eval.Async.best_can_be_replaced_by_worse"
   ],
   "note": "The shared best is kept in float32: best_can_be_replaced_by_worse shows that a slightly worse agent can therefore replace the best one."
  },
  {
   "property": "C42",
   "status": "proved",
   "theorems": [
    "Pfrl.Train.train_agent_steps",
    "Pfrl.Train.train_agent_saves",
    "Pfrl.Train.train_agent_exception",
    "Pfrl.Train.train_agent_no_exception"
   ],
   "note": ""
  },
  {
   "property": "C43",
   "status": "proved",
   "theorems": [
    "Pfrl.Train.Batch.train_agent_batch_statistics",
    "Pfrl.Train.Batch.train_agent_batch_steps",
    "Pfrl.Train.Batch.train_agent_batch_interaction",
    "Pfrl.Train.Batch.train_agent_batch_exception",
    "Pfrl.Train.Batch.train_agent_batch_terminates"
   ],
   "note": ""
  },
  {
   "property": "C44",
   "status": "proved",
   "theorems": [
    "Pfrl.Train.Async.step_numbers",
    "Pfrl.Train.Async.overshoot",
    "Pfrl.Train.Async.final_model_saved_once",
    "Pfrl.Train.Async.saves_at_most_once",
    "Pfrl.Train.Async.hooks_called_once"
   ],
   "note": ""
  },
  {
   "property": "C45",
   "status": "proved",
   "theorems": [
    "Pfrl.Eval.serial_evaluation_by_episodes",
    "Pfrl.Eval.serial_evaluation_by_steps",
    "Pfrl.Eval.Batch.batch_evaluation_by_episodes",
    "Pfrl.Eval.Batch.batch_evaluation_by_steps",
    "Pfrl.Eval.Batch.batch_evaluation_calls"
   ],
   "note": ""
  },
  {
   "property": "C46",
   "status": "proved",
   "theorems": [
    "Pfrl.Envs.serial_vector_env",
    "Pfrl.Envs.multiprocess_equals_serial",
    "Pfrl.Envs.multiprocess_returns"
   ],
   "note": ""
  },
  {
   "property": "C47",
   "status": "proved",
   "theorems": [
    "Pfrl.Envs.Frames.frame_stack",
    "Pfrl.Envs.Frames.vector_frame_stack"
   ],
   "note": ""
  },
  {
   "property": "C48",
   "status": "proved",
   "theorems": [
    "Pfrl.Envs.Wrap.continuing_time_limit"
   ],
   "note": ""
  },
  {
   "property": "C49",
   "status": "partial",
   "theorems": [
    "Pfrl.Envs.Wrap.episodic_life_partial",
    "Pfrl.Envs.Wrap.episodic_life_misses_game_over"
   ],
   "note": "A game that ends during the no-op step of a reset is not noticed; the witness is proved."
  },
  {
   "property": "C50",
   "status": "proved",
   "theorems": [
    "Pfrl.Numeric.normalize_action_space",
    "Pfrl.Numeric.bound_by_tanh",
    "Pfrl.Numeric.additive_gaussian_in_box",
    "Pfrl.Numeric.ornstein_uhlenbeck"
   ],
   "note": ""
  },
  {
   "property": "C51",
   "status": "proved",
   "theorems": [
    "Pfrl.Numeric.linear_decay",
    "Pfrl.Numeric.linear_decay_zero",
    "Pfrl.Numeric.exponential_decay",
    "Pfrl.Numeric.epsilon_greedy_choice"
   ],
   "note": "With decay_steps = 0 the first step raises ZeroDivisionError (linear_decay_zero)."
  },
  {
   "property": "C52",
   "status": "partial",
   "theorems": [
    "Pfrl.Modes.eval_mode_restored",
    "Pfrl.Modes.evaluating_restores_partial",
    "Pfrl.Modes.evaluating_restores_module",
    "Pfrl.Modes.evaluating_inside",
    "Pfrl.Modes.evaluating_forgets_submodule"
   ],
   "note": "evaluating restores the flag of the module itself but sets all submodules to that flag; evaluating_forgets_submodule is the witness."
  },
  {
   "property": "C53",
   "status": "proved",
   "theorems": [
    "Pfrl.CopyParam.hard_update",
    "Pfrl.CopyParam.soft_updates",
    "Pfrl.CopyParam.soft_update_between"
   ],
   "note": ""
  },
  {
   "property": "C54",
   "status": "proved",
   "theorems": [
    "Pfrl.ClipNorm.clip_grad_norm"
   ],
   "note": ""
  },
  {
   "property": "C55",
   "status": "partial",
   "theorems": [
    "Pfrl.CG.conjugate_gradient_partial",
    "Pfrl.CG.conjugate_gradient_exact",
    "Pfrl.CG.conjugate_gradient_ascent",
    "Pfrl.CG.conjugate_gradient_zero"
   ],
   "note": "Right-hand side zero gives NaN (conjugate_gradient_zero); proved for every other right-hand side."
  },
  {
   "property": "C56",
   "status": "proved",
   "theorems": [
    "Pfrl.EmpNorm.running_statistics",
    "Pfrl.EmpNorm.frozen_after_until",
    "Pfrl.EmpNorm.forward_normalizes",
    "Pfrl.EmpNorm.inverse_undoes_forward"
   ],
   "note": ""
  },
  {
   "property": "C57",
   "status": "partial",
   "theorems": [
    "Pfrl.Value.greedy_discrete",
    "Pfrl.Value.greedy_distributional",
    "Pfrl.Value.quantile_value",
    "Pfrl.Value.expectation_between",
    "Pfrl.Value.greedy_quadratic_partial",
    "Pfrl.Value.greedy_quadratic_not_maximal"
   ],
   "note": "For quadratic values with bounds that cut off mu and a matrix that is not diagonal the claim is false; the witness is proved."
  },
  {
   "property": "C58",
   "status": "proved",
   "theorems": [
    "Pfrl.Value.dueling_identifiable",
    "Pfrl.Value.dueling_distributional"
   ],
   "note": ""
  },
  {
   "property": "C59",
   "status": "proved",
   "theorems": [
    "Pfrl.SaveLoad.save_spec",
    "Pfrl.SaveLoad.tree_acyclic",
    "Pfrl.SaveLoad.save_load_round_trip",
    "Pfrl.SaveLoad.load_loops_on_cycle"
   ],
   "note": "load, unlike save, only checks one level and recurses without end on a longer cycle (load_loops_on_cycle)."
  },
  {
   "property": "C60",
   "status": "proved",
   "theorems": [
    "Pfrl.Trpo.line_search_safe",
    "Pfrl.Trpo.line_search_nan_gain"
   ],
   "note": "line_search_nan_gain shows that the hypothesis of a finite gain is needed."
  },
  {
   "property": "C61",
   "status": "proved",
   "theorems": [
    "Pfrl.Value.td3_delayed_updates",
    "Pfrl.Value.td3_targets"
   ],
   "note": ""
  },
  {
   "property": "C62",
   "status": "partial",
   "theorems": [
    "Pfrl.Value.categorical_double_targets",
    "Pfrl.Value.dqn_targets",
    "Pfrl.Value.double_dqn_targets",
    "Pfrl.Value.sac_targets",
    "Pfrl.Value.td3_targets",
    "Pfrl.Value.ddpg_targets_partial",
    "Pfrl.Value.iqn_targets",
    "Pfrl.Value.categorical_targets",
    "Pfrl.Value.ddpg_target_wrong_discount"
   ],
   "note": "False of DDPG for experiences of several transitions: it multiplies by gamma, not gamma^n (ddpg_target_wrong_discount). Proved for the other agents, and for DDPG with one-step or terminal experiences."
  },
  {
   "property": "C63",
   "status": "proved",
   "theorems": [
    "Pfrl.Value.quantile_huber"
   ],
   "note": ""
  },
  {
   "property": "C64",
   "status": "proved",
   "theorems": [
    "Pfrl.Replay.replay_save_load_round_trip",
    "Pfrl.Replay.replay_load_deque",
    "Pfrl.Episodic.episodic_save_load_round_trip"
   ],
   "note": "Loading of the oldest (list of transitions) episodic file format is not modelled."
  },
  {
   "property": "C65",
   "status": "partial",
   "theorems": [
    "Pfrl.Envs.Wrap.max_and_skip_partial",
    "Pfrl.Envs.Wrap.max_and_skip_stale_frame",
    "Pfrl.Envs.Wrap.noop_reset"
   ],
   "note": "The observation is stale if the skipping stops early; the witness is proved."
  },
  {
   "property": "C66",
   "status": "partial",
   "theorems": [
    "Pfrl.Persist.open_from_ancestor_partial",
    "Pfrl.Persist.ancestor_newest_lost",
    "Pfrl.Persist.ancestor_unbounded_raises",
    "Pfrl.Persist.ancestor_missing_raises"
   ],
   "note": "False of the code: a lineage of depth two that does not fit loses its newest items (ancestor_newest_lost), and maxlen=None raises TypeError (ancestor_unbounded_raises). Proved when the direct ancestor has no ancestor, or alone holds maxlen items, or the lineage fits."
  },
  {
   "property": "C67",
   "status": "partial",
   "theorems": [
    "Pfrl.Returns.a2c_returns",
    "Pfrl.Returns.a2c_step_offset_fails"
   ],
   "note": "False of the code for every non-zero offset: the first action raises AttributeError (a2c_step_offset_fails). a2c_returns covers offset 0."
  },
  {
   "property": "C68",
   "status": "proved",
   "theorems": [
    "Pfrl.Returns.acer_bias_correction_exact",
    "Pfrl.Returns.acer_weights_bounded",
    "Pfrl.Returns.sample_correction_matches_full"
   ],
   "note": ""
  },
  {
   "property": "C69",
   "status": "partial",
   "theorems": [
    "Pfrl.Envs.Wrap.fire_reset_partial",
    "Pfrl.Envs.Wrap.fire_reset_stale_observation"
   ],
   "note": "The observation belongs to the episode that ended if the second step ends it; the witness is proved."
  },
  {
   "property": "C70",
   "status": "partial",
   "theorems": [
    "Pfrl.EmpNorm.load_restores_partial",
    "Pfrl.EmpNorm.load_keeps_stale_scale"
   ],
   "note": "A module that has normalised something before keeps its cached scale after load_state_dict; the witness is proved."
  },
  {
   "property": "C71",
   "status": "proved",
   "theorems": [
    "Pfrl.Value.naf_matrix",
    "Pfrl.Value.naf_greedy",
    "Pfrl.Value.naf_unscaled"
   ],
   "note": ""
  },
  {
   "property": "C72",
   "status": "partial",
   "theorems": [
    "Pfrl.Value.advantage_learning_partial",
    "Pfrl.Value.pal_target_uses_terminal_state",
    "Pfrl.Value.double_pal_partial"
   ],
   "note": "PAL's target of a terminal transition depends on the next state (pal_target_uses_terminal_state); everything else is proved."
  },
  {
   "property": "C73",
   "status": "proved",
   "theorems": [
    "Pfrl.Value.dpp_targets",
    "Pfrl.Value.dpp_operators"
   ],
   "note": ""
  },
  {
   "property": "C74",
   "status": "proved",
   "theorems": [
    "Pfrl.Trpo.kl_constrained_step"
   ],
   "note": ""
  },
  {
   "property": "C75",
   "status": "partial",
   "theorems": [
    "Pfrl.Interact.Recurrent.recurrent_acting",
    "Pfrl.Interact.Recurrent.recurrent_states_stored",
    "Pfrl.Interact.Recurrent.evaluation_starts_fresh_partial",
    "Pfrl.Interact.Recurrent.serial_step_evaluation_leaves_state"
   ],
   "note": "An evaluation by steps with one environment ends in mid-episode without observing a reset, so the next evaluation continues in the old recurrent state; the witness is proved."
  },
  {
   "property": "C76",
   "status": "proved",
   "theorems": [
    "Pfrl.Recurrent.sequential_is_machine",
    "Pfrl.Recurrent.branched_is_machine",
    "Pfrl.Recurrent.one_step_forward_spec",
    "Pfrl.Recurrent.pack_and_forward_spec",
    "Pfrl.Recurrent.sequences_agree_with_steps",
    "Pfrl.Recurrent.cell_is_machine",
    "Pfrl.Recurrent.rowLayer_is_rowwise"
   ],
   "note": "torch's recurrent layers are assumed to be machines on packed sequences; cell_is_machine shows a cell looped over a packed sequence is one."
  },
  {
   "property": "C77",
   "status": "proved",
   "theorems": [
    "Pfrl.Recurrent.recurrent_batch_aligned",
    "Pfrl.Recurrent.unsorted_refused"
   ],
   "note": ""
  },
  {
   "property": "C78",
   "status": "partial",
   "theorems": [
    "Pfrl.Pretrained.cached_files_whole",
    "Pfrl.Pretrained.cached_download_returns",
    "Pfrl.Pretrained.stored_once",
    "Pfrl.Pretrained.store_returns",
    "Pfrl.Pretrained.stored_model_complete_partial",
    "Pfrl.Pretrained.interrupted_extraction_never_repaired"
   ],
   "note": "The last clause is false if a process dies or fails between os.rename and the end of extractall: the archive is then taken as proof of a complete model for ever (interrupted_extraction_never_repaired). Everything else is proved for all interleavings and crash points."
  },
  {
   "property": "C79",
   "status": "proved",
   "theorems": [
    "Pfrl.OutputDir.backup_before_overwrite",
    "Pfrl.OutputDir.other_files_untouched",
    "Pfrl.OutputDir.prepared"
   ],
   "note": ""
  },
  {
   "property": "C80",
   "status": "proved",
   "theorems": [
    "Pfrl.Persist.persistent_replay_contents",
    "Pfrl.Persist.persistent_replay_crash"
   ],
   "note": "num_steps is 1 in PersistentReplayBuffer. Without ancestor (C66) and not distributed. Sizes of pickles and of the history below 2^64 are assumed for success, as the format requires."
  },
  {
   "property": "C81",
   "status": "partial",
   "theorems": [
    "Pfrl.Persist.persistent_episodic_contents",
    "Pfrl.Persist.persistent_episodic_crash",
    "Pfrl.Persist.persistent_episodic_consistent_partial",
    "Pfrl.Persist.persistent_episodic_inconsistent"
   ],
   "note": "The exact contents of both stores, in use and after a crash, are proved. The agreement of the two stores holds without capacity only: with a capacity both queues are cut independently (the eviction loop is unreachable), and a witness is proved."
  },
  {
   "property": "C82",
   "status": "proved",
   "theorems": [
    "Pfrl.RMSprop.rmsprop_never_fails",
    "Pfrl.RMSprop.rmsprop_step_bounded",
    "Pfrl.RMSprop.rmsprop_update",
    "Pfrl.RMSprop.shared_rmsprop_same"
   ],
   "note": "Exact real arithmetic."
  },
  {
   "property": "C83",
   "status": "proved",
   "theorems": [
    "Pfrl.Ppo.Loss.ppo_loss_pessimistic",
    "Pfrl.Ppo.Loss.ppo_policy_gradient",
    "Pfrl.Ppo.Loss.ppo_value_gradient"
   ],
   "note": "Exact reals; gradients are derivatives of the loss as a function of one entry."
  },
  {
   "property": "C84",
   "status": "partial",
   "theorems": [
    "Pfrl.Ppo.Loss.ppo_standardized_advantages",
    "Pfrl.Ppo.Loss.ppo_standardized_shift",
    "Pfrl.Ppo.Loss.ppo_recurrent_standardized_partial",
    "Pfrl.Ppo.Loss.ppo_recurrent_equal_advantages_fail"
   ],
   "note": "Proved in full for feed-forward PPO. Recurrent PPO asserts a positive standard deviation: the update fails whenever all advantages are equal (for instance a data set with one transition), which is proved; the partial theorem assumes they are not."
  },
  {
   "property": "C85",
   "status": "proved",
   "theorems": [
    "Pfrl.Value.Loss.unit_weights",
    "Pfrl.Value.Loss.weighted_loss_gradient",
    "Pfrl.Value.Loss.iqn_loss_gradient",
    "Pfrl.Value.Loss.errors_per_experience",
    "Pfrl.Value.Loss.categorical_loss_optimal"
   ],
   "note": "Exact reals; rows of the batch with common numbers of quantiles."
  },
  {
   "property": "C86",
   "status": "proved",
   "theorems": [
    "Pfrl.Weights.Training.prioritized_training"
   ],
   "note": "Composition of the models of PrioritizedBuffer (C08), the weights (C10) and DQN's loss (C85). Exact reals; error_min must be set and non-negative and eps positive, as in the defaults."
  },
  {
   "property": "C87",
   "status": "partial",
   "theorems": [
    "Pfrl.Results.crash_keeps_results",
    "Pfrl.Results.best_agent_after_crash_partial",
    "Pfrl.Results.best_torn_by_crash",
    "Pfrl.Results.restart_truncates_scores",
    "Pfrl.Results.restart_forgets_best"
   ],
   "note": "Scores and stamped agents are proved in full for every crash point. The best agent is proved for crashes that do not hit the overwriting of best itself: that one is not atomic, and it is proved that a crash then leaves an empty file. A restart truncates scores.txt and replaces best by the first agent evaluated, both proved."
  },
  {
   "property": "C88",
   "status": "proved",
   "theorems": [
    "Pfrl.Stochastic.boltzmann_probability",
    "Pfrl.Stochastic.boltzmann_limits",
    "Pfrl.Stochastic.boltzmann_batch_fails",
    "Pfrl.Stochastic.randomize_action_probability",
    "Pfrl.Stochastic.randomize_action_valid"
   ],
   "note": "Random generators are taken to be uniform on [0, 1). Boltzmann exploration works for one state at a time and a temperature other than zero; that it raises for batches is proved, too."
  },
  {
   "property": "C89",
   "status": "proved",
   "theorems": [
    "Pfrl.Stochastic.linear_interpolation"
   ],
   "note": "np.interp with two increasing points."
  },
  {
   "property": "C90",
   "status": "proved",
   "theorems": [
    "Pfrl.Gradients.one_net_gradients",
    "Pfrl.Gradients.ddpg_gradients",
    "Pfrl.Gradients.td3_gradients",
    "Pfrl.Gradients.sac_gradients",
    "Pfrl.Gradients.async_gradients",
    "Pfrl.Gradients.reinforce_gradients"
   ],
   "note": "Refinement of the .grad bookkeeping to gradient descent without it. A network is one value; optimizer.step() and a copy of the parameters are atomic in the asynchronous case."
  },
  {
   "property": "C91",
   "status": "proved",
   "theorems": [
    "Pfrl.Segments.a3c_test_state",
    "Pfrl.Segments.a3c_updates",
    "Pfrl.Segments.a3c_segments"
   ],
   "note": "Dictionaries keyed by the step counter, with KeyError."
  },
  {
   "property": "C92",
   "status": "proved",
   "theorems": [
    "Pfrl.AcerSegments.acer_calls",
    "Pfrl.AcerSegments.acer_stores",
    "Pfrl.AcerSegments.acer_online",
    "Pfrl.AcerSegments.acer_on_policy",
    "Pfrl.AcerSegments.acer_replays"
   ],
   "note": "Whether the buffer is large enough is an arbitrary function of the calls so far."
  },
  {
   "property": "C93",
   "status": "proved",
   "theorems": [
    "Pfrl.Temperature.temperature_fixed",
    "Pfrl.Temperature.temperature_positive",
    "Pfrl.Temperature.temperature_direction",
    "Pfrl.Temperature.temperature_rate",
    "Pfrl.Temperature.hasDerivAt_loss"
   ],
   "note": "Adam with its default betas in real arithmetic. temperature_momentum shows why the direction needs the whole history: right after a change of sign an update can still go the old way."
  },
  {
   "property": "C94",
   "status": "proved",
   "theorems": [
    "Pfrl.Burnin.burnin_source",
    "Pfrl.Burnin.burnin_until",
    "Pfrl.Burnin.burnin_not_in_evaluation"
   ],
   "note": "burnin_after_load and burnin_forever are two surprises: counters are not saved, and a buffer smaller than the replay start size means burn-in forever."
  },
  {
   "property": "C95",
   "status": "proved",
   "theorems": [
    "Pfrl.Envs.Modifiers.timestep_limited",
    "Pfrl.Envs.Modifiers.action_repeated",
    "Pfrl.Envs.Modifiers.reward_clipped",
    "Pfrl.Envs.Modifiers.filtered",
    "Pfrl.Envs.Modifiers.limit_counts_frames",
    "Pfrl.Envs.Modifiers.limit_counts_decisions"
   ],
   "note": "n_times = 0 raises at every step: action_repeated_zero. make_rendered is not modelled."
  },
  {
   "property": "C96",
   "status": "partial",
   "theorems": [
    "Pfrl.RewardFilter.average_filter",
    "Pfrl.RewardFilter.normalized_filter_partial",
    "Pfrl.RewardFilter.normalized_filter_bound",
    "Pfrl.RewardFilter.normalized_filter_first",
    "Pfrl.RewardFilter.normalized_filter_raises"
   ],
   "note": "The full claim is false: min(var, eps) instead of max makes the filter raise exactly while all rewards have been zero. Real arithmetic."
  },
  {
   "property": "C97",
   "status": "proved",
   "theorems": [
    "Pfrl.NoisyLinear.noisy_mean",
    "Pfrl.NoisyLinear.noisy_covariance"
   ],
   "note": "Product of standard Gaussian measures; integrability included."
  },
  {
   "property": "C98",
   "status": "partial",
   "theorems": [
    "Pfrl.NoisyChain.call_noisy_iff",
    "Pfrl.NoisyChain.to_noisy_callable_partial",
    "Pfrl.NoisyChain.to_noisy_partial",
    "Pfrl.NoisyChain.noisy_shared_layer",
    "Pfrl.NoisyChain.noisy_shared_untied",
    "Pfrl.NoisyChain.noisy_shared_container",
    "Pfrl.NoisyChain.noisy_twice",
    "Pfrl.NoisyChain.noisy_root_linear"
   ],
   "note": "Proved for networks in which no module is registered twice. With sharing the claim is false (three witnesses), and a second conversion breaks the layers."
  },
  {
   "property": "C99",
   "status": "partial",
   "theorems": [
    "Pfrl.Envs.Lifecycle.processes_serial",
    "Pfrl.Envs.Lifecycle.processes_deterministic",
    "Pfrl.Envs.Lifecycle.processes_progress_partial",
    "Pfrl.Envs.Lifecycle.processes_bounded",
    "Pfrl.Envs.Lifecycle.processes_bound_step",
    "Pfrl.Envs.Lifecycle.processes_close",
    "Pfrl.Envs.Lifecycle.processes_close_once",
    "Pfrl.Envs.Lifecycle.processes_failure_hangs",
    "Pfrl.Envs.Lifecycle.processes_fewer_actions_hang"
   ],
   "note": "Serial equivalence, determinism and closing are proved for all environments and schedules. That every call returns is proved when no environment raises and step gets one action per environment; without these it is false, with witnesses processes_failure_hangs and processes_fewer_actions_hang."
  },
  {
   "property": "C100",
   "status": "partial",
   "theorems": [
    "Pfrl.Weights.Unbiased.prioritized_unbiased_partial",
    "Pfrl.Weights.Unbiased.prioritized_batch_normalised",
    "Pfrl.Weights.Unbiased.prioritized_minibatch_biased"
   ],
   "note": "Proved for minibatches of one with normalisation off or over the memory. With normalisation in the minibatch (the default) a single draw is not corrected at all, and minibatches of two or more are biased because they are drawn without replacement: a witness in which the loss is the same wrong number for all random numbers."
  },
  {
   "property": "C101",
   "status": "partial",
   "theorems": [
    "Pfrl.Returns.PG.a3c_policy_gradient_partial",
    "Pfrl.Returns.PG.a3c_gradient_per_step",
    "Pfrl.Returns.PG.a2c_gradient_per_step",
    "Pfrl.Returns.PG.a3c_discounted_wrong_direction",
    "Pfrl.Returns.PG.a3c_scaled_wrong_direction",
    "Pfrl.Returns.PG.reinforce_first_reward_ignored",
    "Pfrl.Returns.PG.reinforce_learns_nothing"
   ],
   "note": "Proved for A3C without discounting and with the default loss scaling; with discounting the exact per-step formula is proved for A3C and A2C. The full claim is false: witnesses where A3C's expected update decreases the discounted return, where keep_loss_scale_same does so, and where REINFORCE's update is always zero. A2C with GAE is not covered."
  },
  {
   "property": "C102",
   "status": "proved",
   "theorems": [
    "Pfrl.Eval.Stats.statistics_relations",
    "Pfrl.Eval.Stats.statistics_perm",
    "Pfrl.Eval.Stats.eval_performance_serial",
    "Pfrl.Eval.Stats.eval_performance_serial_steps",
    "Pfrl.Eval.Stats.eval_performance_batch",
    "Pfrl.Eval.Stats.eval_performance_batch_steps",
    "Pfrl.Eval.Stats.eval_performance_zero_episodes"
   ],
   "note": "For goals of at least one episode or step. eval_performance_zero_episodes records that a goal of zero episodes makes the serial evaluation report one unfinished episode and the batch evaluation raise."
  },
  {
   "property": "C103",
   "status": "proved",
   "theorems": [
    "Pfrl.Envs.ABC.abc_episode",
    "Pfrl.Envs.ABC.abc_return",
    "Pfrl.Envs.ABC.abc_nonepisodic",
    "Pfrl.Envs.ABC.abc_policy_return",
    "Pfrl.Envs.ABC.abc_memoryless_fails",
    "Pfrl.Envs.ABC.abc_memory_suffices",
    "Pfrl.Envs.ABC.abc_shifts",
    "Pfrl.Envs.ABC.abc_inner_action",
    "Pfrl.Envs.ABC.abc_clipping_ties",
    "Pfrl.Envs.ABC.abc_stochastic_optimum",
    "Pfrl.Envs.ABC.abc_after_end"
   ],
   "note": "Softmax and clipping over the reals. The documentation's 'n-th episode is not shifted if n is odd' holds if episodes are counted from zero."
  },
  {
   "property": "C104",
   "status": "partial",
   "theorems": [
    "Pfrl.Returns.PG.a3c_critic_partial",
    "Pfrl.Returns.PG.a3c_critic_exact_partial",
    "Pfrl.Returns.PG.a2c_critic_partial",
    "Pfrl.Returns.PG.a2c_critic_exact_partial",
    "Pfrl.Returns.PG.gae_critic",
    "Pfrl.Returns.PG.acer_critic_partial",
    "Pfrl.Returns.PG.values_unique",
    "Pfrl.Returns.PG.a3c_critic_normalized_biased",
    "Pfrl.Returns.PG.a3c_critic_scaled_biased",
    "Pfrl.Returns.PG.acer_critic_normalized_biased",
    "Pfrl.Returns.PG.a2c_critic_time_limit_biased"
   ],
   "note": "Full claim false: dividing the loss by the length of the segment (A3C normalize_grad_by_t_max and keep_loss_scale_same, ACER normalize_loss_by_steps, on by default) makes exact values drift, and A2C treats time limits as terminations; each has a witness. Proved without these options, A2C for environments without time limits, ACER for discrete actions and segments that begin independently of what follows."
  },
  {
   "property": "C105",
   "status": "partial",
   "theorems": [
    "Pfrl.Value.Iteration.dqn_iteration_partial",
    "Pfrl.Value.Iteration.double_dqn_close",
    "Pfrl.Value.Iteration.advantage_learning_optimal",
    "Pfrl.Value.Iteration.persistent_advantage_learning_optimal",
    "Pfrl.Value.Iteration.dpp_greedy_is_al",
    "Pfrl.Value.Iteration.dppl_optimal",
    "Pfrl.Value.Iteration.dpp_optimal",
    "Pfrl.Value.Iteration.dpp_loss",
    "Pfrl.Value.Iteration.dppl_loss",
    "Pfrl.Value.Iteration.dpp_greedy_loss",
    "Pfrl.Value.Iteration.optimal_exists",
    "Pfrl.Value.Iteration.optimal_best",
    "Pfrl.Value.Iteration.greedy_loss",
    "Pfrl.Value.Iteration.greedy_optimal",
    "Pfrl.Value.Iteration.n_step_contracts",
    "Pfrl.Value.Iteration.n_step_underestimates",
    "Pfrl.Value.Iteration.n_step_wrong",
    "Pfrl.Value.Iteration.al_alpha_too_large"
   ],
   "note": "Full claim false for replay buffers with num_steps > 1: the targets follow the behaviour policy without correction; exact fits then prefer a worse action (witness), although they contract, never overestimate and are right when the behaviour is optimal. Proved for one-step experiences. dpp_loss, dppl_loss and dpp_greedy_loss also cover inexact fits: the loss of acting greedily after N generations is bounded by a constant plus the largest sum of errors, divided by N + 1."
  },
  {
   "property": "C106",
   "status": "partial",
   "theorems": [
    "Pfrl.Value.Soft.sac_policy_loss",
    "Pfrl.Value.Soft.soft_values_return",
    "Pfrl.Value.Soft.soft_values_exist",
    "Pfrl.Value.Soft.sac_critics_partial",
    "Pfrl.Value.Soft.sac_policy_improves",
    "Pfrl.Value.Soft.sac_policy_iteration",
    "Pfrl.Value.Soft.sac_control_partial",
    "Pfrl.Value.Soft.sac_two_steps_wrong"
   ],
   "note": "Full claim false for replay buffers with num_steps > 1: the entropies of the states between the first and the last are left out of the target, so that the critics settle elsewhere (witness). Proved for one-step experiences; updates of policy and critics in turn are covered for soft_update_tau = 1 only, a fixed policy for every tau."
  },
  {
   "property": "C107",
   "status": "partial",
   "theorems": [
    "Pfrl.Value.Dist.categorical_fit",
    "Pfrl.Value.Dist.categorical_values",
    "Pfrl.Value.Dist.categorical_distributions",
    "Pfrl.Value.Dist.categorical_distributions_need_gap"
   ],
   "note": "The convergence of the probabilities is proved for environments in which every state has one best action; with ties it fails (witness with four states in which a probability alternates for ever although all values are optimal). The rest is proved in full."
  },
  {
   "property": "C108",
   "status": "partial",
   "theorems": [
    "Pfrl.Policies.mode_most_probable_partial",
    "Pfrl.Policies.mode_squashed",
    "Pfrl.Policies.mode_squashed_wrong",
    "Pfrl.Policies.mode_categorical",
    "Pfrl.Policies.diagonal_head",
    "Pfrl.Policies.diagonal_head_three",
    "Pfrl.Policies.other_gaussian_heads",
    "Pfrl.Policies.softplus_admissible",
    "Pfrl.Policies.deterministic_head_unsupported"
   ],
   "note": "Proved for categorical and Gaussian policies (also correlated, and rescaled). For a Gaussian squashed by tanh it is proved false unless the mean is zero and every scale is at most 1/sqrt 2, and for DeterministicHead the agents raise. The heads are proved to return what they document for inputs of the documented size; the diagonal head silently accepts a vector of length 3."
  },
  {
   "property": "C109",
   "status": "proved",
   "theorems": [
    "Pfrl.Networks.mlp_rows",
    "Pfrl.Networks.mlp_init",
    "Pfrl.Networks.mlp_wrong_size",
    "Pfrl.Networks.state_action_rows",
    "Pfrl.Networks.mlpbn_rows",
    "Pfrl.Networks.mlpbn_training_mixes",
    "Pfrl.Networks.distributional_rows",
    "Pfrl.Networks.cosine_rows",
    "Pfrl.Networks.iqn_rows",
    "Pfrl.Networks.atari_cnn_rows",
    "Pfrl.Networks.batch_states_rows",
    "Pfrl.Networks.batch_states_raises"
   ],
   "note": "For layers whose sizes fit, which the constructor guarantees. In training mode batch normalisation mixes rows (mlpbn_training_mixes), as documented. The Atari networks accept squares of 84 to 91 pixels; batch_states raises on dictionaries, nested tuples and the empty list."
  },
  {
   "property": "C110",
   "status": "proved",
   "theorems": [
    "Pfrl.Networks.init_scale",
    "Pfrl.Networks.init_scale_relu"
   ],
   "note": "Draws are independent standard normal variables. Bounded nonlinearities such as tanh are not covered: they have no fixed factor."
  },
  {
   "property": "C111",
   "status": "partial",
   "theorems": [
    "Pfrl.Envs.Atari.atari_calls",
    "Pfrl.Envs.Atari.atari_not_started",
    "Pfrl.Envs.Atari.atari_step",
    "Pfrl.Envs.Atari.atari_reset",
    "Pfrl.Envs.Atari.atari_limit_partial",
    "Pfrl.Envs.Atari.atari_limit_exceeded"
   ],
   "note": "Steps and resets are proved for all histories. The limit is proved with one frame more than max_frames, and atari_limit_exceeded shows that this frame is played: the no-op after a lost life may reach the limit unnoticed. Resets with fire_reset are covered only by the limit; flicker is not modelled."
  },
  {
   "property": "C112",
   "status": "proved",
   "theorems": [
    "Pfrl.Train.WithEval.training_sequence",
    "Pfrl.Train.WithEval.evaluation_faithful",
    "Pfrl.Train.WithEval.training_intact",
    "Pfrl.Train.WithEval.evaluations_recorded",
    "Pfrl.Train.WithEval.hook_stops_training",
    "Pfrl.Train.WithEval.evaluation_invisible",
    "Pfrl.Train.WithEval.unsupported_hooks",
    "Pfrl.Train.WithEval.unsupported_hooks_raise",
    "Pfrl.Train.WithEval.optuna_pruning"
   ],
   "note": "The environments, the agent and the hooks are arbitrary state machines; hooks do not act on the environment or the agent. Step hooks and the log are in C42."
  },
  {
   "property": "C113",
   "status": "partial",
   "theorems": [
    "Pfrl.Train.BatchWithEval.batch_training_intact_partial",
    "Pfrl.Train.BatchWithEval.batch_training_calls",
    "Pfrl.Train.BatchWithEval.batch_evaluation_invisible",
    "Pfrl.Train.BatchWithEval.batch_training_disturbed"
   ],
   "note": "Proved if eval_env is given. batch_training_disturbed shows that the claim is false for the default eval_env=None: an evaluation in the middle of the training episodes leaves the environments at the ends of its own, and the training goes on from there."
  },
  {
   "property": "C114",
   "status": "partial",
   "theorems": [
    "Pfrl.Train.Tensorboard.tb_returns",
    "Pfrl.Train.Tensorboard.tb_records_in_order",
    "Pfrl.Train.Tensorboard.tb_all_written_partial",
    "Pfrl.Train.Tensorboard.tb_written_before_stop",
    "Pfrl.Train.Tensorboard.tb_writer_ends",
    "Pfrl.Train.Tensorboard.tb_record_lost"
   ],
   "note": "Order and uniqueness hold always, completeness if no worker reaches successful_score. tb_record_lost shows a schedule in which a worker reaches it, the thread ends, and the record of another worker is lost. Processes killed by signals are not modelled."
  },
  {
   "property": "C115",
   "status": "proved",
   "theorems": [
    "Pfrl.Train.Replayed.buffer_holds_trajectory"
   ],
   "note": "Composes the models of C112, C35/C36 and C11/C12. For trainings in which the agent raises no exception; n_steps and capacity as in C11. The random numbers used by updates are a part of the updater's state and not shared with those of exploration."
  },
  {
   "property": "C116",
   "status": "proved",
   "theorems": [
    "Pfrl.Trpo.Update.hessian_is_fisher_categorical",
    "Pfrl.Trpo.Update.hessian_is_fisher_gaussian",
    "Pfrl.Trpo.Update.categorical_heads",
    "Pfrl.Trpo.Update.normal_heads",
    "Pfrl.Trpo.Update.divergence_quadratic",
    "Pfrl.Trpo.Update.gain_gradient",
    "Pfrl.Trpo.Update.trpo_update"
   ],
   "note": "torch.autograd.grad is taken to be the gradient; exact numbers. Feed-forward policies; networks must be twice continuously differentiable in their parameters (not ReLU)."
  },
  {
   "property": "C117",
   "status": "proved",
   "theorems": [
    "Pfrl.Envs.Monitor.monitor_episodes",
    "Pfrl.Envs.Monitor.monitor_refuses"
   ],
   "note": "gym's StatsRecorder is modelled from its published source: it is not in the repository. Times, files and videos are not modelled."
  },
  {
   "property": "C118",
   "status": "partial",
   "theorems": [
    "Pfrl.Train.Failure.actor_failure_hangs",
    "Pfrl.Train.Failure.poller_ends",
    "Pfrl.Train.Failure.failure_terminates_partial"
   ],
   "note": "The code violates it for actor-learner training, the only producer of exception events: the poller stops answering once the event is set, and process 0 asks the poller to save before it kills the processes, so that it waits for ever and the agent is never saved (actor_failure_hangs, for every schedule). For agents that save by themselves it holds (failure_terminates_partial)."
  },
  {
   "property": "C119",
   "status": "partial",
   "theorems": [
    "Pfrl.Ppo.Update.ppo_dataset_faithful",
    "Pfrl.Ppo.Update.ppo_values_consecutive",
    "Pfrl.Ppo.Update.ppo_advantages",
    "Pfrl.Ppo.Update.ppo_first_step_on_policy_partial",
    "Pfrl.Ppo.Update.ppo_normalizer_off_policy"
   ],
   "note": "The code violates it with an observation normaliser that learns: the update feeds the states to the normaliser before the minibatches, while the log-probabilities were computed before, so that the first gradient is not on-policy and can be 0 by clipping (ppo_normalizer_off_policy). Without, it is proved. The sequence-by-sequence run of recurrent models rests on C77. Networks differentiable at the parameters are assumed."
  },
  {
   "property": "C120",
   "status": "partial",
   "theorems": [
    "Pfrl.Train.BatchReplayed.batch_buffer_holds_trajectories_partial",
    "Pfrl.Train.BatchReplayed.batch_buffer_corrupted"
   ],
   "note": "The code violates it with the default eval_env=None, where evaluations step the environments of the training without the agent's n-step windows being cut (batch_buffer_corrupted). With evaluation environments of their own, or no evaluator, it is proved. For trainings in which the agent raises no exception. Networks, updates and exploration are parameters."
  },
  {
   "property": "C121",
   "status": "partial",
   "theorems": [
    "Pfrl.Agents.Statistics.dqn_statistics",
    "Pfrl.Agents.Statistics.ddpg_statistics",
    "Pfrl.Agents.Statistics.td3_statistics",
    "Pfrl.Agents.Statistics.sac_statistics",
    "Pfrl.Agents.Statistics.ppo_statistics",
    "Pfrl.Agents.Statistics.trpo_statistics",
    "Pfrl.Agents.Statistics.trpo_reported_kl",
    "Pfrl.Agents.Statistics.reports_bounds",
    "Pfrl.Agents.Statistics.explained_variance",
    "Pfrl.Agents.Statistics.ema_fading",
    "Pfrl.Agents.Statistics.actor_critic_statistics",
    "Pfrl.Agents.Statistics.a2c_statistics",
    "Pfrl.Agents.Statistics.ema_underestimates",
    "Pfrl.Agents.Statistics.a2c_average_value_wrong"
   ],
   "note": "The code violates it for A2C, A3C, ACER and REINFORCE, whose exponential averages start at 0 and are not corrected (ema_underestimates), and for A2C's average_value, which is the average loss of the value function (a2c_average_value_wrong). For DQN, DDPG, TD3, SAC, PPO and TRPO it is proved. What is recorded is a parameter: predictions, losses and entropies; IQN records the action values of all actions instead of the chosen ones."
  },
  {
   "property": "C122",
   "status": "partial",
   "theorems": [
    "Pfrl.Interact.Snapshot.snapshot_resume_partial",
    "Pfrl.Interact.Snapshot.snapshot_resume_any",
    "Pfrl.Interact.Snapshot.snapshot_loses_window",
    "Pfrl.Interact.Snapshot.snapshot_restarts_beta"
   ],
   "note": "Proved for snapshots taken while no episode is running, with a ReplayBuffer. The code violates it otherwise: the transitions still waiting for their n-step window are not saved (snapshot_resume_any says exactly what the buffer then holds, snapshot_loses_window is a witness), and a prioritized buffer starts again from beta0 (snapshot_restarts_beta). What updates compute is a parameter; files are trusted to give back what was written."
  },
  {
   "property": "C123",
   "status": "proved",
   "theorems": [
    "Pfrl.Numeric.Noise.ou_stationary",
    "Pfrl.Numeric.Noise.ou_from_mu",
    "Pfrl.Numeric.Noise.ou_shared_by_environments",
    "Pfrl.Numeric.Noise.gaussian_action_law"
   ],
   "note": "The generator is assumed to give independent standard normal numbers (generator_exists shows that such a generator exists); np.random.normal(loc, scale) is loc + scale times such a number; numbers are exact. The state of AdditiveOU is shared by the environments of a batch and not reset between episodes: ou_shared_by_environments says what that means for the correlations."
  },
  {
   "property": "C124",
   "status": "partial",
   "theorems": [
    "Pfrl.Agents.AcerUpdate.acer_expected_update",
    "Pfrl.Agents.AcerUpdate.acer_expected_update_on_policy",
    "Pfrl.Agents.AcerUpdate.acer_trust_region_partial",
    "Pfrl.Agents.AcerUpdate.acer_trust_region_blind",
    "Pfrl.Agents.AcerUpdate.acer_trust_region_leaves",
    "Pfrl.Agents.AcerUpdate.acer_head_unbiased"
   ],
   "note": "Everything but the bound on the KL divergence is proved. That bound is false of the code: the constraint is imposed on the gradient with respect to the normalised logits, where the gradient of the KL divergence is the probabilities of the average policy and has no negative coordinate, so that an on-policy update with a non-negative advantage is never constrained (acer_trust_region_blind) and a step on the outputs of the network can raise the divergence at any rate (acer_trust_region_leaves). Automatic differentiation is trusted to compute derivatives; Gaussian policies are covered for the head only."
  },
  {
   "property": "C125",
   "status": "partial",
   "theorems": [
    "Pfrl.Files.ExpId.exp_id_components_partial",
    "Pfrl.Files.ExpId.exp_id_small_change",
    "Pfrl.Files.ExpId.exp_id_characters",
    "Pfrl.Files.ExpId.exp_id_collision",
    "Pfrl.Files.ExpId.directory_ignores_argv"
   ],
   "note": "Proved up to the checksum: identifiers are equal exactly if prefix, commit and both CRC-32 checksums are, and a difference within four consecutive bytes is always seen. Full uniqueness is false: different changes can have the same checksum (exp_id_collision), and prepare_output_dir does not pass its parameter argv on (directory_ignores_argv). CRC-32 is modelled bit by bit; what git prints and pickle.dumps are inputs."
  },
  {
   "property": "C126",
   "status": "partial",
   "theorems": [
    "Pfrl.Agents.Dpg.actor_loss_return_partial",
    "Pfrl.Agents.Dpg.improvement_everywhere",
    "Pfrl.Agents.Dpg.tabular_actor_step",
    "Pfrl.Agents.Dpg.actor_loss_wrong_direction"
   ],
   "note": "Proved for minibatches in which states occur in proportion to their expected discounted numbers of visits, and for policies with separate parameters per state without that assumption. The full claim is false: the loss weights all steps alike, and even on the states of an episode of the policy itself, with an exact critic, the step can lower the discounted return (actor_loss_wrong_direction). Differentiability of the values in the parameters is proved, not assumed; automatic differentiation is trusted."
  },
  {
   "property": "C127",
   "status": "proved",
   "theorems": [
    "Pfrl.Train.BatchWithEval.batch_evaluation_proper"
   ],
   "note": ""
  },
  {
   "property": "C128",
   "status": "proved",
   "theorems": [
    "Pfrl.Trpo.Recurrent.trpo_recurrent_is_update_on_histories",
    "Pfrl.Trpo.Recurrent.trpo_recurrent_order",
    "Pfrl.Trpo.Recurrent.trpo_recurrent_guarantee",
    "Pfrl.Trpo.Recurrent.trpo_recurrent_vf_loss"
   ],
   "note": "Exact numbers; torch.autograd.grad is taken to be the gradient; one recurrent layer (several layers are C76). The guarantee needs networks that are twice continuously differentiable in their parameters. The observation normaliser is fixed during the update."
  },
  {
   "property": "C129",
   "status": "partial",
   "theorems": [
    "Pfrl.Train.Hogwild.async_never_nan",
    "Pfrl.Train.Hogwild.async_bounded",
    "Pfrl.Train.Hogwild.async_updates_add_up_partial",
    "Pfrl.Train.Hogwild.async_model_values_partial",
    "Pfrl.Train.Hogwild.async_alone",
    "Pfrl.Train.Hogwild.async_update_lost",
    "Pfrl.Train.Hogwild.async_centered_nan",
    "Pfrl.Train.Hogwild.async_model_torn",
    "Pfrl.Train.Hogwild.async_first_gradient_elsewhere"
   ],
   "note": "Absence of NaN and the bound are proved for the uncentred optimiser (the bound without momentum and weight decay), for every interleaving of reads and writes of single elements. The code violates the rest: in-place operations are not atomic, so that updates are lost (async_update_lost; with atomic operations none would be, async_updates_add_up_partial); with centered=True a NaN is possible (async_centered_nan); a process may go on with parameters of different moments (async_model_torn; each element is of one moment, async_model_values_partial); and the first gradient of a process made by make_agent is computed at its own initial parameters (async_first_gradient_elsewhere). Exact numbers; memory is sequentially consistent."
  },
  {
   "property": "C130",
   "status": "partial",
   "theorems": [
    "Pfrl.Train.Workers.workers_use_own_last_update",
    "Pfrl.Train.Workers.updates_are_chained",
    "Pfrl.Train.Workers.saves_newest_partial",
    "Pfrl.Train.Workers.returned_agent_untrained",
    "Pfrl.Train.Workers.returned_agent_trained_partial",
    "Pfrl.Train.Workers.resumes_from_loaded_partial",
    "Pfrl.Train.Workers.returned_agent_not_trained",
    "Pfrl.Train.Workers.saved_agent_stale",
    "Pfrl.Train.Workers.resumed_worker_acts_fresh",
    "Pfrl.Train.Workers.loaded_average_untrained"
   ],
   "note": "What workers act with, differentiate and save, and the chain of updates, are proved for every schedule. The code violates the rest: the agent returned acts with the network it had before training (returned_agent_untrained; after sync_parameters() it acts with the result, returned_agent_trained_partial); the agent saved at the end lacks updates of other workers (saved_agent_stale; with one worker it is the newest, saves_newest_partial); with make_agent the workers do not start from the loaded agent (resumed_worker_acts_fresh; with agent they do, resumes_from_loaded_partial); ACER.load leaves the average network as built (loaded_average_untrained). An update is one event, refined in C129."
  },
  {
   "property": "C131",
   "status": "partial",
   "theorems": [
    "Pfrl.Trpo.Improve.return_change",
    "Pfrl.Trpo.Improve.update_changes_return",
    "Pfrl.Trpo.Improve.surrogate_improves_return_partial",
    "Pfrl.Trpo.Improve.update_does_not_lose_partial",
    "Pfrl.Trpo.Improve.accepted_update_may_lose"
   ],
   "note": "The bound by max_kl is proved for every discount, critic and environment. The improvement bound is proved for gamma = 1 and lambd = 1 (otherwise the surrogate weighs states without the discount, cf. C101) with the largest distance of the policies in a state as a factor, which the line search does not control. Without an error term the claim is false: a step with unchanged surrogate may lose return (accepted_update_may_lose). The batch is taken to be infinite, policies are categorical."
  },
  {
   "property": "C132",
   "status": "partial",
   "theorems": [
    "Pfrl.Value.Iqn.fit_near_quantile",
    "Pfrl.Value.Iqn.fit_exists",
    "Pfrl.Value.Iqn.iqn_iteration_partial",
    "Pfrl.Value.Iqn.iqn_prefers_worse"
   ],
   "note": "Because the loss is a Huber loss with threshold 1, fits are quantiles only up to 1, and values optimal only up to 1 / (1 - gamma) and an error of order 1 / sqrt(K); all of this is proved. The claim without the error is false: with rewards of size 1 an exact fit can prefer a worse action (iqn_prefers_worse). One-step experiences; every fit is exact."
  },
  {
   "property": "C133",
   "status": "proved",
   "theorems": [
    "Pfrl.Sac.Actor.sac_log_prob",
    "Pfrl.Sac.Actor.sac_loss_divergence",
    "Pfrl.Sac.Actor.sac_policy_gradient",
    "Pfrl.Sac.Actor.sac_policy_descends",
    "Pfrl.Sac.Actor.head_scale"
   ],
   "note": "The gradient before clipping by max_grad_norm and before the optimiser (C90 is about which parameters they touch). Actions are squashed to (-1, 1). The critics are held fixed, as during the update."
  },
  {
   "property": "C134",
   "status": "partial",
   "theorems": [
    "Pfrl.Inputs.act_uses",
    "Pfrl.Inputs.dqn_uses",
    "Pfrl.Inputs.ppo_uses",
    "Pfrl.Inputs.ppo_recurrent_uses",
    "Pfrl.Inputs.actor_critic_uses",
    "Pfrl.Inputs.acer_uses",
    "Pfrl.Inputs.default_uses_partial",
    "Pfrl.Inputs.trpo_recurrent_uses_partial",
    "Pfrl.Inputs.update_ignores",
    "Pfrl.Inputs.trpo_mixes",
    "Pfrl.Inputs.trpo_normaliser",
    "Pfrl.Inputs.update_wrong"
   ],
   "note": "Proved for acting and for DQN and its relatives, A2C, A3C and PPO. False for the updates of DDPG, TD3, SAC and TRPO unless batch_states is the default (update_wrong): they ignore the function given, or use both."
  },
  {
   "property": "C135",
   "status": "proved",
   "theorems": [
    "Pfrl.Policies.Gradient.gaussian_log_prob",
    "Pfrl.Policies.Gradient.gaussian_entropy",
    "Pfrl.Policies.Gradient.gaussian_kl",
    "Pfrl.Policies.Gradient.gaussian_backward",
    "Pfrl.Policies.Gradient.gaussian_policy_gradient",
    "Pfrl.Policies.Gradient.gaussian_baseline",
    "Pfrl.Policies.Gradient.gaussian_surrogate",
    "Pfrl.Policies.Gradient.gaussian_ppo_pessimistic",
    "Pfrl.Policies.Gradient.gaussian_policy_ascends",
    "Pfrl.Policies.Gradient.gaussian_heads"
   ],
   "note": "For exact numbers and exact derivatives of the network. Advantages are functions of the action; for later updates of PPO on the same data only the bound gaussian_ppo_pessimistic is proved."
  },
  {
   "property": "C136",
   "status": "partial",
   "theorems": [
    "Pfrl.Utils.Seeds.reproducible_partial",
    "Pfrl.Utils.Seeds.reproducible_environments",
    "Pfrl.Utils.Seeds.worker_numbers",
    "Pfrl.Utils.Seeds.worker_independent",
    "Pfrl.Utils.Seeds.default_seeds",
    "Pfrl.Utils.Seeds.vector_seed",
    "Pfrl.Utils.Seeds.vector_seed_refuses",
    "Pfrl.Utils.Seeds.randomize_unseeded",
    "Pfrl.Utils.Seeds.vector_abc_same",
    "Pfrl.Utils.Seeds.vector_int_same",
    "Pfrl.Utils.Seeds.serial_short",
    "Pfrl.Utils.Seeds.negative_seed"
   ],
   "note": "Full claim false: RandomizeAction has a generator of its own that set_random_seed leaves alone; environments drawing from numpy.random, as ABC, ignore the seeds given to a vector environment and draw the same numbers in all its processes; one integer seeds all environments alike; a serial vector environment given too few seeds leaves the rest unseeded. Functions supplied by the user, such as random_action_func, are part of the program and may draw from generators of their own, which is not covered."
  },
  {
   "property": "C137",
   "status": "partial",
   "theorems": [
    "Pfrl.Tree.float_sum",
    "Pfrl.Tree.float_draws_partial",
    "Pfrl.Tree.float_draws_exact",
    "Pfrl.Tree.rne_rounding",
    "Pfrl.Tree.numpy_uniform",
    "Pfrl.Tree.float_draw_fails",
    "Pfrl.Tree.float_draw_twice"
   ],
   "note": "The last sentence is false: in double precision, with three positive priorities and the largest number np.random.uniform can return, prioritized_sample raises AssertionError, after which every append raises as well; with four, a batch contains an item twice and its priority is lost. Overflow and priorities that are not numbers are not modelled."
  },
  {
   "property": "C138",
   "status": "proved",
   "theorems": [
    "Pfrl.Categorical.float_projection",
    "Pfrl.Categorical.float_position_past_end",
    "Pfrl.Categorical.float_mass_changes"
   ],
   "note": "Overflow and numbers that are not finite are not modelled. Two witnesses show that the second clamp is needed and that the mass is not kept exactly."
  },
  {
   "property": "C139",
   "status": "partial",
   "theorems": [
    "Pfrl.Queue.raq_amortized_constant",
    "Pfrl.Queue.raq_popleft_linear",
    "Pfrl.Tree.tree_calls_partial",
    "Pfrl.Tree.prioritized_sample_calls",
    "Pfrl.Tree.tree_update_not_log"
   ],
   "note": "For the trees the bound holds with the largest number of values ever held. It is false for the number held at the time of the call: after 2**k+1 appends and 2**k pops the queue holds one value and an update makes k+1 recursive calls. uniform_sample and iteration are not counted."
  },
  {
   "property": "C140",
   "status": "partial",
   "theorems": [
    "Pfrl.Floats.linear_epsilon_partial",
    "Pfrl.Floats.exponential_epsilon",
    "Pfrl.Floats.soft_update_partial",
    "Pfrl.Floats.soft_update_constant",
    "Pfrl.Floats.rne_rounding",
    "Pfrl.Floats.linear_epsilon_below_end",
    "Pfrl.Floats.soft_update_stuck",
    "Pfrl.Floats.soft_update_drifts"
   ],
   "note": "Three parts are false: from 1.0 to 0.1 the linear schedule is below end_epsilon at the step decay_steps; with tau = 0.005 in single precision a target never reaches a source 1 from 1 - 25/4194304, and a target equal to a source 3 moves away from it. The power function of the exponential schedule is any function with values in [0, 1]. Overflow is not modelled."
  },
  {
   "property": "C141",
   "status": "partial",
   "theorems": [
    "Pfrl.Floats.normalizer_range_partial",
    "Pfrl.Floats.normalizer_accuracy_partial",
    "Pfrl.Floats.normalizer_negative",
    "Pfrl.Floats.normalizer_lost",
    "Pfrl.Floats.normalizer_stuck"
   ],
   "note": "The sign of the variance and the range of the mean are proved when no batch but the first is more than 1/(8 eps) times (a million times in single precision) as large as all before it, and are false without this. The error bound grows linearly with the number of batches, and some growth is real: after 2^25 values with mean 1 in single precision, values of 2 never move the mean. The statistics of a batch are taken as torch.var_mean returns them. Overflow is not modelled."
  },
  {
   "property": "C142",
   "status": "proved",
   "theorems": [
    "Pfrl.Floats.gae_accuracy",
    "Pfrl.Floats.a3c_accuracy",
    "Pfrl.Floats.a2c_accuracy",
    "Pfrl.Floats.a2c_gae_accuracy",
    "Pfrl.Floats.nstep_accuracy",
    "Pfrl.Floats.undiscounted_stuck"
   ],
   "note": "One precision for all numbers of a computation; in A2C the discounts may be rounded to it first. With discount 1 the bound grows with the length, and so does the error: undiscounted_stuck. The conversion of the returns of A3C and of n-step rewards to float32 adds one rounding, not included. Overflow is not modelled."
  },
  {
   "property": "C143",
   "status": "proved",
   "theorems": [
    "Pfrl.Value.Table.table_converges",
    "Pfrl.Value.Table.table_eventually",
    "Pfrl.Value.Table.table_optimal",
    "Pfrl.Value.Table.table_replay",
    "Pfrl.Value.Table.unseen_unchanged",
    "Pfrl.Value.Table.large_learning_rate",
    "Pfrl.Value.Table.noise_remains"
   ],
   "note": "One-step transitions, SGD without momentum, no max_grad_norm, exact numbers, weights between a positive bound and 1. large_learning_rate and noise_remains show that neither the bound on the learning rate nor determinism can be dropped."
  },
  {
   "property": "C144",
   "status": "partial",
   "theorems": [
    "Pfrl.Value.Smoothing.smoothing_valid_partial",
    "Pfrl.Value.Smoothing.smoothing_exact",
    "Pfrl.Value.Smoothing.smoothing_mean",
    "Pfrl.Value.Smoothing.smoothing_targets_partial",
    "Pfrl.Value.Smoothing.smoothing_large",
    "Pfrl.Value.Smoothing.smoothing_large_targets",
    "Pfrl.Value.Smoothing.smoothing_small"
   ],
   "note": "Proved for the action space [-1, 1]. The default function does not look at the action space: in larger ones the targets are never computed near the action of the target policy (smoothing_large, smoothing_large_targets) and in smaller ones target actions may be invalid (smoothing_small)."
  },
  {
   "property": "C145",
   "status": "proved",
   "theorems": [
    "Pfrl.Value.Linear.linear_fit",
    "Pfrl.Value.Linear.linear_exact",
    "Pfrl.Value.Linear.linear_diverges"
   ],
   "note": "One-step transitions, SGD without momentum, no max_grad_norm, exact numbers. linear_diverges shows that the claim stops at updates of the target network: with them, values may grow without bound for every learning rate although the optimal values can be represented."
  },
  {
   "property": "C146",
   "status": "proved",
   "theorems": [
    "Pfrl.Sample.Uniform.sample_uniform",
    "Pfrl.Sample.Uniform.sample_inclusion",
    "Pfrl.Sample.Uniform.queue_inclusion",
    "Pfrl.Sample.Uniform.generator_exists"
   ],
   "note": "Draws of np.random.choice with replacement are independent and uniform, those without replacement uniform over lists of different indices: this is numpy's contract and is assumed. generator_exists shows that the assumptions can be met for all n and k."
  },
  {
   "property": "C147",
   "status": "proved",
   "theorems": [
    "Pfrl.Value.Training.training_optimal",
    "Pfrl.Value.Training.explorers_optimal",
    "Pfrl.Value.Training.small_capacity",
    "Pfrl.Value.Training.never_explores",
    "Pfrl.Value.Training.draws_exist"
   ],
   "note": "Tabular model, plain SGD, one environment, n_times_update and num_steps 1, exact numbers. Random numbers of different steps are independent; each call of sample_n_k has a generator of its own (C146). small_capacity: with a capacity below replay_start_size the agent never learns and nothing is reported. never_explores: with epsilon 0 the agent may stay with a worse action. draws_exist: the assumptions on random numbers can be met for all arguments."
  },
  {
   "property": "C148",
   "status": "partial",
   "theorems": [
    "Pfrl.Train.WorkerFailure.training_ends",
    "Pfrl.Train.WorkerFailure.survivors_complete",
    "Pfrl.Train.WorkerFailure.warnings_exact",
    "Pfrl.Train.WorkerFailure.final_model_partial",
    "Pfrl.Train.WorkerFailure.others_save_nothing",
    "Pfrl.Train.WorkerFailure.final_model_lost",
    "Pfrl.Train.WorkerFailure.all_failed_returns"
   ],
   "note": "All but the last clause is proved. The final model is saved exactly if the one worker that made step number `steps` goes through to the end (final_model_partial); if that worker fails, nothing is saved although the others complete the training (final_model_lost). A failure of a worker other than 0 never saves anything (others_save_nothing). If all workers fail, train_agent_async still returns normally (all_failed_returns). A worker killed while it holds the lock of a counter is not modelled."
  },
  {
   "property": "C149",
   "status": "proved",
   "theorems": [
    "Pfrl.Episodic.Uniform.transition_inclusion",
    "Pfrl.Episodic.Uniform.window_inclusion",
    "Pfrl.Episodic.Uniform.short_inclusion",
    "Pfrl.Episodic.Uniform.covering_eq",
    "Pfrl.Episodic.Uniform.ends_seldom",
    "Pfrl.Episodic.Uniform.offsets_exist"
   ],
   "note": "Stored transitions are assumed different, so that an element of the sample tells where it comes from. ends_seldom: transitions far from both ends of an episode are sampled max_len times as often as the first and the last one, so that recurrent training sees the ends of long episodes seldom. offsets_exist: the assumptions on random numbers can be met."
  },
  {
   "property": "C150",
   "status": "proved",
   "theorems": [
    "Pfrl.DuelingNet.dueling_values",
    "Pfrl.DuelingNet.distributional_dueling",
    "Pfrl.DuelingNet.dueling_raises"
   ],
   "note": "Exact numbers. Builds on the layers of C109; the heads alone are in C58. The activation given to DuelingDQN is used between the convolutions only: dueling_values has the ReLU in both streams whatever the activation."
  },
  {
   "property": "C151",
   "status": "proved",
   "theorems": [
    "Pfrl.Snapshots.views_are_values",
    "Pfrl.Snapshots.stored_states_stay",
    "Pfrl.Snapshots.in_place_corrupts"
   ],
   "note": "Memory is modelled as a heap of arrays, with views for indexing, detach and numpy() on the CPU. The network and the updates are arbitrary functions that write to new arrays only; in_place_corrupts: a network that changes its recurrent state in place, as PyTorch allows under no_grad, changes transitions already stored, on the CPU only."
  },
  {
   "property": "C152",
   "status": "proved",
   "theorems": [
    "Pfrl.LazyFrames.lazy_observations",
    "Pfrl.LazyFrames.reused_arrays_corrupt",
    "Pfrl.LazyFrames.step_before_reset"
   ],
   "note": "Frames, lists and deques are objects in memory. The environments are assumed to return new arrays; reused_arrays_corrupt: one that changes an array it has returned changes earlier observations. step_before_reset: with k >= 2 a step before the first reset fails the assertion."
  },
  {
   "property": "C153",
   "status": "proved",
   "theorems": [
    "Pfrl.SharedWeights.weights_reach_their_experiences",
    "Pfrl.SharedWeights.sampling_keeps_experiences",
    "Pfrl.SharedWeights.history_ok",
    "Pfrl.SharedWeights.next_sample_overwrites"
   ],
   "note": "Transitions are objects in memory, changed in place. The drawn positions are different (C07); the prioritized memory is the list of its experiences (C08, C11). next_sample_overwrites: a batch shows the weights of the next batch if it is used only after that has been drawn."
  },
  {
   "property": "C154",
   "status": "proved",
   "theorems": [
    "Pfrl.Ppo.Unbiased.minibatch_unbiased",
    "Pfrl.Ppo.Unbiased.expected_uses",
    "Pfrl.Ppo.Unbiased.recurrent_biased",
    "Pfrl.Ppo.Unbiased.uniform_exists"
   ],
   "note": "random.sample is a uniformly distributed permutation in each call; nothing is assumed about different calls. Parameters are held fixed: later minibatches of an update are evaluated at other parameters. recurrent_biased: the minibatches of recurrent PPO, which are made of sequences and drop the rest, are not unbiased."
  },
  {
   "property": "C155",
   "status": "proved",
   "theorems": [
    "Pfrl.Replay.Unbiased.sample_ends",
    "Pfrl.Replay.Unbiased.replay_unbiased"
   ],
   "note": "The generator is that of C146: uniform independent draws and a uniform choice without replacement for large samples. The minibatch is not empty. Parameters are held fixed; experiences leave the buffer over time, so nothing is said about data no longer in it."
  }
 ]
}