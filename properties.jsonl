{"id": "C01", "title": "RandomAccessQueue is a bounded double-ended list", "statement": "Any sequence of append, extend, popleft, q[i], q[i]=x, len and iteration on a RandomAccessQueue gives exactly the results (values and IndexErrors, negative indices included) that a plain Python list kept to its newest maxlen items would give.", "quantifier": "every initial content, every maxlen (None or >= 0), every finite operation sequence, every integer index", "why_tests_cant": "The two-list representation changes shape with history; a test covers a handful of histories, the claim is about all of them.", "anchors": ["pfrl/collections/random_access_queue.py: RandomAccessQueue"]}
{"id": "C02", "title": "RandomAccessQueue keeps exactly the newest maxlen items in arrival order", "statement": "After any sequence of appends and extends the queue iterates over precisely the last min(maxlen, number added) items added, oldest first, and its length never exceeds maxlen.", "quantifier": "every maxlen, every sequence of append/extend calls", "why_tests_cant": "The retention window depends on the whole insertion history.", "anchors": ["pfrl/collections/random_access_queue.py: append, extend, _apply_maxlen"]}
{"id": "C03", "title": "Uniform sampling without replacement returns distinct valid indices", "statement": "sample_n_k(n, k) raises ValueError exactly when k<0 or k>n; otherwise, whenever it returns, it returns k pairwise distinct indices below n, whichever values the random generator yields, and it returns as soon as the generator has yielded k distinct values (no draw is lost).", "quantifier": "every n, k and every stream of random draws", "why_tests_cant": "The collision-resolution branch is reached only for unlucky random streams and small k/n; tests fix a seed.", "anchors": ["pfrl/utils/random.py: sample_n_k", "pfrl/collections/random_access_queue.py: sample"]}
{"id": "C04", "title": "Priority queue sum equals the sum of the stored priorities", "statement": "After any sequence of append, popleft and priority overwrite, the priority-sum queue reports exactly the sum of the priorities currently stored, popleft returns the oldest stored priority, and no operation fails on a valid call.", "quantifier": "every operation history of any length, every priority value", "why_tests_cant": "The tree is resized, shifted to negative bounds and pruned depending on history.", "anchors": ["pfrl/collections/prioritized.py: _write, _reduce, TreeQueue, SumTreeQueue.sum"]}
{"id": "C05", "title": "Priority queue minimum equals the minimum stored priority", "statement": "After any such history the minimum queue reports exactly the least stored priority (infinity when empty).", "quantifier": "every operation history, every priority value", "why_tests_cant": "Same as C04: stale cached minima only show after particular histories.", "anchors": ["pfrl/collections/prioritized.py: MinTreeQueue"]}
{"id": "C06", "title": "Prioritized draw is the inverse cumulative distribution", "statement": "For a uniform draw u in [0, total), the drawn item i is the unique one with p_0+..+p_{i-1} <= u < p_0+..+p_i, so an item is drawn with probability p_i/total and an item of priority 0 is never drawn.", "quantifier": "every reachable queue, every u in [0,total)", "why_tests_cant": "Statistical tests of sampling are approximate and cover few distributions.", "anchors": ["pfrl/collections/prioritized.py: _find, SumTreeQueue.prioritized_sample"]}
{"id": "C07", "title": "Prioritized sampling is without replacement and reports true priorities", "statement": "prioritized_sample(n) returns n distinct indices with the priorities they had when stored; with remove=False all priorities are afterwards unchanged, with remove=True exactly the sampled ones are zeroed.", "quantifier": "every reachable queue with positive priorities, n <= length, every random stream", "why_tests_cant": "Depends on interaction between zeroing writes and later draws.", "anchors": ["pfrl/collections/prioritized.py: SumTreeQueue.prioritized_sample, uniform_sample"]}
{"id": "C08", "title": "PrioritizedBuffer bookkeeping stays aligned", "statement": "After any history of append, popleft, sample and set_last_priority the buffer's data, sum queue and min queue describe the same items: same length, never above capacity, oldest evicted first, each item's priority the one last assigned to it (default: the running maximum priority).", "quantifier": "every capacity >= 1, every operation history respecting the sample/update protocol, every random stream", "why_tests_cant": "Alignment is an invariant over histories, not a property of one call.", "anchors": ["pfrl/collections/prioritized.py: PrioritizedBuffer"]}
{"id": "C09", "title": "set_last_priority updates exactly the sampled items", "statement": "The priorities given after a sample are attached to the very items returned by that sample, in order, and to no other item, even if items are appended or evicted in between.", "quantifier": "every history with any number of operations between sample and set_last_priority", "why_tests_cant": "The failure needs an eviction between the two calls.", "anchors": ["pfrl/collections/prioritized.py: PrioritizedBuffer.sample, set_last_priority", "pfrl/agents/dqn.py: _poll_pipe, _learner_loop"]}
{"id": "C10", "title": "Importance weights are in (0,1] and beta anneals monotonically to at most 1", "statement": "With normalisation, every importance weight is positive, at most 1, equals (p_min/p)^beta, so rarer items never weigh less; beta never decreases, never exceeds 1 and equals min(1, beta0 + k*(1-beta0)/betasteps) after k samples; priorities computed from errors are positive whenever eps > 0 and clipped errors are >= 0.", "quantifier": "every alpha>=0, beta0 in [0,1], betasteps>0, every batch of positive probabilities", "why_tests_cant": "Real-valued parameters; infinite domain.", "anchors": ["pfrl/replay_buffers/prioritized.py: PriorityWeightError"]}
{"id": "C11", "title": "N-step replay buffer stores exactly the n-step windows of each episode", "statement": "After any interleaving of append and stop_current_episode over any number of environments, for every environment the stored experiences are exactly the length-n windows of each of its episodes plus the shorter suffix windows of finished episodes, each once, in order; no stored experience spans two episodes or two environments.", "quantifier": "every num_steps >= 1, every history over every set of env ids", "why_tests_cant": "Depends on the position of episode ends relative to n across interleaved environments.", "anchors": ["pfrl/replay_buffers/replay_buffer.py: append, stop_current_episode"]}
{"id": "C12", "title": "Replay buffer capacity is respected and the oldest experience is evicted first", "statement": "len(buffer) never exceeds capacity, and the buffer holds precisely the newest `capacity` of all experiences ever stored.", "quantifier": "every capacity, num_steps, history", "why_tests_cant": "History dependent.", "anchors": ["pfrl/replay_buffers/replay_buffer.py: ReplayBuffer"]}
{"id": "C13", "title": "Environments sharing one replay buffer do not influence each other", "statement": "The subsequence of stored experiences that came from one environment depends only on that environment's own calls, not on how they are interleaved with other environments' calls.", "quantifier": "every two interleavings with equal per-environment projections", "why_tests_cant": "Exponentially many interleavings.", "anchors": ["pfrl/replay_buffers/replay_buffer.py: ReplayBuffer.append(env_id)"]}
{"id": "C14", "title": "Sampling a replay buffer returns distinct stored experiences", "statement": "sample(k) with k <= len(buffer) returns k experiences stored at distinct positions and leaves the buffer unchanged; an assertion error is raised otherwise.", "quantifier": "every reachable buffer, every k, every random stream", "why_tests_cant": "Random streams and buffer shapes unbounded.", "anchors": ["pfrl/replay_buffers/replay_buffer.py: sample", "pfrl/replay_buffers/episodic.py: sample, sample_episodes"]}
{"id": "C15", "title": "Episodic replay buffer: transitions are exactly those of the stored episodes", "statement": "After any history the flat transition store is the concatenation of the stored episodes, its length is at most capacity, episodes are evicted whole, oldest first, and only as many as needed.", "quantifier": "every capacity, every interleaving of environments and episode ends", "why_tests_cant": "Joint invariant of two queues over all histories.", "anchors": ["pfrl/replay_buffers/episodic.py: append, stop_current_episode"]}
{"id": "C16", "title": "Sampled sub-episodes are contiguous and bounded", "statement": "sample_episodes(k, max_len) returns pieces of k distinct episodes, each a contiguous subsequence of length min(max_len, episode length).", "quantifier": "every reachable buffer, k, max_len, random stream", "why_tests_cant": "Boundary of the random offset is hit with probability 1/(len-max_len+1).", "anchors": ["pfrl/replay_buffer.py: random_subseq", "pfrl/replay_buffers/episodic.py: sample_episodes"]}
{"id": "C17", "title": "Prioritized episodic buffer keeps transitions and episodes consistent", "statement": "After any history the remaining capacity equals capacity minus the number of transitions in stored episodes, is never negative after an episode ends, and the transition store holds exactly the transitions of stored episodes.", "quantifier": "every capacity and every history", "why_tests_cant": "The two stores use different eviction rules; they diverge only after long histories.", "anchors": ["pfrl/replay_buffers/prioritized_episodic.py: stop_current_episode"]}
{"id": "C18", "title": "Persistent queue survives a crash at any point", "statement": "If the process dies at any moment while items are being appended, then reopening the same directory succeeds and yields the newest maxlen of the items whose append completed, possibly followed by the one in flight; no completed item within the window is lost, reordered, duplicated or corrupted.", "quantifier": "every maxlen, every append sequence, every chunk rotation, every crash point including torn writes of either file", "why_tests_cant": "Crash points between two file writes and torn writes cannot be enumerated by tests.", "anchors": ["pfrl/collections/persistent_collections.py: _ChunkWriter.append, _ChunkReader.read_chunks, PersistentRandomAccessQueue.__init__"]}
{"id": "C19", "title": "Persistent queue behaves like the in-memory queue while open", "statement": "During a session, iteration, indexing, len and sample of a persistent queue equal those of a RandomAccessQueue fed with the loaded data and the same operations.", "quantifier": "every session history", "why_tests_cant": "Which chunk files exist depends on everything written since the directory was created.", "anchors": ["pfrl/collections/persistent_collections.py: PersistentRandomAccessQueue"]}
{"id": "C20", "title": "Repeated restarts never lose or duplicate data", "statement": "Across any number of open/append/close-or-crash sessions on one directory each reopened queue holds the newest maxlen of the concatenation of all sessions' completed appends, and a new session never overwrites an existing chunk.", "quantifier": "every number of sessions, every append sequence in each, every crash", "why_tests_cant": "Generation numbering interacts with the partial scan of old chunks.", "anchors": ["pfrl/collections/persistent_collections.py: read_chunks, _count_all_chunks"]}
{"id": "C21", "title": "Batched n-step experience is the n-step return", "statement": "For an experience of j consecutive transitions batch_experiences gives first state and action, sum of gamma^i r_i, last next state, terminal iff any is terminal, discount gamma^j; the resulting target r + discount*(1-terminal)*V equals j successive one-step Bellman backups.", "quantifier": "every experience of any length, every gamma, every rewards", "why_tests_cant": "Arbitrary length n and reals.", "anchors": ["pfrl/replay_buffer.py: batch_experiences", "pfrl/agents/dqn.py: _compute_target_values"]}
{"id": "C22", "title": "Replay update schedule", "statement": "update_if_necessary(t) performs n_times_update updates exactly when the buffer has at least replay_start_size transitions (and, for episodic updates, at least batchsize episodes) and t is a multiple of update_interval; it never asks the buffer for more items than it holds, so it never raises.", "quantifier": "every buffer content, every t, every configuration accepted by the constructor", "why_tests_cant": "The defect needs one particular combination of constructor options with one particular buffer content; the product of the two cannot be enumerated.", "anchors": ["pfrl/replay_buffer.py: ReplayUpdater"]}
{"id": "C23", "title": "Categorical projection preserves probability", "statement": "Projecting a distribution onto a fixed support keeps every entry non-negative, keeps total mass exactly and, when the source atoms lie inside the support range, keeps the mean exactly.", "quantifier": "every number of atoms >= 2, every support range, every source atoms and probabilities", "why_tests_cant": "Real-valued inputs, integer-hit boundary cases.", "anchors": ["pfrl/agents/categorical_dqn.py: _apply_categorical_projection"]}
{"id": "C24", "title": "GAE in PPO/TRPO equals its defining sum", "statement": "Advantages attached to an episode are sum_k (gamma*lambda)^k delta_{t+k}, value targets are advantage plus value; with lambda=1 they equal the discounted return to the end of the stored segment (bootstrapped if not terminal) minus the value, with lambda=0 the one-step TD error.", "quantifier": "every episode length, rewards, values, gamma, lambda", "why_tests_cant": "The identity is between real-valued sums whose length is the episode length; a test fixes one episode and compares floats.", "anchors": ["pfrl/agents/ppo.py: _add_advantage_and_value_target_to_episode"]}
{"id": "C25", "title": "A2C returns never leak across episode boundaries", "statement": "In the A2C rollout the return at step i is the discounted sum of rewards up to the first episode end at or after i (bootstrapped with the last value only when no end occurs); rewards and values after an episode end do not influence returns before it, for both the plain and the GAE estimator.", "quantifier": "every rollout length, every number of environments, every pattern of episode ends, all rewards and values", "why_tests_cant": "Every pattern of episode ends inside the rollout gives a different recursion; there are exponentially many.", "anchors": ["pfrl/agents/a2c.py: _compute_returns"]}
{"id": "C26", "title": "A3C n-step returns", "statement": "Each return used in an A3C update equals sum_{j>=i} gamma^{j-i} r_j + gamma^{t-i} V(s_t), with V taken as 0 iff the episode terminated; every reward observed is used in exactly one update.", "quantifier": "every t_max, every sequence of observe calls with done/reset flags", "why_tests_cant": "The rollout is cut by t_max, by episode ends and by resets in any order; tests run a few orders.", "anchors": ["pfrl/agents/a3c.py: update, _observe_train"]}
{"id": "C27", "title": "REINFORCE weighs each action by the rewards that follow it", "statement": "The coefficient applied to the log-probability of the action at step t is the sum of the rewards received from step t to the end of the episode.", "quantifier": "every episode of every length", "why_tests_cant": "Off-by-one in reward bookkeeping is invisible to learning-curve tests.", "anchors": ["pfrl/agents/reinforce.py: _observe_train, accumulate_grad"]}
{"id": "C28", "title": "ACER Retrace targets satisfy their recursion and closed form", "statement": "The Q_ret sequence computed backwards equals the Retrace expansion; with importance ratios at least 1 and on-policy exact values it reduces to the n-step return; with zero ratio it bootstraps from V.", "quantifier": "every trajectory length, rewards, values, ratios", "why_tests_cant": "Real inputs and trajectories of any length; the recursion and its closed form can be compared by a test only at points.", "anchors": ["pfrl/agents/acer.py: compute_loss"]}
{"id": "C29", "title": "ACER trust-region step is the constrained projection", "statement": "Whenever some vector satisfies the constraint, the adjusted gradient z satisfies k.z <= delta and is the closest vector to g that does, so it is g itself when g already satisfies the constraint.", "quantifier": "every g, k of any dimension, every delta", "why_tests_cant": "The projection has to be optimal among all vectors of a real space of any dimension.", "anchors": ["pfrl/agents/acer.py: compute_loss_with_kl_constraint"]}
{"id": "C30", "title": "PPO minibatches use every transition equally often", "statement": "Minibatch generation yields ceil(len*epochs/mb) minibatches, each of exactly the minibatch size; their concatenation is (a suffix-order reading of) whole permutations of the dataset, so any two transitions' usage counts differ by at most one at any moment.", "quantifier": "every dataset, minibatch size >= 1, number of epochs, every stream of random permutations", "why_tests_cant": "Fairness is a statement about all permutations and all remainders of the dataset size modulo the minibatch size.", "anchors": ["pfrl/agents/ppo.py: _yield_minibatches"]}
{"id": "C31", "title": "Splitting sequences for recurrent PPO loses nothing", "statement": "Limiting sequence length cuts episodes into contiguous pieces of length 1..max_len whose concatenation is the original; the fixed-size subset iterator yields groups of exactly n_items items which concatenate to a prefix of the data and leave out fewer than n_items items.", "quantifier": "every list of non-empty sequences, every max_len, n_items", "why_tests_cant": "Sequence lengths, max_len and the number of items interact at boundaries that a test meets only by luck.", "anchors": ["pfrl/agents/ppo.py: _limit_sequence_length, _yield_subset_of_sequences_with_fixed_number_of_items"]}
{"id": "C32", "title": "On-policy agents use each transition exactly once per dataset", "statement": "In PPO and TRPO every observed transition enters exactly one update dataset, in order within its episode, no episode in a dataset mixes environments or crosses an episode end, an update occurs exactly when at least update_interval transitions are pending and nothing is dropped.", "quantifier": "every interleaving of environments, done and reset flags", "why_tests_cant": "Any interleaving of done and reset flags of several environments, with updates in between.", "anchors": ["pfrl/agents/ppo.py: _batch_observe_train, _update_if_dataset_is_ready, _flush_last_episode", "pfrl/agents/trpo.py"]}
{"id": "C33", "title": "Time-first flattening matches packed sequences", "statement": "flatten_sequences_time_first lists, for each time index in order, the items of all sequences long enough, in sequence order; it is a permutation of all items and loses none.", "quantifier": "every list of sequences sorted by decreasing length", "why_tests_cant": "Claims about every shape of a ragged batch.", "anchors": ["pfrl/utils/recurrent.py: flatten_sequences_time_first"]}
{"id": "C34", "title": "Recurrent states are batched, split and reset per environment", "statement": "Concatenating per-environment recurrent states and taking index i gives back state i (None meaning zeros); masking at a set of indices zeroes exactly those environments' states and leaves the others unchanged.", "quantifier": "every nesting of tuples, batch size, index set", "why_tests_cant": "The nesting of recurrent states is unbounded.", "anchors": ["pfrl/utils/recurrent.py: concatenate_recurrent_states, get_recurrent_state_at, mask_recurrent_state_at"]}
{"id": "C35", "title": "DQN interaction schedule", "statement": "After any training history DQN has advanced its step counter by one per environment step, synchronised the target network exactly at the multiples of target_update_interval, and updated exactly when the schedule allows; evaluation-mode interaction changes none of these nor the replay buffer.", "quantifier": "every history of act/observe calls over any number of environments, training and evaluation interleaved, any positive target_update_interval", "why_tests_cant": "The schedule of updates is a function of the whole history of calls.", "anchors": ["pfrl/agents/dqn.py: batch_act, batch_observe, _batch_observe_train"]}
{"id": "C36", "title": "Value-based agents store exactly the experienced transitions", "statement": "Each stored transition (s,a,r,s',terminal) of environment i consists of the observation and action of one act call and the reward, next observation and done flag of the following observe call of the same environment; every such pair is stored exactly once, and episodes are closed exactly on done or reset.", "quantifier": "every history, any number of environments", "why_tests_cant": "Which transition is stored depends on the mode and the flags at two consecutive calls, over all histories.", "anchors": ["pfrl/agents/dqn.py: _batch_observe_train", "pfrl/agents/ddpg.py", "pfrl/agents/soft_actor_critic.py", "pfrl/agents/td3.py"]}
{"id": "C37", "title": "Actor-learner performs exactly n_updates updates", "statement": "The learner loop stops after exactly n_updates optimizer updates (if not stopped before), publishes the model to actors every actor_update_interval updates and synchronises the target once per target_update_interval/update_interval updates.", "quantifier": "every schedule of replay-buffer readiness and stop events", "why_tests_cant": "The learner's loop runs against a buffer filled by other threads; all readiness schedules are possible.", "anchors": ["pfrl/agents/dqn.py: _learner_loop"]}
{"id": "C38", "title": "Actor transitions reach the replay buffer unmixed", "statement": "Under every interleaving of actors and poller, the replay buffer receives each actor's transitions in order, tagged with a distinct environment id, none lost or duplicated while the pipes stay open.", "quantifier": "every scheduling of n actors and the poller", "why_tests_cant": "Messages of several processes are interleaved by the operating system.", "anchors": ["pfrl/agents/dqn.py: _poll_pipe, _poller_loop", "pfrl/agents/state_q_function_actor.py: observe"]}
{"id": "C39", "title": "Evaluation schedule", "statement": "Called at increasing steps, the evaluator evaluates at t exactly when t has reached a multiple of eval_interval not reached at the previous evaluation (or at the offset): at most one evaluation per interval cell, and none is missed when evaluate_if_necessary is called in each cell.", "quantifier": "every increasing sequence of calls, every eval_interval >= 1, every step_offset", "why_tests_cant": "Calls may jump over several thresholds at once; tests call at every step.", "anchors": ["pfrl/experiments/evaluator.py: Evaluator.evaluate_if_necessary"]}
{"id": "C40", "title": "Best-agent saving", "statement": "After any number of evaluations max_score is the maximum of all mean scores (and the float32 minimum), and the saved best agent is the one that obtained it first.", "quantifier": "every sequence of evaluation results", "why_tests_cant": "A running maximum over a sequence of any length with ties and infinities.", "anchors": ["pfrl/experiments/evaluator.py: evaluate_and_update_max_score"]}
{"id": "C41", "title": "Asynchronous evaluation is exclusive and complete", "statement": "Under every interleaving of processes calling the shared evaluator each interval threshold is claimed by exactly one process, the number of evaluations started equals the number of thresholds claimed, the header is written once and the shared best score ends as the maximum of all scores, in the float32 precision in which it is kept.", "quantifier": "every number of processes and every interleaving of their lock-protected sections", "why_tests_cant": "Interleavings of processes cannot be enumerated by tests.", "anchors": ["pfrl/experiments/evaluator.py: AsyncEvaluator"]}
{"id": "C42", "title": "Training loop executes exactly the requested steps", "statement": "train_agent performs exactly steps - step_offset environment steps unless the success criterion or an exception ends it, calls every step hook once per step in order, resets the environment exactly after episode ends (done, time limit, needs_reset), checkpoints at the multiples of checkpoint_freq before the last step, saves `_finish` on normal end and `_except` on any exception, never both.", "quantifier": "every environment behaviour, every point at which the environment, the agent, a hook or the evaluator may raise, every episode length limit and every step_offset", "why_tests_cant": "Exception points and environment behaviours are unbounded.", "anchors": ["pfrl/experiments/train_agent.py: train_agent"]}
{"id": "C43", "title": "Batch training loop step accounting", "statement": "train_agent_batch advances t by num_envs per iteration, stops at the first t >= steps (overshooting by less than num_envs), calls hooks for each integer t once in order, checkpoints at all multiples of checkpoint_freq, and resets exactly the environments whose episode ended.", "quantifier": "every number of environments, steps, every environment behaviour and exception point", "why_tests_cant": "Environment behaviours are unbounded and the overshoot depends on divisibility.", "anchors": ["pfrl/experiments/train_agent_batch.py: train_agent_batch"]}
{"id": "C44", "title": "Asynchronous training: global step counter", "statement": "Under every interleaving, the global step numbers handed to processes are exactly 1,2,3,... without gaps or repeats; training stops with at most processes-1 steps beyond `steps` (for steps >= 1), each global step hook is called once for each of them, and the final model is saved exactly once in a run that reaches `steps` without exceptions and at most once in any run.", "quantifier": "every number of processes and every interleaving", "why_tests_cant": "Interleavings of processes cannot be enumerated by tests.", "anchors": ["pfrl/experiments/train_agent_async.py: train_loop"]}
{"id": "C45", "title": "Evaluation episodes are complete and counted right", "statement": "Serial evaluation by episodes returns exactly n_episodes scores, each the sum of rewards of one complete episode (ended by done, time limit or needs_reset); by steps it takes exactly n_steps steps and returns at least one score. Batch evaluation by episodes returns the first n_episodes episodes in starting order, not the first to finish.", "quantifier": "every environment behaviour, any number of environments", "why_tests_cant": "Which episodes count depends on the order in which environments finish.", "anchors": ["pfrl/experiments/evaluator.py: _run_episodes, _batch_run_episodes"]}
{"id": "C46", "title": "Vector environments reset only the environments asked for", "statement": "VectorEnv.reset(mask) resets exactly the environments whose mask entry is false and keeps the last observation of the others; the multiprocess and serial versions return the same observations, rewards, dones and infos for the same call sequence.", "quantifier": "every call sequence, number of environments, environment behaviour", "why_tests_cant": "The two implementations must agree after every call sequence; the multiprocess one is a protocol between processes.", "anchors": ["pfrl/envs/serial_vector_env.py", "pfrl/envs/multiprocess_vector_env.py"]}
{"id": "C47", "title": "Frame stacking shows the last k frames of the current episode", "statement": "After any reset/step history the stacked observation is the last k frames of the current episode, padded at the front with the episode's first frame; the vectorised stack does this independently per environment, including masked resets.", "quantifier": "every k, history, reset mask", "why_tests_cant": "The content of the stack depends on the whole history since the last reset of each environment.", "anchors": ["pfrl/wrappers/atari_wrappers.py: FrameStack", "pfrl/wrappers/vector_frame_stack.py: VectorFrameStack"]}
{"id": "C48", "title": "Continuing time limit", "statement": "ContinuingTimeLimit flags needs_reset exactly at every step from max_episode_steps on since the last reset, never changes done or the reward, and refuses to step before reset.", "quantifier": "every history of reset and step calls on every inner environment, every max_episode_steps", "why_tests_cant": "The counter's value is a function of the history since the last reset.", "anchors": ["pfrl/wrappers/continuing_time_limit.py"]}
{"id": "C49", "title": "Episodic-life wrapper ends episodes exactly at life loss", "statement": "The wrapped environment reports done exactly when the game is over or the life count decreases to a positive number; a real environment reset happens exactly when the underlying game was over (or needed a reset), and otherwise one no-op step is taken.", "quantifier": "every inner environment and every history of life counts, game ends and reset calls", "why_tests_cant": "Life counts may change in any way at any step, including the no-op step of a reset.", "anchors": ["pfrl/wrappers/atari_wrappers.py: EpisodicLifeEnv"]}
{"id": "C50", "title": "Action normalisation maps [-1,1] onto the action bounds", "statement": "NormalizeActionSpace maps -1 to low, 1 to high, is affine, monotone and invertible and keeps every action of [-1,1]^n inside the original box; bound_by_tanh outputs always lie inside their bounds.", "quantifier": "every finite low <= high, every action and every dimension", "why_tests_cant": "Real-valued bounds and actions; a test checks end points.", "anchors": ["pfrl/wrappers/normalize_action_space.py", "pfrl/functions/bound_by_tanh.py"]}
{"id": "C51", "title": "Epsilon schedules stay within their end points", "statement": "Linear decay gives start_epsilon at t=0, end_epsilon at every t >= decay_steps, is monotone between and always between the two; exponential decay never goes below its floor; with probability-one-minus-epsilon draws the greedy action is returned.", "quantifier": "all parameters of the schedules and every t, every random draw", "why_tests_cant": "Monotonicity and bounds concern all t and all real parameters.", "anchors": ["pfrl/explorers/epsilon_greedy.py"]}
{"id": "C52", "title": "Evaluation mode is always restored", "statement": "Whatever happens inside eval_mode or evaluating, including exceptions and nesting, the training flags afterwards are what they were before.", "quantifier": "every body, including bodies that nest the two context managers and bodies that raise at any point, every tree of submodules with any flags", "why_tests_cant": "Nesting is unbounded, and the flags of all submodules are 2^n states.", "anchors": ["pfrl/agent.py: Agent.eval_mode", "pfrl/utils/contexts.py: evaluating"]}
{"id": "C53", "title": "Target network updates", "statement": "A hard update makes target equal to source; k soft updates with rate tau from a constant source leave every floating point parameter and buffer at target = source + (1-tau)^k (target0 - source), always within the segment between the two when tau is in [0,1].", "quantifier": "every tau, every number k of updates, all floating point parameters and buffers", "why_tests_cant": "A closed form for any k and any real tau.", "anchors": ["pfrl/utils/copy_param.py: soft_copy_param, copy_param, synchronize_parameters"]}
{"id": "C54", "title": "Gradient clipping bounds the norm and keeps the direction", "statement": "After clip_l2_grad_norm_ the global norm is at most max_norm, gradients whose norm is at most max_norm minus the 1e-6 that the code adds for stability are unchanged, and clipped gradients are a positive multiple of the originals; the returned value is the norm before clipping.", "quantifier": "every list of gradients of any sizes, every max_norm > 0", "why_tests_cant": "An inequality between real norms that has to hold for all gradients.", "anchors": ["pfrl/utils/clip_l2_grad_norm.py"]}
{"id": "C55", "title": "Conjugate gradient solves symmetric positive definite systems", "statement": "For a symmetric positive definite operator conjugate_gradient run with tolerance 0 for at least as many iterations as the dimension returns the exact solution, including for right-hand side zero, and each iterate's residual recursion equals b - Ax.", "quantifier": "every dimension, every symmetric positive definite operator, every right-hand side, max_iter at least the dimension", "why_tests_cant": "Termination in n steps is a theorem about all n-dimensional systems.", "anchors": ["pfrl/utils/conjugate_gradient.py"]}
{"id": "C56", "title": "Empirical normalisation equals statistics of all data seen", "statement": "After any sequence of batches the running mean and variance are the mean and population variance of all samples seen, regardless of how they were split into batches; inverse undoes forward; nothing changes after `until` samples.", "quantifier": "every sequence of batches of any sizes, every `until`", "why_tests_cant": "All ways of splitting data into batches must give the same statistics.", "anchors": ["pfrl/nn/empirical_normalization.py"]}
{"id": "C57", "title": "Greedy action attains the maximum action value", "statement": "For discrete action values, max equals the value of the greedy action and no action exceeds it, advantages are never positive; for quadratic action values the greedy action attains the maximum over the admissible box.", "quantifier": "every table of action values, every quadratic form with bounds", "why_tests_cant": "Optimality over a continuum of actions.", "anchors": ["pfrl/action_value.py: DiscreteActionValue, QuadraticActionValue"]}
{"id": "C58", "title": "Dueling heads are identifiable", "statement": "The advantage part of a dueling head has zero mean over actions, so the mean of the Q values equals the state value, and adding a constant to the raw advantages changes nothing.", "quantifier": "every number of actions and every output of the two streams", "why_tests_cant": "Identities in real variables for any number of actions.", "anchors": ["pfrl/q_functions/dueling_dqn.py: forward"]}
{"id": "C59", "title": "Agent save/load round trip", "statement": "Loading from a directory produced by save restores every saved attribute (recursively through nested savers) of an identically structured agent to the saved values and touches nothing else; save refuses cyclic attribute graphs instead of looping.", "quantifier": "every tree of nested savers of any depth, every content, every prior state of the loading agent; for cyclic structures every cycle", "why_tests_cant": "Nesting depth and cycles are unbounded.", "anchors": ["pfrl/agent.py: AttributeSavingMixin"]}
{"id": "C60", "title": "TRPO line search never accepts a bad step", "statement": "When the surrogate gain before the step is finite, after the line search the policy parameters are either a backtracked step with finite values, non-negative improvement and KL at most max_kl, or exactly the parameters before the update.", "quantifier": "every behaviour of the surrogate gain and of the KL divergence as functions of the parameters, including non-finite results", "why_tests_cant": "The gain and the divergence are arbitrary functions of the network parameters.", "anchors": ["pfrl/agents/trpo.py: _line_search"]}
{"id": "C61", "title": "TD3 delayed policy updates", "statement": "TD3 updates policy and targets exactly once every policy_update_delay critic updates and its targets use the smaller of the two target critics and never bootstrap from terminal states.", "quantifier": "every number of updates and every policy_update_delay >= 1", "why_tests_cant": "The delay is counted over the whole life of the agent.", "anchors": ["pfrl/agents/td3.py: update, update_q_func"]}
{"id": "C62", "title": "Bootstrapped targets of the Q-learning family", "statement": "DQN, Double DQN, DDPG, SAC and TD3 targets equal reward on terminal transitions, otherwise reward plus discount^n times their bootstrap; n-step experiences use gamma^n.", "quantifier": "every batch of n-step experiences of mixed lengths, every gamma, every output of the networks", "why_tests_cant": "The agents must agree for all lengths and real values; tests use one-step experiences.", "anchors": ["pfrl/agents/dqn.py: _compute_target_values", "pfrl/agents/double_dqn.py", "pfrl/agents/ddpg.py: compute_critic_loss", "pfrl/agents/soft_actor_critic.py: update_q_func"]}
{"id": "C63", "title": "Quantile Huber loss is a proper loss", "statement": "The element-wise quantile Huber loss is non-negative, zero exactly when prediction equals target (for tau in (0,1)), and asymmetric by tau: the ratio of over- to under-estimation penalties is (1-tau)/tau. It is differentiable everywhere and its gradient in the prediction is the error clipped to [-1, 1], times 1-tau when overestimating and tau otherwise.", "quantifier": "every prediction, target and tau in (0,1)", "why_tests_cant": "An inequality and an equivalence over real numbers.", "anchors": ["pfrl/agents/iqn.py: compute_eltwise_huber_quantile_loss"]}
{"id": "C64", "title": "Replay buffer save/load round trip", "statement": "Loading a file written by save gives back the same stored experiences and capacity limit; old-format files keep the same experiences.", "quantifier": "every reachable buffer of each kind, every capacity", "why_tests_cant": "The claim is about all contents a buffer can reach.", "anchors": ["pfrl/replay_buffers/replay_buffer.py: save, load", "pfrl/replay_buffers/episodic.py: load"]}
{"id": "C65", "title": "Noop-reset and frame-skip wrappers", "statement": "MaxAndSkipEnv performs at most `skip` inner steps, stops at the first done, returns the sum of the rewards of the steps performed and the elementwise maximum of the last two frames; NoopResetEnv performs between 1 and noop_max no-op steps after reset and restarts whenever the game ends meanwhile.", "quantifier": "every inner environment, including ones that end at any inner step, every skip >= 1 and noop_max >= 1, every random draw", "why_tests_cant": "The inner environment may end at any of the skipped steps.", "anchors": ["pfrl/wrappers/atari_wrappers.py: NoopResetEnv, MaxAndSkipEnv"]}
{"id": "C66", "title": "A persistent queue started from an ancestor directory begins with the ancestor's newest data", "statement": "Opening a persistent queue with an ancestor directory and a bound maxlen yields the newest maxlen items of the whole lineage (the ancestor's ancestors first, then the ancestor, then the directory's own items); without a bound it yields all of them.", "quantifier": "every lineage of directories of any depth, every division of their data into chunk files, every maxlen", "why_tests_cant": "depends on the depth of the lineage, on how the items of each directory are divided into chunk files and on the sizes relative to maxlen", "anchors": ["pfrl/collections/persistent_collections.py: PersistentRandomAccessQueue._load_ancestor, __init__"]}
{"id": "C67", "title": "A2C can be resumed at any step offset", "statement": "An A2C agent whose step counter was set to any offset before training (as train_agent_batch does with step_offset) trains like one started at zero.", "quantifier": "every step offset, every configuration and training history", "why_tests_cant": "The offset is an unbounded number; tests start at 0.", "anchors": ["pfrl/agents/a2c.py: _batch_act_train, _flush_storage", "pfrl/experiments/train_agent_batch.py: train_agent_batch"]}
{"id": "C68", "title": "ACER truncation with bias correction is unbiased", "statement": "For a categorical policy, averaged over the action drawn from the behaviour policy, the truncated importance-weighted term plus the bias correction weigh the score of each action by exactly its probability under the current policy times its advantage; the sampled correction used for other policies has the same average as the full correction.", "quantifier": "every number of actions, every pair of policies with positive probabilities, every action values, every truncation threshold", "why_tests_cant": "An identity between expectations over real-valued distributions; sampling can only estimate it.", "anchors": ["pfrl/agents/acer.py: compute_policy_gradient_loss, compute_policy_gradient_full_correction, compute_policy_gradient_sample_correction"]}
{"id": "C69", "title": "Fire-on-reset leaves a running episode and returns its current observation", "statement": "FireResetEnv.reset leaves the environment in a running episode and returns the observation of the state it is in.", "quantifier": "every inner environment, including ones where either of the two steps made by the wrapper ends the episode", "why_tests_cant": "Depends on the game ending during either of the two steps; a test uses one game.", "anchors": ["pfrl/wrappers/atari_wrappers.py: FireResetEnv"]}
{"id": "C70", "title": "Loading a saved normaliser reproduces the saved normalisation", "statement": "After load_state_dict an EmpiricalNormalization normalises every input exactly as the module whose state was saved did.", "quantifier": "every saved state, every history of the module that loads it (in particular whether it normalised anything before), every input", "why_tests_cant": "The outcome depends on what the loading module had computed before; a test loads into a fresh module.", "anchors": ["pfrl/nn/empirical_normalization.py: EmpiricalNormalization"]}
{"id": "C71", "title": "The quadratic Q-function head has a unique best action inside the bounds", "statement": "Whatever its layers output, FCQuadraticStateQFunction produces a symmetric positive definite matrix; with scale_mu its greedy action lies inside the action bounds, its max is v, and every other action has a strictly smaller value.", "quantifier": "every action dimension, every output of the layers, every ordered bounds", "why_tests_cant": "Positive definiteness is a statement about all directions of a real vector space of any dimension.", "anchors": ["pfrl/q_functions/state_q_functions.py: FCQuadraticStateQFunction", "pfrl/functions/lower_triangular_matrix.py: lower_triangular_matrix", "pfrl/action_value.py: QuadraticActionValue"]}
{"id": "C72", "title": "Advantage-learning targets lie between the Bellman target and the action-gap correction", "statement": "The targets of AL and PAL equal the Bellman target minus alpha times the (persistent) action gap of the target network (DoublePAL: the target of Double DQN minus it), so they never exceed the Bellman target, and PAL is never below AL; the target of a terminal transition does not depend on the next state.", "quantifier": "every batch, every alpha >= 0, every output of the networks, every terminal flag", "why_tests_cant": "Inequalities between real-valued targets and independence of an input.", "anchors": ["pfrl/agents/al.py: _compute_y_and_t", "pfrl/agents/pal.py: _compute_y_and_t", "pfrl/agents/double_pal.py: _compute_y_and_t"]}
{"id": "C73", "title": "Dynamic policy programming targets use one averaging operator consistently", "statement": "DPP's target is the old action value plus reward plus discounted operator value of the next state (none when terminal) minus operator value of the current state; every operator (softmax expectation, log-sum-exp, max) lies within its known bounds of the maximum: the expectation never exceeds it, log-sum-exp lies between max and max + log(n)/eta.", "quantifier": "every number of actions, every action values, every eta > 0", "why_tests_cant": "Inequalities over real action values of any number.", "anchors": ["pfrl/agents/dpp.py: AbstractDPP, DPP, DPPL, DPPGreedy"]}
{"id": "C74", "title": "TRPO's full step points uphill and respects the divergence bound in the quadratic model", "statement": "The step TRPO tries first has positive inner product with the gradient of the surrogate gain, and its divergence in the quadratic model is positive and below max_kl, however early the conjugate gradient iteration stops.", "quantifier": "every dimension, every symmetric positive definite Fisher operator, every gradient other than zero, every max_kl > 0, every number of iterations >= 1", "why_tests_cant": "A statement about all positive definite systems.", "anchors": ["pfrl/agents/trpo.py: _compute_kl_constrained_step"]}
{"id": "C75", "title": "Recurrent agents carry hidden state within an episode only", "statement": "A recurrent agent chooses each action from the model state reached by feeding the observations of the current episode of that environment, in that mode (training or evaluation), from the initial state; it stores with each transition the state before and after acting; and every evaluation begins in the initial state.", "quantifier": "every sequence of act and observe calls in both modes, every number of environments, every pattern of episode ends, every change of the model between calls", "why_tests_cant": "Episode ends of several environments and both modes interleave in unboundedly many ways.", "anchors": ["pfrl/agents/dqn.py: batch_act, batch_observe", "pfrl/agents/ppo.py: batch_act, _batch_observe_train", "pfrl/agents/trpo.py: batch_act", "pfrl/agents/a3c.py: act", "pfrl/utils/recurrent.py: mask_recurrent_state_at, get_recurrent_state_at", "pfrl/experiments/evaluator.py: _run_episodes"]}
{"id": "C76", "title": "Recurrent containers treat every sequence independently and agree with one-step computation", "statement": "A RecurrentSequential or RecurrentBranched (nested in any way) of recurrent layers and row-wise layers, applied to a packed batch of sequences, gives each sequence exactly the outputs and the final state it would get alone; and computing a batch of sequences at once gives the same outputs as feeding the observations one step at a time while carrying the state.", "quantifier": "every nesting of containers, every batch of sequences of any lengths sorted by length, every initial state including None", "why_tests_cant": "All nestings, numbers and lengths of sequences.", "anchors": ["pfrl/nn/recurrent_sequential.py: RecurrentSequential", "pfrl/nn/recurrent_branched.py: RecurrentBranched", "pfrl/utils/recurrent.py: pack_and_forward, one_step_forward, wrap_packed_sequences_recursive, unwrap_packed_sequences_recursive"]}
{"id": "C77", "title": "Batches of episodes keep outputs, actions, rewards and stored states of a transition together", "statement": "When a recurrent agent updates from episodes given in any order, each row of the flat actions, rewards, end flags and discounts belongs to the same transition as the same row of the model's output for the states (computed from the recurrent state stored with the episode's first transition) and for the next states; each transition has exactly one row; next actions are present iff all transitions have one; unsorted episodes are refused.", "quantifier": "every list of non-empty episodes of any lengths in any order, every model that treats sequences independently", "why_tests_cant": "The row order depends on all lengths at once; tests use one or two short episodes.", "anchors": ["pfrl/replay_buffer.py: batch_recurrent_experiences", "pfrl/utils/recurrent.py: flatten_sequences_time_first, concatenate_recurrent_states, pack_and_forward", "pfrl/agents/dqn.py: update_from_episodes"]}
{"id": "C78", "title": "Downloaded models are whole, downloaded once, and complete when returned", "statement": "However many processes call download_model/cached_download for the same or different models, and wherever they die or fail: the cached file and the stored archive are absent or complete; at most one call per model reports a fresh download; a call left alone returns; and when a call returns, the model directory holds exactly the files of the archive.", "quantifier": "every interleaving of any number of calls, every crash or error at every byte of a download or of an extraction", "why_tests_cant": "Crash points and interleavings of processes cannot be enumerated by tests.", "anchors": ["pfrl/utils/pretrained_models.py: cached_download, download_and_store_model, download_model"]}
{"id": "C79", "title": "Preparing an output directory never destroys an old experiment", "statement": "If prepare_output_dir(make_backup=True) is cut off at any point, the old experiment is in the output directory unchanged or complete in the new backup, and earlier backups are untouched; files other than the ones it writes itself are never changed; when it returns, start.txt has gained one line and the other files have the new content.", "quantifier": "every old directory content, every crash point at byte granularity, every argument", "why_tests_cant": "Crash points and directory contents are unbounded.", "anchors": ["pfrl/experiments/prepare_output_dir.py: prepare_output_dir, save_git_information"]}
{"id": "C80", "title": "A persistent replay buffer never loses a stored transition", "statement": "After opening a directory with any history of sessions and crashes, and any calls from any environments, the persistent replay buffer holds exactly the newest capacity of all transitions ever stored, in order of arrival, whether their episodes have ended or not. If the process dies at any byte of any call, reopening succeeds with any capacity and yields the same contents, plus the transition of the interrupted call only if it was written completely.", "quantifier": "all histories of sessions and crashes, all capacities, all sequences of append and stop_current_episode over all environments, all crash points, all lawful pickles", "why_tests_cant": "the crash points and the histories of earlier sessions are unbounded", "anchors": [["pfrl/replay_buffers/persistent.py", "PersistentReplayBuffer"], ["pfrl/replay_buffers/replay_buffer.py", "ReplayBuffer.append"]]}
{"id": "C81", "title": "A persistent episodic buffer keeps episodes and transitions together", "statement": "A persistent episodic buffer holds finished episodes and exactly their transitions, up to its capacity in transitions, also across sessions; a crash leaves every episode finished by completed calls with all of its transitions, and of the episode being finished either nothing or the whole episode and a first part of its transitions.", "quantifier": "all histories of sessions and crashes, all capacities, all sequences of calls over all environments, all crash points", "why_tests_cant": "the two stores are written one after the other, byte by byte: tests cannot visit all interruptions or all histories", "anchors": [["pfrl/replay_buffers/persistent.py", "PersistentEpisodicReplayBuffer"], ["pfrl/replay_buffers/episodic.py", "EpisodicReplayBuffer.stop_current_episode"]]}
{"id": "C82", "title": "RMSprop with eps inside the root never blows up", "statement": "With 0 <= alpha < 1, eps > 0 and 0 <= momentum < 1, no history of gradients and learning rates makes RMSpropEpsInsideSqrt fail, take the root of a negative number or divide by zero, also in centered mode. Without centering no step moves an entry by more than lr / ((1 - momentum) sqrt(1 - alpha)). Without momentum and weight decay a step subtracts lr times the gradient over the root of eps plus the exponential moving average of the squared gradients (minus, if centered, the squared average). The shared variant changes parameters exactly as the plain one.", "quantifier": "every history of steps (with or without gradients), every learning rate schedule, every valid setting, every tensor shape", "why_tests_cant": "Histories and gradients are unbounded; the bound must hold after every history.", "anchors": [["pfrl/optimizers/rmsprop_eps_inside_sqrt.py", "RMSpropEpsInsideSqrt.step"], ["pfrl/optimizers/rmsprop_eps_inside_sqrt.py", "SharedRMSpropEpsInsideSqrt.__init__"]]}
{"id": "C83", "title": "PPO's loss is a pessimistic bound with clipped gradients", "statement": "The loss PPO minimises is, for every minibatch, at least the one without clipping (both for the policy and the value part), and equal to it if no probability ratio and no value left its clip range. The policy loss has no gradient with respect to the log probability of a transition whose ratio has left the clip range in the direction its advantage asks for; for every other transition off the boundary the gradient is that of the unclipped objective. The value part likewise. The entropy enters with its coefficient.", "quantifier": "every minibatch, every real log probability, advantage, value and entropy, every clip range and coefficient", "why_tests_cant": "The statement compares two real functions at all arguments and speaks about gradients.", "anchors": [["pfrl/agents/ppo.py", "PPO._lossfun"], ["pfrl/agents/ppo.py", "_elementwise_clip"]]}
{"id": "C84", "title": "PPO standardises advantages over the whole data set, and training never fails because of it", "statement": "With standardize_advantages every minibatch of every epoch uses advantages with mean zero and mean square at most one over the data set, in the order of the original ones, the same for a transition in each epoch; shifting all rewards' advantages by a constant changes nothing. No data set makes the update fail.", "quantifier": "every data set, every minibatch size and number of epochs, every shuffling", "why_tests_cant": "Data sets and permutations are unbounded; failures occur only for particular data (all advantages equal).", "anchors": [["pfrl/agents/ppo.py", "PPO._update"], ["pfrl/agents/ppo.py", "PPO._update_recurrent"], ["pfrl/agents/ppo.py", "PPO._update_once_recurrent"]]}
{"id": "C85", "title": "Losses of the Q-learning family weight, reduce and report errors per experience", "statement": "With all weights one, weighted and unweighted losses agree for DQN, categorical DQN and IQN under both reductions. The gradient of the weighted DQN loss with respect to a prediction is its weight times the TD error (clipped to [-1, 1] with clip_delta), divided by the batch size for the mean; that of the IQN loss is the quantile-weighted clipped error. The reported errors have one entry per experience, in order, each a function of this experience only, and are never negative. The categorical loss of a prediction is, up to the clamp at 1e-10, smallest for the target distribution itself.", "quantifier": "every batch, every real prediction, target and weight, both reductions", "why_tests_cant": "The statements concern gradients and minima over all real vectors.", "anchors": [["pfrl/agents/dqn.py", "compute_value_loss"], ["pfrl/agents/dqn.py", "compute_weighted_value_loss"], ["pfrl/agents/dqn.py", "DQN._compute_loss"], ["pfrl/agents/categorical_dqn.py", "compute_value_loss"], ["pfrl/agents/categorical_dqn.py", "compute_weighted_value_loss"], ["pfrl/agents/iqn.py", "compute_value_loss"], ["pfrl/agents/iqn.py", "compute_weighted_value_loss"], ["pfrl/agents/iqn.py", "IQN._compute_loss"]]}
{"id": "C86", "title": "Training with prioritized replay gives each sampled experience the priority of its own error", "statement": "In every history of storing experiences and updating the agent, with any networks at any time, nothing fails; every minibatch consists of different stored experiences drawn in proportion to the current priorities; each is used with its own prediction, target and importance weight; afterwards exactly the sampled experiences have new priorities, each that of its own TD error; new experiences get the largest priority so far and push out the oldest one of a full buffer; the weight exponent grows by its step up to 1.", "quantifier": "every history of stores and updates, every random draw, every network at every update, every capacity, every normalisation mode", "why_tests_cant": "The assignment of errors to experiences goes through positions in a tree which evictions and samplings move; histories are unbounded.", "anchors": [["pfrl/replay_buffers/prioritized.py", "PrioritizedReplayBuffer"], ["pfrl/agents/dqn.py", "DQN.update"], ["pfrl/collections/prioritized.py", "PrioritizedBuffer"]]}
{"id": "C87", "title": "What a training has written survives a crash", "statement": "If a training is killed at any point, scores.txt holds the header and the complete lines of all finished evaluations (and at most the beginning of the next line); every agent saved before as a checkpoint, on an exception or at the end is complete; and the directory best holds the agent with the highest score so far. Starting again in the same directory keeps the recorded scores and the best agent.", "quantifier": "every sequence of evaluations and saves with any scores, every crash point between two bytes, every state of the directory before", "why_tests_cant": "Crash points lie between any two writes; a test cannot kill the program at all of them.", "anchors": [["pfrl/experiments/evaluator.py", "Evaluator"], ["pfrl/experiments/evaluator.py", "write_header"], ["pfrl/experiments/evaluator.py", "record_stats"], ["pfrl/experiments/evaluator.py", "save_agent"], ["pfrl/experiments/train_agent.py", "train_agent"], ["pfrl/agent.py", "AttributeSavingMixin.save"]]}
{"id": "C88", "title": "Boltzmann exploration and random actions have the documented probabilities", "statement": "Boltzmann exploration chooses action i with probability exp(q_i/T) / sum_j exp(q_j/T); better actions are more probable for T > 0; as T goes to 0 the choice becomes uniform among the greedy actions and as T grows uniform among all. RandomizeAction passes on another action b with probability f/n and the agent's action with 1 - f + f/n, always within the action space.", "quantifier": "every vector of action values, every temperature, every fraction and number of actions, all uniform random draws", "why_tests_cant": "Probabilities are measures of sets of draws and limits in the temperature; sampling only estimates them.", "anchors": [["pfrl/explorers/boltzmann.py", "Boltzmann.select_action"], ["pfrl/wrappers/randomize_action.py", "RandomizeAction.action"]]}
{"id": "C89", "title": "The linear interpolation hook goes from its start value to its stop value", "statement": "LinearInterpolationHook with total_steps > 1 sets start_value at step 1 and stop_value from total_steps on, changes by the same amount at every step in between, is monotone and never leaves the interval between the two values.", "quantifier": "every number of steps, every pair of real values, every step", "why_tests_cant": "All steps and real values are covered.", "anchors": [["pfrl/experiments/hooks.py", "LinearInterpolationHook.__call__"]]}
{"id": "C90", "title": "Every optimiser step uses the gradient of its own loss only", "statement": "In every agent, whatever gradients were left in the networks by earlier updates, by losses of other networks, by thrown-away episodes or by other processes, each optimiser step uses the (clipped) gradient of the loss it belongs to: DQN, A2C, PPO and TRPO's value function descend their minibatch's loss; DDPG, TD3 and SAC update critics, actor, temperature and targets in the order of the papers although the actor loss also reaches the critics; REINFORCE's step is the mean over exactly batchsize episodes in both modes; A3C and ACER processes apply, under any schedule, the gradient at their own copy of the parameters.", "quantifier": "every sequence of minibatches or episodes, every loss, optimiser and clipping function, every content of .grad at the start, every interleaving of processes, both behaviours of zero_grad", "why_tests_cant": "Left-over gradients depend on the whole history and on the interleaving; a test sees one history and cannot tell a small wrong gradient from noise.", "anchors": [["pfrl/agents/ddpg.py", "DDPG.update"], ["pfrl/agents/td3.py", "TD3.update"], ["pfrl/agents/soft_actor_critic.py", "SoftActorCritic.update"], ["pfrl/agents/reinforce.py", "REINFORCE.accumulate_grad"], ["pfrl/agents/a3c.py", "A3C.update"], ["pfrl/agents/acer.py", "ACER.update"], ["pfrl/agents/dqn.py", "DQN.update"], ["pfrl/agents/a2c.py", "A2C.update"], ["pfrl/agents/ppo.py", "PPO._update"], ["pfrl/agents/trpo.py", "TRPO._update_vf"], ["pfrl/utils/copy_param.py", "copy_grad"]]}
{"id": "C91", "title": "A3C uses every transition exactly once, in its own segment", "statement": "Whatever the history of training steps, with evaluation calls anywhere in between, an A3C agent raises no error and its updates partition the training steps in order: a segment ends after t_max steps or at an episode end, holds that segment's own observations, actions and rewards, bootstraps from the observation after it unless the episode ended by done, and restarts recurrent models from the state before its first step, which is None at the start of an episode.", "quantifier": "every history of act/observe calls in training mode with evaluation calls interleaved, every t_max, recurrent or not", "why_tests_cant": "Segments depend on where episodes end relative to t_max over the whole history.", "anchors": [["pfrl/agents/a3c.py", "A3C._act_train"], ["pfrl/agents/a3c.py", "A3C._observe_train"], ["pfrl/agents/a3c.py", "A3C.update"]]}
{"id": "C92", "title": "ACER stores every transition once, trains once on it, and replays as configured", "statement": "Whatever the history, an ACER agent stores each training step exactly once with the distribution its action was drawn from and closes episodes at their ends; after every segment it makes one on-policy update (unless disabled) from exactly that segment, computed from forward passes of the unchanged model, and then n_times_replay updates from replay once the buffer is large enough.", "quantifier": "every history of act/observe calls in training mode with evaluation calls interleaved, every configuration", "why_tests_cant": "Order and number of calls over unbounded histories; that no update comes between an act and the update using it.", "anchors": [["pfrl/agents/acer.py", "ACER._act_train"], ["pfrl/agents/acer.py", "ACER._observe_train"], ["pfrl/agents/acer.py", "ACER.update_on_policy"], ["pfrl/agents/acer.py", "ACER.update_from_replay"]]}
{"id": "C93", "title": "SAC's temperature stays positive, follows the entropy and changes at a bounded rate", "statement": "Without an entropy target SAC's temperature is the initial one forever. With one it starts at the initial temperature, is positive after any sequence of updates, rises with every update as long as the entropy estimates have been below the target, falls as long as they have been above, and n updates change it by a factor of at most exp(73 * learning rate * n), whatever the log probabilities.", "quantifier": "every sequence of batches of log probabilities, every learning rate, target, initial temperature and clipping norm", "why_tests_cant": "The optimiser's moments depend on the whole history; positivity and the rate bound must hold for arbitrarily bad batches.", "anchors": [["pfrl/agents/soft_actor_critic.py", "TemperatureHolder"], ["pfrl/agents/soft_actor_critic.py", "SoftActorCritic.update_temperature"], ["pfrl/agents/soft_actor_critic.py", "SoftActorCritic.temperature"]]}
{"id": "C94", "title": "Burn-in actions are used exactly until the first policy update", "statement": "With burnin_action_func, DDPG, TD3 and SAC take their training actions from it exactly until the policy has been updated once: for DDPG and SAC while fewer environment steps have been done than the replay start size rounded up to a multiple of the update interval, for TD3 until the delay-th update. Actions in evaluation mode never come from it.", "quantifier": "every history of training steps on any number of environments, any episode ends, evaluations in between, every configuration whose buffer can hold the replay start size", "why_tests_cant": "The switch depends on counters over the whole history and on how rows of a batch, interval and start size interact.", "anchors": [["pfrl/agents/ddpg.py", "DDPG._batch_act_train"], ["pfrl/agents/td3.py", "TD3._batch_act_train"], ["pfrl/agents/soft_actor_critic.py", "SoftActorCritic._batch_act_train"], ["pfrl/replay_buffer.py", "ReplayUpdater.update_if_necessary"]]}
{"id": "C95", "title": "Environment modifiers change only what they say", "statement": "make_timestep_limited reports done exactly when the environment does or at the limit-th and later steps since the last reset; make_action_repeated repeats until done or n_times and returns the last observation with the sum of the rewards; action and reward filters and clipping change only actions or rewards, every reward passing a stateful filter once and in order. A limit set before repetition counts environment steps, one set after it counts decisions.", "quantifier": "every environment, every history of step and reset calls, every limit, number of repetitions and filter", "why_tests_cant": "The closures' counters depend on the whole history of calls, and modifiers are stacked in any order.", "anchors": [["pfrl/utils/env_modifiers.py", "make_timestep_limited"], ["pfrl/utils/env_modifiers.py", "make_action_repeated"], ["pfrl/utils/env_modifiers.py", "make_reward_filtered"], ["pfrl/utils/env_modifiers.py", "make_reward_clipped"], ["pfrl/utils/env_modifiers.py", "make_action_filtered"]]}
{"id": "C96", "title": "Reward filters subtract and scale by running statistics and never fail", "statement": "AverageRewardFilter returns the reward minus the exponentially weighted average of all rewards so far. NormalizedRewardFilter divides this deviation by a standard deviation computed from the weighted variance and eps, returns a number for every history of rewards, and the result is bounded.", "quantifier": "every history of rewards, every tau in (0,1), eps > 0 and scale", "why_tests_cant": "Whether the variance can vanish depends on the whole history.", "anchors": [["pfrl/utils/reward_filter.py", "NormalizedRewardFilter"], ["pfrl/utils/reward_filter.py", "AverageRewardFilter"]]}
{"id": "C97", "title": "Noise in a factorised noisy layer has mean zero and the intended covariance", "statement": "For every input, the mean of a FactorizedNoisyLinear layer's output over its noise is the output of the linear layer with the mean parameters; different outputs are uncorrelated; the variance of output j is 2/pi times the sum of the squares of sigma.weight[j,i]*x[i] plus sqrt(2/pi) times sigma.bias[j] squared.", "quantifier": "every layer size, all parameters, every input, with and without bias, the whole distribution of the noise", "why_tests_cant": "A statement about a distribution; tests can only sample it.", "anchors": [["pfrl/nn/noisy_linear.py", "FactorizedNoisyLinear.forward"], ["pfrl/nn/noisy_linear.py", "FactorizedNoisyLinear._eps"]]}
{"id": "C98", "title": "to_factorized_noisy replaces every linear layer and nothing else", "statement": "For every network, to_factorized_noisy replaces each linear layer below the root by a noisy layer, keeps all names, all other modules and all sharing of modules, and the resulting noisy layers can be called.", "quantifier": "every network of modules, of any depth, with any names and any sharing", "why_tests_cant": "Networks are unbounded structures, and shared modules matter.", "anchors": [["pfrl/nn/noisy_chain.py", "to_factorized_noisy"], ["pfrl/nn/noisy_chain.py", "_map_modules"]]}
{"id": "C99", "title": "Environments in worker processes behave like environments called one after the other", "statement": "For every program of step, reset, seed and close calls on a MultiprocessVectorEnv and every schedule of the processes, the results are those of calling the environments one after the other in order, every call returns or raises, and after close every worker process has ended and every environment has been closed exactly once.", "quantifier": "every program that chooses calls by earlier results, every schedule of the processes, any number of environments, any environments, including ones that raise", "why_tests_cant": "Interleavings of processes cannot be enumerated by tests, and a hang is only seen for one schedule at a time.", "anchors": [["pfrl/envs/multiprocess_vector_env.py", "worker"], ["pfrl/envs/multiprocess_vector_env.py", "MultiprocessVectorEnv.step"], ["pfrl/envs/multiprocess_vector_env.py", "MultiprocessVectorEnv.reset"], ["pfrl/envs/multiprocess_vector_env.py", "MultiprocessVectorEnv.seed"], ["pfrl/envs/multiprocess_vector_env.py", "MultiprocessVectorEnv.close"]]}
{"id": "C100", "title": "Importance weights undo prioritization when beta is 1", "statement": "After any history, once beta has reached 1, the expected weighted loss of a prioritized minibatch is proportional to the average loss over the whole memory, so that prioritization does not bias the update.", "quantifier": "every history of stored experiences and updates, every memory and all priorities, every network, the whole distribution of the draws", "why_tests_cant": "A statement about an expected value over draws from a memory of any size.", "anchors": [["pfrl/replay_buffers/prioritized.py", "PriorityWeightError.weights_from_probabilities"], ["pfrl/collections/prioritized.py", "PrioritizedBuffer.sample"], ["pfrl/agents/dqn.py", "DQN._compute_loss"]]}
{"id": "C101", "title": "Descending the policy loss ascends the expected return", "statement": "Averaged over all trajectories the environment and the current policy can produce, the gradient of the policy loss of A3C, A2C and REINFORCE is minus the gradient of the expected return (plus the entropy bonus), whatever the value function used as baseline.", "quantifier": "every environment with finitely many actions and outcomes, Markov or not, every differentiable policy, every value function, every segment length, any number of processes", "why_tests_cant": "A statement about an expected value over all trajectories; a learning curve on a toy task cannot tell a biased gradient from a noisy one.", "anchors": [["pfrl/agents/a3c.py", "A3C.update"], ["pfrl/agents/a2c.py", "A2C.update"], ["pfrl/agents/reinforce.py", "REINFORCE.accumulate_grad"]]}
{"id": "C102", "title": "Evaluation statistics describe exactly the episodes that were run", "statement": "After an evaluation by episodes or steps, serial or with a vector environment, the reported number, mean, median, sample standard deviation, maximum and minimum are those of the returns and lengths of exactly the evaluated episodes; they are consistent with each other, do not depend on the order in which episodes finish, and the evaluation never fails to report.", "quantifier": "every environment, agent, goal of at least one step or episode, maximal episode length, number of environments", "why_tests_cant": "The statement ranges over all sequences of rewards and all interleavings of the environments of a batch.", "anchors": [["pfrl/experiments/evaluator.py", "eval_performance"]]}
{"id": "C103", "title": "The ABC environment rewards exactly the correct sequence of actions", "statement": "An episode pays 1 if its actions begin with 0, ..., N-1 and 0 otherwise, ends at the first wrong action or at the goal and not before, and shows one-hot observations of the state plus the shift; without episodes the reward counts completed rounds; with partial observability memory is necessary and sufficient to earn the reward; with continuous actions the best possible expected return is (e/(e+(N-1)/e))^N.", "quantifier": "every size N, every sequence of actions, every policy on observation histories, both shifts", "why_tests_cant": "A statement about all action sequences and all policies; tests of agents use the environment as their yardstick, so an error in it is invisible to them.", "anchors": [["pfrl/envs/abc.py", "ABC"]]}
{"id": "C104", "title": "Critic targets contract towards the true values, and a correct critic is left alone", "statement": "In expectation over everything the policy and the environment can do, the value loss of A3C and A2C, the value targets and advantages of PPO and TRPO, and the Q-loss of ACER (also with replayed episodes of another policy) move predictions towards targets whose error is at most gamma times the error of the predictions; with exact values the expected gradient is zero and the expected advantages are the true ones.", "quantifier": "every environment with finitely many actions and outcomes, policy, behaviour policy, value function, segment length, discount, lambda, number of processes", "why_tests_cant": "It is a statement about an average over all trajectories of all environments; a test sees single updates, whose noise hides a bias.", "anchors": [["pfrl/agents/a3c.py", "A3C.update"], ["pfrl/agents/a2c.py", "A2C.update"], ["pfrl/agents/ppo.py", "_add_advantage_and_value_target_to_episode"], ["pfrl/agents/acer.py", "ACER.compute_loss"]]}
{"id": "C105", "title": "Fitting the targets of the Q-learning agents leads to an optimal policy", "statement": "If every new network fits the targets computed with the previous target network exactly, acting greedily becomes optimal: DQN approaches the optimal action values geometrically (with fitting errors up to a bounded distance, and the greedy policy loses accordingly little), Double DQN never targets more than DQN and agrees with it up to the distance of its two networks, and AL, PAL, DPPGreedy, DPPL and DPP act optimally from some generation on, whatever the network they started from; the loss of the DPP agents after N generations is of order 1/N, and fitting errors count only as far as their sums grow. This should hold for every number of steps of the stored experiences.", "quantifier": "every finite environment and number of actions, initial network, discount below one, alpha in [0, 1], eta > 0, behaviour policy, fitting error, number of generations", "why_tests_cant": "It is a limit statement over all environments and starting points; a test trains one agent for a while and sees a score.", "anchors": [["pfrl/agents/dqn.py", "DQN._compute_target_values"], ["pfrl/agents/double_dqn.py", "DoubleDQN._compute_target_values"], ["pfrl/agents/al.py", "AL._compute_y_and_t"], ["pfrl/agents/pal.py", "PAL._compute_y_and_t"], ["pfrl/agents/dpp.py", "AbstractDPP._compute_y_and_t"], ["pfrl/replay_buffers/replay_buffer.py", "ReplayBuffer.append"]]}
{"id": "C106", "title": "Soft Actor-Critic converges to the largest entropy-regularised return", "statement": "For any action space the SAC policy loss has exactly one minimiser: the density proportional to exp(smaller critic / temperature). While the policy stays the same, fitting the critics makes all four of them approach the policy's soft values (expected discounted rewards plus temperature times entropies), for any soft_update_tau and initial critics, and fitting errors cost at most their size divided by (1 - gamma). Fitting the policy to them never lowers a soft value, and repeating both leads to the optimal soft values. This should hold for every number of steps of the stored experiences and every soft_update_tau.", "quantifier": "every measure on any action space, critics and policies with a density; every finite environment, policy, temperature > 0, discount below one, tau in [0, 1], fitting error, number of updates", "why_tests_cant": "It is a statement about minimisers over all densities and about limits; a test trains one agent for a while and sees a score.", "anchors": [["pfrl/agents/soft_actor_critic.py", "SoftActorCritic.update_q_func"], ["pfrl/agents/soft_actor_critic.py", "SoftActorCritic.update_policy_and_temperature"], ["pfrl/agents/soft_actor_critic.py", "SoftActorCritic.sync_target_network"], ["pfrl/utils/copy_param.py", "soft_copy_param"]]}
{"id": "C107", "title": "Categorical DQN converges to the optimal values and to the return distributions", "statement": "Fitting the targets of Categorical (Double) DQN turns networks whose outputs are distributions into such networks, for any number of steps. If v_min and v_max cover the returns, the expected values follow DQN (Double DQN) exactly, so that with one-step targets they approach the optimal action values geometrically, up to the fitting error divided by (1 - gamma), and the probabilities themselves approach the return distributions of the optimal policy, projected on the atoms.", "quantifier": "every finite environment, exploration policy, support, number of atoms, discount below one, initial network, number of updates and, for the expected values, fitting error", "why_tests_cant": "Convergence of a sequence of distributions for all environments cannot be seen in a finite run; a test compares one projection with a hand-computed one.", "anchors": [["pfrl/agents/categorical_dqn.py", "_apply_categorical_projection"], ["pfrl/agents/categorical_dqn.py", "CategoricalDQN._compute_target_values"], ["pfrl/agents/categorical_double_dqn.py", "CategoricalDoubleDQN._compute_target_values"], ["pfrl/action_value.py", "DistributionalDiscreteActionValue"]]}
{"id": "C108", "title": "Acting deterministically takes the most probable action of the policy", "statement": "With act_deterministically the policy-based agents take an action of greatest probability (discrete actions) or of greatest density (continuous actions) under the policy's distribution. The policy heads return the distribution they document: softmax of the logits, or a Gaussian whose mean and variance are read from the given vector or from a parameter.", "quantifier": "every number of actions, logits, mean vector, scale vector or covariance factor, composition of transforms, and variance function with positive values", "why_tests_cant": "That no action in a continuum has greater density cannot be sampled, and tests of the squashed policy of SAC compare the action with tanh of the mean, which is not where the density is greatest.", "anchors": [["pfrl/utils/mode_of_distribution.py", "mode_of_distribution"], ["pfrl/policies/gaussian_policy.py", "GaussianHeadWithDiagonalCovariance"], ["pfrl/policies/gaussian_policy.py", "GaussianHeadWithStateIndependentCovariance"], ["pfrl/policies/gaussian_policy.py", "GaussianHeadWithFixedCovariance"], ["pfrl/policies/softmax_policy.py", "SoftmaxCategoricalHead"], ["pfrl/policies/deterministic_policy.py", "DeterministicHead"], ["pfrl/agents/soft_actor_critic.py", "SoftActorCritic"]]}
{"id": "C109", "title": "Networks treat every element of a batch by itself", "statement": "The perceptrons, state-action critics, distributional and implicit quantile networks and Atari convolutional networks, in evaluation mode, compute the output for an element of a batch from that element alone, whatever the size of the batch and the other elements; batch_states puts observation i into row i of every component.", "quantifier": "every number and size of layers, parameters, nonlinearity, batch size and batch, number of thresholds and atoms; for batch_states every feature extractor and list of observations", "why_tests_cant": "A reshape with swapped dimensions keeps all shapes and is invisible on batches of one element or with equal dimensions; tests check shapes of a few batches.", "anchors": [["pfrl/nn/mlp.py", "MLP"], ["pfrl/nn/mlp_bn.py", "MLPBN"], ["pfrl/nn/atari_cnn.py", "LargeAtariCNN"], ["pfrl/nn/atari_cnn.py", "SmallAtariCNN"], ["pfrl/q_functions/state_action_q_functions.py", "FCSAQFunction"], ["pfrl/q_functions/state_action_q_functions.py", "FCLateActionSAQFunction"], ["pfrl/q_functions/state_q_functions.py", "DistributionalFCStateQFunctionWithDiscreteAction"], ["pfrl/agents/iqn.py", "ImplicitQuantileQFunction"], ["pfrl/agents/iqn.py", "CosineBasisLinear"], ["pfrl/utils/batch_states.py", "batch_states"]]}
{"id": "C110", "title": "Freshly constructed networks have outputs of the documented scale", "statement": "A perceptron that has just been constructed maps every input to outputs whose mean over the random initialisation is zero and whose mean square is last_wscale squared times the mean square of the input, times a factor per hidden layer that depends only on the nonlinearity (1/2 for relu, 1 for the identity). The numbers of units in the hidden layers do not matter.", "quantifier": "every input, number of inputs and outputs, list of hidden sizes, last_wscale, and measurable nonlinearity that keeps a fixed fraction of the square on average over the sign", "why_tests_cant": "It is a statement about the distribution of all weights of all layers; a test constructs a few networks and sees one draw.", "anchors": [["pfrl/initializers/lecun_normal.py", "init_lecun_normal"], ["pfrl/initializers/chainer_default.py", "init_chainer_default"], ["pfrl/nn/mlp.py", "MLP"]]}
{"id": "C111", "title": "The Atari environment with all its wrappers plays the documented frames", "statement": "With make_atari and wrap_deepmind, a step of the agent plays one to four frames of the game with its action, fewer than four only if the game is over or the frame limit is reached, returns the (sign of the) sum of their rewards, done at the end of the game or at the loss of a life, needs_reset at the frame limit, and the four latest warped frames. A reset after the end of the game or at the limit resets the game and plays the drawn number of no-ops; one after the loss of a life does not reset the game. The game is never played for more than max_frames frames without a reset.", "quantifier": "every game (state machine with lives), history of calls of the agent, no-op draws, frame limit, and choice of episode_life, clip_rewards and fire_reset", "why_tests_cant": "The wrappers interact: the counters of the lower ones see the frames the upper ones play. Tests wrap mocks with one wrapper at a time.", "anchors": [["pfrl/wrappers/atari_wrappers.py", "make_atari"], ["pfrl/wrappers/atari_wrappers.py", "wrap_deepmind"], ["pfrl/wrappers/continuing_time_limit.py", "ContinuingTimeLimit"]]}
{"id": "C112", "title": "Evaluations leave a training alone and are reported to the evaluation hooks", "statement": "In train_agent_with_evaluation, with a separate evaluation environment or with the one of the training: whenever the agent acts in training, it acts on the observation the environment returned last, which was returned to the training, and the episode has neither ended nor been cut. Each recorded score is the mean return of the episodes just run for it. Each evaluation writes one line, calls each hook once, in order, with the step and the score, and saves a best agent exactly at a new maximum; the scores are returned in order. A hook that raises ends the training at this evaluation, after the agent is saved. With a separate environment the training goes as without an evaluator. A hook that does not support the function is refused before anything happens; with OptunaPrunerHook a training ends at the first report for which the trial says so.", "quantifier": "every environment (state machine), agent, list of hooks, evaluation schedule and goal, and every outcome", "why_tests_cant": "The default shares one environment between training and evaluation; whether a training episode is interrupted depends on the schedule, the episodes and the outcome of each evaluation.", "anchors": [["pfrl/experiments/train_agent.py", "train_agent_with_evaluation"], ["pfrl/experiments/evaluator.py", "Evaluator.evaluate_and_update_max_score"], ["pfrl/experiments/evaluation_hooks.py", "OptunaPrunerHook"]]}
{"id": "C113", "title": "Evaluations leave a batch training alone", "statement": "In train_agent_batch_with_evaluation, whenever the agent acts in training, it acts on the observations the environments returned last, these were returned to the training, and no episode is over; each environment gets its action once, is reset at the beginning and when its episode is over and not otherwise; and the agent observes what came of it and which episodes were cut.", "quantifier": "every number of environments, environments (state machines), agent, schedule and goal of evaluations, and choice of eval_env", "why_tests_cant": "Evaluations are due after a number of steps, in the middle of episodes of the environments; whether they touch these depends on the arguments and on the states of all environments.", "anchors": [["pfrl/experiments/train_agent_batch.py", "train_agent_batch_with_evaluation"], ["pfrl/experiments/evaluator.py", "_batch_run_episodes"], ["pfrl/envs/serial_vector_env.py", "SerialVectorEnv"]]}
{"id": "C114", "title": "Tensorboard records of asynchronous training are complete", "statement": "With use_tensorboard, the statistics of every evaluation that a worker of train_agent_async makes are written to the event file exactly once, those of each worker in order, before train_agent_async returns; and it does return.", "quantifier": "every number of workers, sequence of evaluations of each, choice of the worker that reaches the successful score, and interleaving of the workers, their feeder threads, the writing thread and the main process", "why_tests_cant": "The thread polls an event and a queue which other processes set and fill; whether a record is lost depends on the interleaving.", "anchors": [["pfrl/experiments/evaluator.py", "record_tb_stats_loop"], ["pfrl/experiments/evaluator.py", "AsyncEvaluator"], ["pfrl/experiments/train_agent_async.py", "train_agent_async"]]}
{"id": "C115", "title": "What is in the replay buffer after a training is the environment's trajectory", "statement": "After train_agent_with_evaluation with a DQN-like agent (DQN, DDPG, TD3, SAC and their kin) and a ReplayBuffer of some capacity and num_steps n, the buffer holds exactly the newest, up to the capacity, of the n-step windows of the episodes that the training environment went through in training: each transition starts at the observation the environment returned just before, episodes end where the environment says done or asks for a reset or where the maximal length is reached, and nothing from an evaluation is in it; the agent has counted the steps of the training.", "quantifier": "every environment (state machine), exploration, network update, capacity, n, episode length limit, evaluation schedule and hooks, with a shared or a separate evaluation environment", "why_tests_cant": "It needs the loop, the agent, the evaluator and the buffer to agree on resets, cut episodes and modes over a whole training; tests exercise them one at a time.", "anchors": [["pfrl/experiments/train_agent.py", "train_agent_with_evaluation"], ["pfrl/agent.py", "BatchAgent"], ["pfrl/agents/dqn.py", "DQN"], ["pfrl/replay_buffers/replay_buffer.py", "ReplayBuffer"]]}
{"id": "C116", "title": "TRPO's update is a natural gradient step that improves the surrogate", "statement": "For policies with categorical or independent normal distributions whose network is twice continuously differentiable: the vector products that TRPO computes by differentiating the mean KL divergence twice are products with the Fisher information matrix; the KL divergence to the new policy is half the quadratic form of this matrix up to higher order; the gradient of the gain is the mean of ratio times advantage times score plus the entropy bonus; and whenever that gradient is not zero, the step is finite, goes uphill, stays below max_kl in the quadratic model, and the line search, if it may backtrack often enough, accepts a fraction of it with a gain not smaller and a KL divergence of at most max_kl.", "quantifier": "every network, batch, parameter vector, entropy coefficient, damping > 0, max_kl > 0, tolerance > 0 and number of conjugate gradient iterations > 0", "why_tests_cant": "It is a statement about derivatives and limits of functions on all of parameter space; tests compare numbers at a few points.", "anchors": [["pfrl/agents/trpo.py", "TRPO._update_policy"], ["pfrl/agents/trpo.py", "TRPO._compute_kl_constrained_step"], ["pfrl/agents/trpo.py", "_hessian_vector_product"], ["pfrl/agents/trpo.py", "TRPO._compute_gain"]]}
{"id": "C117", "title": "The monitor records each episode exactly once, also those cut by a reset", "statement": "With pfrl.wrappers.Monitor, whatever resets and steps are made, including resets in the middle of an episode as after needs_reset, no reset is refused, and after close the recorded episode lengths and rewards are those of the episodes of at least one step, each once and in order, the unfinished last one included; steps before the first reset or after done are refused.", "quantifier": "every sequence of resets and steps", "why_tests_cant": "Records depend on the whole history of resets, cut and finished episodes; tests try a few.", "anchors": [["pfrl/wrappers/monitor.py", "_StatsRecorder"], ["pfrl/wrappers/monitor.py", "Monitor"]]}
{"id": "C118", "title": "A failure of the learner ends the training and saves the agent", "statement": "When another thread sets the exception_event given to train_agent_async, as the learner and poller threads of DQN.setup_actor_learner_training do when they raise, the training is terminated and the current agent is saved, whatever the actors have sent or wait for at that moment.", "quantifier": "every interleaving of the actors, the poller and the learner, and every moment of failure", "why_tests_cant": "Whether the request to save is answered depends on where the poller is when the exception is signalled; no test makes the learner fail.", "anchors": [["pfrl/experiments/train_agent_async.py", "train_loop"], ["pfrl/experiments/train_agent_async.py", "train_agent_async"], ["pfrl/agents/dqn.py", "DQN._poll_pipe"], ["pfrl/agents/dqn.py", "DQN._poller_loop"], ["pfrl/agents/dqn.py", "DQN._learner_loop"], ["pfrl/agents/state_q_function_actor.py", "StateQFunctionActor.save"]]}
{"id": "C119", "title": "A PPO update begins with the on-policy gradient", "statement": "The data set of a PPO update has one entry for each step since the last update, in order, with the log-probability under the very policy that sampled the action and the value predicted then, for recurrent models too and wherever episodes end or are cut; and in the first optimisation step of the update all likelihood ratios are 1, nothing is clipped and the gradient is that of the on-policy actor-critic objective, whatever the clipping parameters and with an observation normaliser.", "quantifier": "all histories of observations, rewards, dones and resets in any number of environments, models, maximal sequence lengths, shuffles and hyperparameters", "why_tests_cant": "The ratios depend on what parameters, recurrent states and normaliser statistics were in force when each quantity was computed; tests only look at whether training succeeds.", "anchors": [["pfrl/agents/ppo.py", "_make_dataset"], ["pfrl/agents/ppo.py", "_make_dataset_recurrent"], ["pfrl/agents/ppo.py", "_add_log_prob_and_value_to_episodes_recurrent"], ["pfrl/agents/ppo.py", "PPO._update"], ["pfrl/agents/ppo.py", "PPO._update_recurrent"], ["pfrl/agents/ppo.py", "PPO._update_obs_normalizer"]]}
{"id": "C120", "title": "A batch training fills the replay buffer with what each environment went through", "statement": "After train_agent_batch_with_evaluation with an agent of the Q-learning family, the replay buffer holds the newest windows, up to its capacity, of an interleaving of the n-step windows of the episodes that each of the parallel environments went through, by the calls it got and its own answers; windows never cross the end of an episode, a cut or an evaluation; and the agent's step counter is step_offset plus the steps of all environments.", "quantifier": "all vectors of environments, agents and exploration, capacities, num_steps, episode limits, step offsets and evaluation schedules", "why_tests_cant": "Which transitions meet in a window depends on the interleaving of parallel episodes, cuts, masked resets and evaluations; tests run a few episodes with an abstract agent.", "anchors": [["pfrl/experiments/train_agent_batch.py", "train_agent_batch"], ["pfrl/experiments/train_agent_batch.py", "train_agent_batch_with_evaluation"], ["pfrl/agents/dqn.py", "DQN.batch_observe"], ["pfrl/agents/dqn.py", "DQN.batch_act"], ["pfrl/replay_buffers/replay_buffer.py", "ReplayBuffer.append"]]}
{"id": "C121", "title": "Statistics reported by agents are averages of what their names say", "statement": "get_statistics reports, after any history of acting, observing and updating: averages of the most recent values of the named quantity, over the documented window, nan if there are none, which lie between the smallest and the largest of the values; counters equal to the number of updates and steps; TRPO's average_kl never above max_kl; and the explained variance of the last data set, which is at most 1, is 1 exactly for predictions that are right up to a constant, 0 for constant predictions and nan exactly if all targets are equal.", "quantifier": "all histories of training and evaluation, of any length, with any values recorded", "why_tests_cant": "Windows forget, exponential averages never do, and evaluation must leave no trace; tests check statistics only for existing after a few steps.", "anchors": [["pfrl/agents/dqn.py", "DQN.get_statistics"], ["pfrl/agents/ddpg.py", "DDPG.get_statistics"], ["pfrl/agents/td3.py", "TD3.get_statistics"], ["pfrl/agents/soft_actor_critic.py", "SoftActorCritic.get_statistics"], ["pfrl/agents/ppo.py", "PPO.get_statistics"], ["pfrl/agents/ppo.py", "_compute_explained_variance"], ["pfrl/agents/trpo.py", "TRPO.get_statistics"], ["pfrl/agents/a2c.py", "A2C.get_statistics"], ["pfrl/agents/a3c.py", "A3C.get_statistics"], ["pfrl/agents/acer.py", "ACER.get_statistics"], ["pfrl/agents/reinforce.py", "REINFORCE.get_statistics"]]}
{"id": "C122", "title": "A DQN resumed from a snapshot goes on as if it had not been interrupted", "statement": "Loading a snapshot saved by save_snapshot into a newly built DQN with the same configuration never fails and restores the networks, the optimizer, the counters of steps and updates and the contents of the replay buffer, so that, with the same random generators, every further interaction gives the same networks, counters and replay buffer, or the same exception, as if the original agent had gone on.", "quantifier": "all histories before and after the snapshot, over any number of environments, with any update, capacity and num_steps", "why_tests_cant": "What a snapshot leaves out matters only in histories that continue after it, and depends on where in an episode it was taken; the test compares the loaded attributes only.", "anchors": [["pfrl/agents/dqn.py", "DQN.save_snapshot"], ["pfrl/agents/dqn.py", "DQN.load_snapshot"], ["pfrl/replay_buffers/replay_buffer.py", "ReplayBuffer.save"], ["pfrl/replay_buffers/replay_buffer.py", "ReplayBuffer.load"], ["pfrl/replay_buffers/prioritized.py", "PriorityWeightError.weights_from_probabilities"]]}
{"id": "C123", "title": "Exploration noise has the documented distribution at every step", "statement": "Whatever greedy actions it is given, the noise AdditiveOU adds to each coordinate of the action is a stationary Ornstein-Uhlenbeck process: from any step on it has the law it has from the first step on, with mean mu, variance sigma^2 / (2 theta - theta^2) and correlation (1 - theta)^m over m calls, independent between coordinates; with start_with_mu it starts at mu and its variance grows to that value. Environments that share the explorer get its values in turn. AdditiveGaussian returns independent normal coordinates around the greedy action, moved to the bounds where they exceed them.", "quantifier": "all settings with 0 < theta < 2, all sequences of greedy actions, however they depend on the past, all numbers of calls, coordinates and environments", "why_tests_cant": "A distribution and a correlation over time cannot be read off a few samples, and a wrong stationary variance only shows as a drift over many steps; tests check shapes only.", "anchors": [["pfrl/explorers/additive_ou.py", "AdditiveOU.select_action"], ["pfrl/explorers/additive_ou.py", "AdditiveOU.evolve"], ["pfrl/explorers/additive_gaussian.py", "AdditiveGaussian.select_action"], ["pfrl/agents/ddpg.py", "DDPG._batch_act_train"], ["pfrl/agents/td3.py", "TD3._batch_act_train"]]}
{"id": "C124", "title": "ACER climbs the expected value of its policy and stays in its trust region", "statement": "For a categorical policy, the gradient of the policy loss of ACER, on average over the action of the behaviour policy, is the gradient of minus the expected value of the policy under its value estimates, minus beta times its entropy, whatever the truncation threshold and the baseline; on-policy likewise. With the trust region in use, the coefficients of the log-probabilities are the closest ones that satisfy the linear constraint, and a step along the negative gradient raises the KL divergence from the average policy at a rate of at most trust_region_delta. In continuous action spaces the value the head gives to an action is on average the state value plus the advantage relative to its mean.", "quantifier": "all networks differentiable at the current parameters, all behaviour and average policies, thresholds, baselines, value estimates and entropy coefficients", "why_tests_cant": "A gradient estimate is only right on average over the action, and a trust region that constrains the wrong quantity still changes gradients in tests.", "anchors": [["pfrl/agents/acer.py", "compute_policy_gradient_loss"], ["pfrl/agents/acer.py", "compute_policy_gradient_full_correction"], ["pfrl/agents/acer.py", "compute_loss_with_kl_constraint"], ["pfrl/agents/acer.py", "ACER.compute_one_step_pi_loss"], ["pfrl/agents/acer.py", "ACERContinuousActionHead.forward"]]}
{"id": "C125", "title": "An experiment identifier identifies the experiment", "statement": "generate_exp_id gives the same identifier for the same prefix, commit, uncommitted changes and command line, and different identifiers if any of these differ; an identifier without a prefix can be used as the name of a directory; prepare_output_dir uses it for the command line it is given.", "quantifier": "all repositories, changes, command lines and prefixes", "why_tests_cant": "Two experiments that share an identifier share an output directory; whether there are any two such experiments is a question about all pairs of byte strings.", "anchors": [["pfrl/experiments/prepare_output_dir.py", "generate_exp_id"], ["pfrl/experiments/prepare_output_dir.py", "prepare_output_dir"], ["pfrl/experiments/prepare_output_dir.py", "is_under_git_control"]]}
{"id": "C126", "title": "Descending the actor loss of DDPG and TD3 ascends the expected return", "statement": "With an exact critic, a small step of the policy along the negative gradient of the actor loss of DDPG or TD3 raises the expected discounted return, and if every state has an action of its own among the parameters it lowers the return from no state whatever the minibatch is.", "quantifier": "all environments with finitely many states and any normed space of actions, all differentiable deterministic policies, all minibatches, all discounts below 1", "why_tests_cant": "The effect of a parameter change on the return goes through all later states; a test can only compare one gradient with one finite difference.", "anchors": [["pfrl/agents/ddpg.py", "DDPG.compute_actor_loss"], ["pfrl/agents/td3.py", "TD3.update_policy"], ["pfrl/distributions/delta.py", "Delta.rsample"], ["pfrl/policies/deterministic_policy.py", "DeterministicHead.forward"]]}
{"id": "C127", "title": "Evaluations in batch training play whole episodes and tell the agent about all their ends", "statement": "In every evaluation of train_agent_batch_with_evaluation the agent acts on the observations that the environments returned last, in episodes that are not over; it is told that an episode is over or cut before the environment is reset; environments are reset only then and when an evaluation begins; and when an evaluation ends the agent has been told that all its episodes are over, so that nothing recurrent is carried from one evaluation to the next. This holds with and without eval_env.", "quantifier": "all environments and agents, all numbers of environments, all limits, goals and evaluation intervals, all histories", "why_tests_cant": "The order of calls depends on when each of several environments ends its episodes and on when evaluations are due; tests run a few fixed environments.", "anchors": [["pfrl/experiments/evaluator.py", "_batch_run_episodes"], ["pfrl/experiments/evaluator.py", "Evaluator.evaluate_if_necessary"], ["pfrl/experiments/train_agent_batch.py", "train_agent_batch_with_evaluation"], ["pfrl/envs/serial_vector_env.py", "SerialVectorEnv.reset"]]}
{"id": "C128", "title": "A recurrent TRPO update is the trust-region update over histories", "statement": "The policy update of TRPO for a recurrent model is the trust-region update of the policy as a function of histories: every transition of the data set counts once, with its own action, log-probability and advantage, and with the distribution the network gives after the observations of its own sequence from the recurrent state stored with the first of them, in the gradient, in the divergence and in the line search; it does not depend on the order of the sequences; and when it accepts a step the mean divergence over the histories is within max_kl and the surrogate gain has not decreased. The loss of the value function is the mean squared error over the same histories.", "quantifier": "all data sets of non-empty sequences of any lengths in any order, all recurrent networks, all settings", "why_tests_cant": "Sequences of different lengths are sorted, packed and flattened before and after the network is run, and again in the line search; a misalignment shows only as a different gradient.", "anchors": [["pfrl/agents/trpo.py", "TRPO._update_policy_recurrent"], ["pfrl/agents/trpo.py", "TRPO._line_search"], ["pfrl/agents/trpo.py", "TRPO._update_vf_once_recurrent"], ["pfrl/agents/trpo.py", "TRPO._compute_kl_constrained_step"], ["pfrl/utils/recurrent.py", "pack_and_forward"]]}
{"id": "C129", "title": "Training without locks neither breaks the shared model nor loses updates", "statement": "When several processes train one model in shared memory without locks, then however their reads and writes interleave: no NaN enters the shared model; each shared parameter is moved by at most lr * |grad| / sqrt(eps) per gradient computed; every finished optimiser step of every process has moved the parameters by its own amount; every process computes its gradients at parameters that the shared model has had since the process's last step; and a process that is not disturbed does exactly what the optimiser does in a single process.", "quantifier": "all numbers of processes and parameters, all gradients and learning rates, all interleavings of single reads and writes, of any length", "why_tests_cant": "Races show up rarely and not reproducibly; a test sees one schedule of one machine.", "anchors": [["pfrl/optimizers/rmsprop_eps_inside_sqrt.py", "SharedRMSpropEpsInsideSqrt"], ["pfrl/agents/a3c.py", "A3C.update"], ["pfrl/agents/a3c.py", "A3C.sync_parameters"], ["pfrl/agents/acer.py", "ACER.update"], ["pfrl/experiments/train_agent_async.py", "train_agent_async"]]}
{"id": "C130", "title": "Asynchronous workers act with what they learnt, and what was learnt is saved and returned", "statement": "During train_agent_async, whatever the schedule: every worker acts with, differentiates and saves the network that its own last update made, and before its first update the network training started from (the loaded one if the agent was loaded); every update starts from the result of the last update of any worker; agents saved at the end, and the agent returned, act with the result of all updates.", "quantifier": "all numbers of workers, all losses and optimisers, all interleavings of acting, updating and saving, of any length, with agent or make_agent, loaded or not", "why_tests_cant": "Which network a process holds depends on which process updated last before it; tests run few processes for a moment and check that files exist.", "anchors": [["pfrl/experiments/train_agent_async.py", "train_agent_async"], ["pfrl/experiments/train_agent_async.py", "train_loop"], ["pfrl/agents/a3c.py", "A3C.sync_parameters"], ["pfrl/agents/a3c.py", "A3C.load"], ["pfrl/agents/acer.py", "ACER.sync_parameters"], ["pfrl/agents/acer.py", "ACER.load"]]}
{"id": "C131", "title": "A TRPO update cannot ruin the policy, and does not lower the return", "statement": "Averaged over all episodes the old policy can produce: whatever step is tried, a TRPO update changes the expected return of the policy by at most B * H * sqrt(max_kl / 2), where H is the largest length of an episode and B the range of its returns; and the improvement of the surrogate gain that the line search demands is an improvement of the expected return up to an error of second order in the change of the policy, so that an accepted update does not lower the return.", "quantifier": "all environments with finitely many actions and outcomes, all discounts, critics, policies and parameters, all steps and numbers of backtracks", "why_tests_cant": "The expected return of a policy is an average over all episodes; the bound relates two policies over whole episodes. Training runs show one noisy curve.", "anchors": [["pfrl/agents/trpo.py", "TRPO._update_policy"], ["pfrl/agents/trpo.py", "TRPO._compute_gain"], ["pfrl/agents/trpo.py", "TRPO._line_search"], ["pfrl/agents/ppo.py", "_add_advantage_and_value_target_to_episode"]]}
{"id": "C132", "title": "An implicit quantile network learns the quantiles of the return", "statement": "What IQN fits to its targets is, for every quantile threshold, a quantile of the distribution of the target values, inside the range of the returns; the mean of the fitted quantiles is the expected target value, so that repeated fitting leads to the optimal action values and greedy actions to an optimal policy.", "quantifier": "all environments with finitely many states, actions and outcomes, all target networks with bounded measurable outputs, all thresholds, discounts below 1 and numbers of thresholds used to choose actions", "why_tests_cant": "The claim is about minimisers of an average over environment outcomes and continuously distributed thresholds, and about a limit of repeated fits.", "anchors": [["pfrl/agents/iqn.py", "IQN._compute_target_values"], ["pfrl/agents/iqn.py", "compute_eltwise_huber_quantile_loss"], ["pfrl/action_value.py", "QuantileDiscreteActionValue"]]}
{"id": "C133", "title": "The policy update of SAC follows the gradient of the divergence from the Boltzmann policy", "statement": "With a squashed Gaussian policy, the log-probability in SAC's policy loss is the log-density of the law of the actions it takes; the loss averaged over the sampling noise is, up to a constant, the temperature times the Kullback-Leibler divergence from the policy to the policy proportional to exp(min(Q1, Q2) / temperature); the gradient backpropagated through the sampled actions is an unbiased estimate of the gradient of that divergence, even though the smaller of two critics has kinks; and a small step against the expected gradient decreases the divergence.", "quantifier": "all action dimensions, batch sizes, positive temperatures, parameter spaces, policy networks differentiable at the current parameters, and pairs of Lipschitz critics whose backpropagated gradients are right almost everywhere", "why_tests_cant": "It is a statement about expectations over continuous noise, about densities and about points where critics are not differentiable; a test compares a few sampled gradients.", "anchors": [["pfrl/agents/soft_actor_critic.py", "SoftActorCritic.update_policy_and_temperature"], ["examples/mujoco/reproduction/soft_actor_critic/train_soft_actor_critic.py", "squashed_diagonal_gaussian_head"]]}
{"id": "C134", "title": "Networks are given what batch_states makes of the observations", "statement": "Everything the networks of an agent and its normaliser of observations are applied to, when acting and when learning, was made from the observations by the function given to the constructor as batch_states.", "quantifier": "all functions batch_states, all observations, experiences, episodes and minibatches, with and without a normaliser and recurrence", "why_tests_cant": "A test with the default function cannot tell which of the two functions is called; the claim is about every call of every agent.", "anchors": [["pfrl/agents/dqn.py", "DQN.update"], ["pfrl/agents/ppo.py", "PPO._update"], ["pfrl/agents/trpo.py", "TRPO._update_policy"], ["pfrl/agents/ddpg.py", "DDPG.update"], ["pfrl/agents/td3.py", "TD3.update"], ["pfrl/agents/soft_actor_critic.py", "SoftActorCritic.update"], ["pfrl/replay_buffer.py", "batch_experiences"]]}
{"id": "C135", "title": "Actor-critic agents follow the policy gradient with Gaussian policies", "statement": "With a Gaussian head, the log probabilities, entropies and divergences an agent computes are those of the distribution its actions are drawn from. On average over the actions drawn, the gradient of the policy loss of A2C, A3C, REINFORCE and TRPO, and of PPO at the parameters the actions were chosen with, is the gradient of the expected advantage plus the entropy bonus; subtracting a baseline does not change it, the gain TRPO maximises is the objective at the new parameters, and what PPO maximises is never more than that.", "quantifier": "all networks, parameters, batch sizes, action dimensions, coefficients and advantages growing at most exponentially", "why_tests_cant": "The claim is about a mean over continuous actions and its derivative, for every network; a sampled gradient only approaches it.", "anchors": [["pfrl/policies/gaussian_policy.py", "GaussianHeadWithDiagonalCovariance"], ["pfrl/agents/a2c.py", "A2C.update"], ["pfrl/agents/a3c.py", "A3C.update"], ["pfrl/agents/reinforce.py", "REINFORCE.accumulate_grad"], ["pfrl/agents/ppo.py", "PPO._lossfun"], ["pfrl/agents/trpo.py", "TRPO._compute_gain"]]}
{"id": "C136", "title": "Seeds determine everything that is drawn at random", "statement": "After set_random_seed with a seed in [0, 2**32) everything agents, explorers, replay buffers and networks draw is determined by the seed, whatever was drawn before. In an asynchronous training the numbers each worker draws are those of its own seed, for every interleaving and whatever the workers read from shared memory, and by default no two workers have the same seed. Environments seeded through a vector environment draw what their own seed determines.", "quantifier": "all generators, programs, seeds, numbers of workers and environments, interleavings, values read and previous draws", "why_tests_cant": "It is a statement about all programs and interleavings; a test compares a few runs.", "anchors": [["pfrl/utils/random_seed.py", "set_random_seed"], ["pfrl/experiments/train_agent_async.py", "train_agent_async"], ["pfrl/envs/multiprocess_vector_env.py", "MultiprocessVectorEnv.seed"], ["pfrl/envs/serial_vector_env.py", "SerialVectorEnv.seed"], ["pfrl/wrappers/randomize_action.py", "RandomizeAction"], ["pfrl/envs/abc.py", "ABC"]]}
{"id": "C137", "title": "Prioritized sampling with floating point priorities", "statement": "With priorities that are floating point numbers (any precision and any correct rounding, subnormal numbers included, no overflow), after any history of appends, removals and overwrites the sum a priority queue reports differs from the exact sum by a relative error that depends on the precision and the logarithm of the number of items only, not on the number of updates. A prioritized draw picks an item whose share of the exact sum contains the random number up to the same relative error. If the priorities are multiples of a power of two with a sum that can be represented, the draws are exactly those of exact arithmetic. A draw never fails and never returns an item twice.", "quantifier": "all precisions, correct roundings, histories of calls, priorities, numbers of draws and random numbers", "why_tests_cant": "The failing draws are a few in 2**53 and need particular priorities; a test with random priorities does not meet them, and rounding errors must be bounded for every history.", "anchors": [["pfrl/collections/prioritized.py", "SumTreeQueue"], ["pfrl/collections/prioritized.py", "_find"], ["pfrl/collections/prioritized.py", "_reduce"]]}
{"id": "C138", "title": "The categorical projection with floating point numbers", "statement": "With any precision and any correct rounding (no overflow), whatever the spacing of the increasing grid of atoms comes out as, and whatever the order in which a device adds: the categorical projection of CategoricalDQN never indexes outside the grid and never raises; no probability becomes negative; every source atom is put at its place on the grid up to the rounding of four operations; every grid atom receives its linear share of the source probabilities up to a relative error that depends on the precision and the number of atoms only; so the mass of every row is kept up to that error.", "quantifier": "all precisions, correct roundings, increasing grids, batches, source atoms and probabilities, and orders of the additions", "why_tests_cant": "Out-of-range indices appear only for grids whose spacing rounds down, and scatter_add_ on a GPU adds in an order a test does not control.", "anchors": [["pfrl/agents/categorical_dqn.py", "_apply_categorical_projection"]]}
{"id": "C139", "title": "The documented running times of the queues", "statement": "RandomAccessQueue: constructing a queue and any history of append, extend, popleft, item access, item assignment and len together take a number of elementary list operations that is at most the number of calls plus four times the number of items added, so each call is amortized constant time as documented. Priority queues (TreeQueue, SumTreeQueue, MinTreeQueue): each append, popleft and update makes a number of recursive calls that is logarithmic in the number of values held at the time; each item drawn by prioritized_sample costs a constant number of such operations.", "quantifier": "all bounds, initial items, histories of calls, aggregators, numbers of draws and random numbers", "why_tests_cant": "Running time on tested sizes says nothing about the growth, and the worst case needs a history in which the queue was long before.", "anchors": [["pfrl/collections/random_access_queue.py", "RandomAccessQueue"], ["pfrl/collections/prioritized.py", "TreeQueue"], ["pfrl/collections/prioritized.py", "SumTreeQueue"]]}
{"id": "C140", "title": "Exploration rates and target updates with floating point numbers", "statement": "With any precision and any correct rounding (no overflow): the linear epsilon schedule starts exactly at start_epsilon, is always a probability, never increases until decay_steps, stays within four units of rounding of the exact schedule, is exactly end_epsilon afterwards and never below end_epsilon; the exponential schedule never leaves the interval between its ends. A soft update with a constant number of roundings keeps every parameter of the target model within a fixed distance of the exact exponential average of the parameters of the source, after any number of updates and for any history of the source; a target that equals an unchanged source stays equal to it, and a fixed source is eventually reached.", "quantifier": "all precisions, correct roundings, ends, numbers of steps, values of tau, histories of the source and numbers of updates", "why_tests_cant": "Rounding errors accumulate over millions of updates and the failures need particular values.", "anchors": [["pfrl/explorers/epsilon_greedy.py", "LinearDecayEpsilonGreedy"], ["pfrl/explorers/epsilon_greedy.py", "ExponentialDecayEpsilonGreedy"], ["pfrl/utils/copy_param.py", "soft_copy_param"]]}
{"id": "C141", "title": "Running statistics with floating point numbers", "statement": "With any precision of at least 7 bits and any correct rounding (no overflow), for any history of batches given to EmpiricalNormalization: its assertions never fail; the variance is never negative; the mean always lies between the smallest and the largest mean of a batch; and the mean and the variance stay close to the exact mean and variance of everything learnt, however many batches there are.", "quantifier": "all precisions of at least 7 bits, correct roundings, histories of batches and limits on learning", "why_tests_cant": "Rounding errors accumulate over millions of batches, and the failures need particular sizes and scales of the data.", "anchors": [["pfrl/nn/empirical_normalization.py", "EmpiricalNormalization"]]}
{"id": "C142", "title": "Returns and advantages with floating point numbers", "statement": "With any precision of at least 7 bits and any correct rounding (no overflow), for episodes and rollouts of any length with bounded rewards and values: the advantages and value targets of PPO and TRPO, the returns of A3C and of A2C (with and without generalised advantages), and the n-step rewards given to the losses of value based agents differ from the exact discounted sums by at most an explicit bound, which does not depend on the length of the episode when the discount is below 1 by more than a few roundings. Nothing leaks across an episode end.", "quantifier": "all precisions of at least 7 bits, correct roundings, discounts, and episodes and rollouts of any length with bounded rewards and values", "why_tests_cant": "Rounding errors accumulate backwards over episodes of any length, each multiplied with discounts; tests compare short episodes with a tolerance.", "anchors": [["pfrl/agents/ppo.py", "_add_advantage_and_value_target_to_episode"], ["pfrl/agents/a2c.py", "_compute_returns"], ["pfrl/agents/a3c.py", "update"], ["pfrl/replay_buffer.py", "batch_experiences"]]}
{"id": "C143", "title": "DQN with a table learns the optimal values", "statement": "A DQN agent whose network is a table of action values, trained by SGD on any sequence of minibatches (uniform or weighted, squared or clipped loss, mean or sum) with hard or soft updates of the target network: training never fails; if every state and action is replayed and the target network updated again and again, and the learning rate is at most 1 per replayed value, then in a deterministic environment the values tend to the optimal ones (geometrically if it happens in every period of some length), whatever the order of the replay, and from some moment on acting greedily is optimal. With minibatches drawn at random from a buffer with all states and actions this happens almost surely. If what is seen in a transition differs from the optimal value by at most delta, the values get within delta / (1 - gamma). Values that are not replayed do not change.", "quantifier": "all finite environments, initial values, orders and contents of minibatches, target update schedules, losses and discounts below 1", "why_tests_cant": "Convergence is about infinite runs and all replay orders; tests train for a fixed number of steps on one environment.", "anchors": [["pfrl/agents/dqn.py", "DQN.update"], ["pfrl/agents/dqn.py", "compute_value_loss"], ["pfrl/utils/copy_param.py", "synchronize_parameters"]]}
{"id": "C144", "title": "Target policy smoothing of TD3", "statement": "With the default smoothing function of TD3 the actions used in the targets are valid and near those of the target policy, whatever noise is drawn: no coordinate moves by more than 1/2, it moves by a fifth of a standard normal number if that is less, it is kept on average unless it is within 1/2 of a bound, and with critics that change by at most L per unit of the action a target moves by at most gamma L / 2.", "quantifier": "all actions of the action space, numbers drawn, target policies, critics and batches of transitions", "why_tests_cant": "Noise is random: tests draw a few actions from one small action space.", "anchors": [["pfrl/agents/td3.py", "default_target_policy_smoothing_func"], ["pfrl/agents/td3.py", "TD3.update_q_func"]]}
{"id": "C145", "title": "DQN with a linear network fits its targets", "statement": "A DQN agent whose action values are linear in the parameters of the network, trained by SGD between two updates of the target network (uniform or weighted, squared or clipped loss, mean or sum), with a learning rate of at most one over the squared length of the features: training never fails; on one minibatch the loss never increases and tends to the least loss any parameters have, at a rate of 1 / n; if some parameters fit all targets then on any sequence of minibatches the distance to them never increases and the losses tend to 0.", "quantifier": "all features, initial parameters, target networks, minibatches and their order, losses, weights in [0, 1]", "why_tests_cant": "The claim is about every number of updates and all parameters one may compare with; tests train one network for a fixed number of steps.", "anchors": [["pfrl/agents/dqn.py", "DQN.update"], ["pfrl/agents/dqn.py", "compute_weighted_value_loss"], ["pfrl/q_functions/state_q_functions.py", "FCStateQFunctionWithDiscreteAction"]]}
{"id": "C146", "title": "Uniform sampling is uniform", "statement": "With independent uniform draws, sampling k of n items (sample_n_k, RandomAccessQueue.sample, and so a replay buffer's sample) returns with probability 1, each list of k different indices is equally likely, in every order, and each item is in the sample with probability k / n, whether rejection or a permutation is used and however often the rejection loop has to draw again.", "quantifier": "all n and k, all orders of indices, all numbers of rejections and refills", "why_tests_cant": "A test can only compare frequencies, and refills of the rejection loop are too rare to be met.", "anchors": [["pfrl/utils/random.py", "sample_n_k"], ["pfrl/collections/random_access_queue.py", "RandomAccessQueue.sample"]]}
{"id": "C147", "title": "Training DQN from scratch ends with an optimal policy", "statement": "train_agent with a DQN agent that has one parameter per state and action, an epsilon-greedy explorer whose epsilon stays above a positive number, a uniform replay buffer, minibatch updates every update_interval steps and target updates every target_update_interval steps, in an environment with finitely many states, deterministic transitions, random resets and time limits, from any initial parameters: with probability 1 no step raises, all action values tend to the optimal ones, and from some step on acting greedily is optimal. This holds for unbounded buffers and for every capacity not below replay_start_size and update_interval.", "quantifier": "all such environments in which every observation can be reached, all schedules of epsilon with a positive lower bound, all batch sizes, intervals and capacities, soft and hard target updates, clipped and unclipped losses, all initial parameters, almost all random numbers", "why_tests_cant": "The claim is about the limit of infinitely long runs and about all environments; a test sees one run and cannot tell slow learning from none.", "anchors": [["pfrl/experiments/train_agent.py", "train_agent"], ["pfrl/agents/dqn.py", "DQN.batch_act"], ["pfrl/agents/dqn.py", "DQN._batch_observe_train"], ["pfrl/replay_buffer.py", "ReplayUpdater.update_if_necessary"], ["pfrl/explorers/epsilon_greedy.py", "select_action_epsilon_greedily"], ["pfrl/replay_buffers/replay_buffer.py", "ReplayBuffer"]]}
{"id": "C148", "title": "A failing worker does not spoil an asynchronous training", "statement": "Whatever workers of train_agent_async fail, whenever and however (an exception in the loop, in make_env or in env.close, or a signal): the training ends and train_agent_async returns; the workers that did not fail go through the whole training; if one does and nobody asks to stop, all `steps` steps are made, each once; a warning is issued for exactly the workers with a nonzero exit status, with that status; and the final model is saved.", "quantifier": "every number of workers and steps, every interleaving, every combination and moment of failures outside of the locked sections", "why_tests_cant": "Which worker fails at which point of which interleaving cannot be enumerated; the tests of train_agent_async let no worker fail.", "anchors": [["pfrl/experiments/train_agent_async.py", "train_loop"], ["pfrl/experiments/train_agent_async.py", "train_agent_async"], ["pfrl/experiments/train_agent_async.py", "kill_all"], ["pfrl/utils/async_.py", "run_async"]]}
{"id": "C149", "title": "Sub-episodes are sampled uniformly", "statement": "With independent uniform draws, sample_episodes(k, max_len) of an episodic buffer of n episodes takes each episode with probability k / n, whole if it has at most max_len steps, and otherwise each of its sub-episodes of max_len steps with equal probability; so a step is in the sample with probability k / n times the fraction of sub-episodes containing it, min(j + 1, len - j, max_len, len - max_len + 1) of len - max_len + 1 for step j.", "quantifier": "all buffers, numbers and lengths of episodes, k and max_len, steps, all numbers of rejections in the sampling of episodes", "why_tests_cant": "A test can only compare frequencies; an offset range too short by one leaves out one step of each episode and is invisible in most samples.", "anchors": [["pfrl/replay_buffer.py", "random_subseq"], ["pfrl/replay_buffers/episodic.py", "EpisodicReplayBuffer.sample_episodes"], ["pfrl/collections/random_access_queue.py", "RandomAccessQueue.sample"]]}
{"id": "C150", "title": "Dueling networks combine their streams per image", "statement": "DuelingDQN and DistributionalDuelingDQN compute the values of an image of a batch from this image alone: the advantage of the action minus the mean advantage over the actions plus the value of the state, for the distributional network for every atom and followed by a softmax over the atoms, with the first half of the hidden units read by the advantage stream and the second by the value stream. The mean of the values of an image is the output of the value stream. Empty batches and square images of other sizes raise.", "quantifier": "all numbers of actions, atoms and channels, parameters, activations, biases, batches of images", "why_tests_cant": "A mean over the wrong dimension, a swapped reshape or exchanged halves keep all shapes, and training still works to some degree; tests check shapes.", "anchors": [["pfrl/q_functions/dueling_dqn.py", "DuelingDQN"], ["pfrl/q_functions/dueling_dqn.py", "DistributionalDuelingDQN"], ["pfrl/q_functions/dueling_dqn.py", "constant_bias_initializer"]]}
{"id": "C151", "title": "Stored recurrent states are snapshots", "statement": "The recurrent states stored with a transition of a recurrent DQN, though they are views of arrays the agent goes on using, keep the contents they had when the transition was stored, through all later acting, observing, resets at ends of episodes, updates and evaluations; the agent behaves as if every recurrent state were copied.", "quantifier": "all nestings of recurrent states, numbers of environments, histories of acting, observing, updating and evaluating, networks and updates that return new arrays, on the CPU and on other devices", "why_tests_cant": "Whether memory is shared shows only after particular later steps; a reset in place would corrupt only transitions stored just before an episode ends, on the CPU only.", "anchors": [["pfrl/utils/recurrent.py", "recurrent_state_as_numpy"], ["pfrl/utils/recurrent.py", "get_recurrent_state_at"], ["pfrl/utils/recurrent.py", "mask_recurrent_state_at"], ["pfrl/agents/dqn.py", "DQN._batch_observe_train"], ["pfrl/agents/dqn.py", "_batch_reset_recurrent_states_when_episodes_end"]]}
{"id": "C152", "title": "A lazily stacked observation never changes", "statement": "An observation returned by FrameStack or VectorFrameStack, converted to an array at any later time, has the frames its environment showed when it was returned, whatever steps and (masked) resets follow; and all observations together keep one array for each frame an environment returned.", "quantifier": "all stack sizes, numbers of environments, histories of steps and resets with any masks after the first reset, all observations of the history", "why_tests_cant": "Observations wait in the replay buffer for millions of steps before they are converted; a shared deque instead of a copied list shows only then, and only in observations that are not the newest.", "anchors": [["pfrl/wrappers/atari_wrappers.py", "LazyFrames"], ["pfrl/wrappers/atari_wrappers.py", "FrameStack"], ["pfrl/wrappers/vector_frame_stack.py", "VectorFrameStack"]]}
{"id": "C153", "title": "Importance weights reach the experiences they were computed for", "statement": "The weights an agent reads from the experiences returned by PrioritizedReplayBuffer.sample are the weights computed for these experiences, in their order, and the experiences are the stored ones, although the weights are written into transitions that overlapping n-step experiences share, and whatever is appended before they are read; writing them changes no stored experience otherwise.", "quantifier": "all capacities, n >= 1, histories of append, stop_current_episode and sample over any environments, sets of drawn positions, weights", "why_tests_cant": "Overlapping experiences share their transitions; a weight written to a shared one shows only if two overlapping experiences are in one batch.", "anchors": [["pfrl/replay_buffers/prioritized.py", "PrioritizedReplayBuffer.sample"], ["pfrl/replay_buffers/replay_buffer.py", "ReplayBuffer.append"], ["pfrl/agents/dqn.py", "DQN.update"]]}
{"id": "C154", "title": "PPO minibatches are unbiased samples of the data", "statement": "In every minibatch of a PPO update every transition of the data set is as likely as any other, so that the mean of a loss or gradient over the minibatch has the mean over the whole data set as its expectation, for minibatches within one shuffled copy of the data and across two.", "quantifier": "all data sets, minibatch sizes (also larger than the data set), numbers of epochs, minibatches, functions of a transition with values in a normed space, random permutations", "why_tests_cant": "A bias is a statement about a probability distribution; a test sees samples, and the minibatches that go across two shuffled copies are few.", "anchors": [["pfrl/agents/ppo.py", "_yield_minibatches"], ["pfrl/agents/ppo.py", "PPO._update"]]}
{"id": "C155", "title": "Minibatches of uniform replay are unbiased samples of the buffer", "statement": "When an agent draws a minibatch from a ReplayBuffer, sampling ends with probability 1, and the mean of any quantity over the minibatch, a loss or its gradient at the same parameters, has the mean over the whole buffer as its expectation.", "quantifier": "all buffers (any capacity, number of steps, history and contents, also repeated experiences), minibatch sizes up to the size of the buffer, functions of an experience with values in a Banach space, random generators", "why_tests_cant": "A bias is a statement about a probability distribution: a test sees samples, and the rejection loop of the sampler has no bound on its iterations.", "anchors": [["pfrl/replay_buffers/replay_buffer.py", "ReplayBuffer.sample"], ["pfrl/utils/random.py", "sample_n_k"], ["pfrl/collections/random_access_queue.py", "RandomAccessQueue.sample"]]}
