# Formal model of pfnet/pfrl in Lean 4

## What this is

`/verif/lean` holds a model of the Python code in `/repo/pfrl`, written function by
function in Lean 4, and theorems about it.  Each topic has its own directory under
`lean/Verif/`:

* Model (`Model.lean`, or a section "Model"): the code as total Lean functions.  Every definition
  cites the file and lines it models and says where it simplifies.
* Specification (`Spec.lean`, or a section "Specification"): what the user expects, in terms of
  plain lists, sums and orderings.  It never mentions the representation used by the code.
* Lemmas (`Lemmas.lean`, or sections "Lemmas"): helper facts (not part of the claims).
* Properties (`Props.lean`, or sections named after the property): the property theorems, one
  docstring each, with an `example` next to each theorem showing that its hypotheses are met by a
  concrete non-trivial case.

`properties.jsonl` lists the properties, `MANIFEST.json` maps each to theorem names, and
`seeded/LOG.jsonl` records the deliberately wrong models that were tried.

## Trusted base

* Lean 4.33.0's kernel, and Mathlib's definitions where a statement uses them
  (`List.Perm`, `Finset.sum`, `Real.rpow`, ...).
* Axioms: at most `propext`, `Classical.choice`, `Quot.sound`.  No axiom is added, there is
  no `sorry`, no `native_decide`, no `bv_decide`, no `implemented_by`, no `unsafe`.
* The correspondence between model and Python code.  It is by reading; each definition cites
  its source lines.
* Python semantics as modelled: integers are unbounded (`Int`/`Nat`), a raised exception is a
  value of `Except`, list/dict/deque operations behave as documented, `//` on a positive
  divisor is floor division.

## Modelling conventions

* **Numbers.** Python/NumPy/PyTorch floats are modelled by exact numbers: an arbitrary ordered
  field or commutative ring where possible, otherwise `ℚ` or `ℝ`.  Rounding, overflow, NaN and
  infinity are *not* modelled unless a model says so (TRPO's line search models
  non-finite values as an explicit flag; `Tree/Float` runs the priority tree with rounded
  arithmetic).
* **Randomness.** A random generator is an arbitrary stream (function or list) of draws given
  as an argument; theorems quantify over all streams whose entries are in the documented range.
* **Environments, agents, models, optimisers.** Arbitrary functions / arbitrary response streams.
* **Files.** A directory is a map from names to byte lists; a crash keeps a prefix of the
  sequence of write effects, the last write possibly torn.
* **Concurrency.** Processes are step functions over shared state; each step is one
  lock-protected section (or one unprotected access); theorems quantify over all schedules.
* **Tensors.** Lists or functions on `Fin n`; shapes, devices, dtypes and autograd are not
  modelled.

## What is modelled

| code in `/repo/pfrl` | model in `lean/Verif` |
|---|---|
| `collections/random_access_queue.py` | `Queue/` |
| `utils/random.py` | `Sample/` |
| `collections/prioritized.py` | `Tree/`, `PBuf/` |
| `collections/persistent_collections.py` | `Persist/` (files byte by byte) |
| `replay_buffers/` (all six), `replay_buffer.py` | `Replay/`, `Episodic/`, `Batch/`, `Persist/Replay`, `Weights/`, `Recurrent/Experiences` |
| `agents/dqn.py`, `double_dqn.py`, `categorical_*`, `iqn.py`, `al.py`, `pal.py`, `dpp.py`, `ddpg.py`, `td3.py`, `soft_actor_critic.py` | schedules, stored transitions, recurrent states and targets: `Interact/`, `Agents/`, `Value/` |
| `agents/a2c.py`, `a3c.py`, `acer.py`, `reinforce.py` | returns and coefficients: `Returns/` |
| `agents/ppo.py`, `trpo.py` | data sets, minibatches, GAE, line search, step size: `Ppo/`, `Returns/`, `Agents/`, `Numeric/` |
| `agents/state_q_function_actor.py`, actor-learner code in `dqn.py` | `Interact/` (all schedules) |
| `experiments/` | `Train/`, `Eval/`, `Files/OutputDir` |
| `env.py`, `envs/`, `wrappers/` | `Envs/`, `Numeric/` |
| `explorers/` | `Numeric/` |
| `nn/`, `functions/`, `q_functions/`, `action_value.py`, `utils/` | `Nn/`, `Numeric/`, `Utils/`, `Value/`, `Recurrent/`, `Envs/Modifiers` |
| `utils/pretrained_models.py` | `Files/Pretrained` (any number of processes, crashes) |
| `agent.py` save and load | `Agents/` |
| `optimizers/rmsprop_eps_inside_sqrt.py` | `Numeric/RMSprop` |

## Not modelled

Neural-network forward/backward passes and autograd, optimiser numerics (except where a model says so), floating
point rounding (except in `Tree/Float`), CUDA/device placement, logging, TensorBoard, Optuna, gym internals, rendering and
video output, the network itself, process spawning and signals, power loss (the operating system's
unsynced cache), the distributed persistent queues (a private package).

## Properties and plan

| id | model | proof method |
|----|-------|--------------|
| C01, C02 | two-list queue `Queue/Model` (front reversed, back) with `Except` for IndexError | refinement: abstraction `front.reverse ++ back`, one simulation lemma per operation, induction over operation lists |
| C03 | `sample_n_k` with a stream of draws; rejection loop with explicit refills | loop invariant: prefix distinct and in range; progress: if the stream contains k distinct values it returns |
| C04, C05 | trees as inductive type; `_write`, `_reduce`, `TreeQueue` with integer bounds | representation predicate "tree over [l,r) stores partial map m"; induction on width; refinement to a list of priorities |
| C06 | `_find` | induction on the tree with prefix sums |
| C07 | `prioritized_sample`, `uniform_sample` | induction on n; zeroed entries cannot be found again |
| C08, C09 | `PrioritizedBuffer` | refinement to list of (value, priority) over operation lists; C09's full statement is false when an eviction intervenes: counterexample plus a theorem for eviction-free histories |
| C10 | `PriorityWeightError` over ℝ (`rpow`) | monotonicity of powers, induction over number of samples |
| C11–C14 | `ReplayBuffer` with per-env windows | refinement: per-environment log of episodes -> list of windows, induction over histories |
| C15, C16 | `EpisodicReplayBuffer` | invariant memory = flatten episodes; eviction loop lemma |
| C17 | `PrioritizedEpisodicReplayBuffer` | invariant for capacity_left; the store equality is false, counterexample |
| C18–C20 | chunk files as byte lists with index records; crash = prefix of write effects | representation invariant between disk and the list of completed appends, induction over sessions and events |
| C21 | `batch_experiences` | induction on experience, fold of Bellman backups |
| C22 | `ReplayUpdater` | case analysis over all configurations plus reachable-state invariants |
| C23 | projection as finite sums over atoms | algebra with floor/ceil, sums over `Finset` |
| C24–C26, C28 | backward recursions on lists | induction on the list, closed forms as explicit sums |
| C27 | REINFORCE bookkeeping | state machine; true statement fails, counterexample plus what the code computes |
| C29 | vectors `Fin n → ℝ` | projection onto half-space |
| C30, C31 | `_yield_minibatches`, `_limit_sequence_length`, `_yield_subset…` | fuel-free well-founded recursion, invariants |
| C32 | PPO/TRPO memory | invariant: all transitions = flushed ++ memory ++ pending per env |
| C33, C34 | recurrent utilities | induction over lists / nested structures |
| C35, C36 | DQN state machine | invariant over histories |
| C37, C38 | learner loop and pollers as transition systems | invariants over schedules |
| C39–C41 | evaluators | induction over call sequences / schedules |
| C42–C45 | training and evaluation loops with traces of observable events | induction over loop iterations with explicit environment streams |
| C46–C49, C65 | wrappers and vector envs as state machines | refinement over call sequences |
| C50, C51, C53, C54, C56–C58, C62, C63 | arithmetic functions over ordered fields / ℝ | algebra, induction over number of calls |
| C52 | context managers as functions on state with exceptions | structural induction over nested programs |
| C55 | conjugate gradient over an inner-product space | Krylov orthogonality, induction over iterations |
| C59 | attribute trees and directories | structural induction |
| C60 | line search | induction over backtracking steps |
| C61 | TD3 counters | induction over updates |
| C64 | save/load as serialisation of the queue | composition with C01 |
| C66 | `Persist/Ancestor`: recursive loading of a lineage of directories | induction over the lineage; two counterexamples |
| C67 | A2C with a step offset | counterexample for every non-zero offset |
| C68 | ACER truncation | finite sums over actions |
| C69 | fire-on-reset wrapper | case analysis; counterexample |
| C70 | normaliser state and its cache | invariant; counterexample |
| C71 | quadratic head: lower-triangular matrices | positive definiteness of `L Lᵀ` |
| C72, C73 | AL, PAL, DPP targets over ordered fields and ℝ | algebra, log-sum-exp bounds |
| C74 | TRPO step size over an inner-product space | quadratic form |
| C75 | recurrent states of DQN while acting, storing, evaluating | invariant over all histories of acts and observes |
| C76, C77 | packed sequences as time-major lists; containers as machines | "row-wise machine" predicate closed under the containers |
| C78 | processes running the download code over a shared file system | invariants over all interleavings with crashes |
| C79 | file operations as an effect list | prefix induction |
| C80, C81 | replay buffers over the persistent queue | composition of C11/C15's model with C18–C20's file model |
| C82 | one parameter of the optimiser, real arithmetic | invariant: moving averages and momentum are bounded; induction over steps |
| C83 | rows of a minibatch as real numbers | `min`/`max` inequalities; `HasDerivAt` of the loss in one entry |
| C84 | standardisation, minibatches of both updates | algebra of mean and variance; witness with equal advantages |
| C85 | the losses of DQN, categorical DQN and IQN as real functions | algebra of sums; derivatives; Gibbs' inequality |
| C86 | prioritized buffer, weights and update composed | refinement on top of C08's simulation |
| C87 | byte-wise writes of `Evaluator` and `train_agent`; crash = prefix | induction over events; frame lemmas per file; witnesses for `best` and restarts |
| C88 | softmax, `numpy.random.choice`, draws as arguments | Lebesgue measure of the set of draws; limits of finite sums |
| C89 | `np.interp` on two points | arithmetic |
| C90 | networks with `.grad` attributes; `zero_grad`, `backward`, clipping, `step`, `copy_grad` in the order of each agent's code | refinement to descent without `.grad`, induction over updates, schedules and episodes |
| C91, C92 | A3C's and ACER's dictionaries and counters; log of updates and calls | invariant linking dictionaries to the steps since the last update; induction over histories |
| C93 | the log temperature with Adam's two moments, real arithmetic | sign and size invariants of the moments, induction over batches; `HasDerivAt` |
| C94 | counters of DDPG, TD3 and SAC, rows of a batch, `update_if_necessary` | invariant: counters as functions of the number of environment steps |
| C95 | modifiers as functions on environments (state machines with exceptions) | simulation over histories of calls |
| C96 | the two running averages | recursion of the weighted variance; witness |
| C97 | one forward pass as a function of a vector of independent normal numbers | moments of products of odd functions under the product measure |
| C98 | modules on a heap with addresses | induction on trees with frame conditions; witnesses with sharing |
| C99 | main process and workers with one-slot pipes, small steps, any schedule, environments that may raise | invariant tying the pipes to the serial run; a measure for progress; two deadlock witnesses |
| C100 | the training model of C86 with one uniform number per draw | the loss is constant on the interval owned by each experience; sum of interval integrals; witness without replacement |
| C101 | the agents' own return computations (C25, C26, C27) on the trajectories of any finite-branching environment; expectation by recursion over the tree of trajectories | induction over the tree; scores sum to zero; `HasDerivAt`; witnesses |
| C102 | `eval_performance` on the evaluation loops of C45; `statistics.mean`, `median`, `stdev`, `np.max`, `np.min` over the reals | sorted lists for the median, one-sided Chebyshev argument for mean and median, composition with the C45 theorems |
| C103 | `ABC` with discrete actions as a transition function, with continuous actions as an expectation over the inner action | induction over the actions; induction over the position in the sequence; product bound for the optimum |
| C104 | the value losses and targets of A3C, A2C, PPO/TRPO and ACER on top of the models of C21, C22, C24, C28; true values as solutions of Bellman's equations | all targets are instances of one recursive rule; tower property and contraction of the rule by induction over the number of steps |
| C105 | exact fitting: the mean, over everything the environment does, of the target computed by the models of the targets (C72, C73 and those of DQN) for the stored experience; optimal values as solutions of Bellman's optimality equations | contraction and Banach's fixed point; for AL, PAL, DPPGreedy and DPPL one convergence theorem: bounded above, nearly increasing, and a gap that would become negative if the limit were not optimal; DPP and the rates: add the operators of earlier generations to the action values, the totals solve a contracting recursion and grow like `k` times the optimal values |
| C106 | the policy loss as an integral over any measure; the critics' targets by the model of C62, averaged over the action drawn, fitted up to an error; target critics as moving averages; soft values as solutions of Bellman's equations with entropies, and as limits of expected soft returns | Gibbs' inequality pointwise; contraction; policy improvement by a shrinking difference |
| C107 | exact fitting of probability vectors: each new probability is the mean of the target probabilities computed by the model of C62 and C23; return distributions as the fixed point of projected Bellman updates | the projection preserves means inside the support; contraction of the expected values; distances of distribution functions (Cramer) shrink once the greedy actions are right |
| C108 | distributions as parameter trees with their laws as measures; `mode_of_distribution` by recursion; the policy heads on lists | continuous densities of product, linear image and tanh image measures; uniqueness of continuous densities; the density of a squashed Gaussian climbs away from tanh of the mean |
| C109 | tensors as lists of rows, layers with any parameters, reshapes as cutting the flattened list; default_collate on trees of arrays, tuples and dictionaries | induction over layers with "row-wise" as the invariant; cutting after flattening is the identity; arithmetic for the convolution sizes |
| C110 | the constructor of C109 with the draws as independent standard normal random variables on any probability space | the draws of a layer are independent of what earlier layers determine (suprema of generated sigma algebras); symmetry of the joint law under a change of sign; induction over the layers |
| C111 | the wrappers of C47, C48, C49 and C65 composed, each calling the one below, with the calls on the game recorded in the state | invariant relating every counter to the recorded calls; induction over the loops and over the history; a phase invariant for the frame limit |
| C112 | environment, agent and hooks as state machines; `train_agent_with_evaluation` with the evaluator and its episodes, which call the environment of the training or another one; everything that happens is logged | invariant on the log, by induction over both loops; the outputs of evaluations as a list of blocks; simulation with the training without evaluator |
| C113 | the same for `train_agent_batch_with_evaluation` on a vector of environments, with the bookkeeping of C45 | as C112 for separate environments; a concrete run for the default |
| C114 | workers with the buffers of their queue, the pipe, the writing thread with its program counter and the main process; a schedule is any list of moves | invariant by induction over the schedule; termination by induction on the length of the pipe; a concrete schedule for the loss |
| C115 | the agent of C36 with the buffer of C11 as the agent of the training of C112; updates and exploration are parameters | the log of C112 is a path of a small automaton (`training_sequence`); it is translated into a history of C36 and, independently, into what the environment lived |
| C116 | the policy as log-probability, entropy and divergence depending on parameters in a Euclidean space; autograd is Mathlib's gradient; conjugate gradient of C55, step of C74, line search of C60 | derivatives along lines, Taylor, limits of halved steps |
| C117 | the statistics recorder with what it inherits from gym | invariant over the operations |
| C118 | process 0, the pipes, the poller's loop split into atomic actions, failures at any moment | invariant over all schedules (what process 0 waits for and what is in its pipe), a rank for the poller |
| C119 | what one environment goes through, the memory, the data set, the minibatch losses as functions of the parameters; the model is an arbitrary machine with parameters | invariant of collected pieces (each recurrent state follows from the one before), Fréchet derivatives at the old parameters |
| C120 | the batch training loop of C113, the agents of C35/C36 and the buffer of C11-C13 composed | invariant of the loop: for each environment, what the agent was told is what the environment answered; evaluations are quiet |
| C121 | the records behind `get_statistics` of every agent, as deques and exponential averages fed by events | invariant: each deque is the newest part of what was recorded; closed form of exponential averages; variance of lists |
| C122 | `save_snapshot`/`load_snapshot` of DQN on the agent of C35/C36 with its replay buffer | the resumed state equals the saved one if all windows are flushed; an agent forgets its last observations at the next `batch_act`; otherwise refinement of the buffer from the loaded memory |
| C123 | `AdditiveOU` and `AdditiveGaussian` as functions of standard normal numbers; the explorer shared by a batch | a map of the sequence of numbers that keeps its law and shifts the process by one call; covariances by induction; sums of independent normal variables |
| C124 | the policy loss of ACER for categorical policies as a function of the parameters, with its trust region; the sampled head | the loss is linear in the log-probabilities; Fréchet derivatives; the projection of C29; product measures |
| C125 | `generate_exp_id` with CRC-32 written out on bit vectors | the checksum is a bijective linear map of the state; lengths of the parts of the text; pigeonhole for the collision |
| C126 | the actor loss of DDPG/TD3 for a deterministic policy in an environment with finitely many states | the change of the values satisfies Bellman's equation with the advantage as reward; contraction bounds in the sup norm give the derivative (deterministic policy gradient) |
| C127 | the evaluations inside the batch training loop of C113 | invariant of the evaluation loop and of the training loop over the log of calls |
| C128 | `_update_policy_recurrent` with the recurrent line search, and `_update_vf_once_recurrent`: sorting, packing, the loop over packed rows, flat lists | outputs and flat transitions are images of one list of transitions with histories, which is a rearrangement of the data set; then C116 |
| C129 | `optimizer.step()` and `sync_parameters()` of processes that share a model: a program of reads and writes for each element, any schedule of processes and elements | rely-guarantee: each program keeps an invariant of the shared cells whatever the others do; a count of writes; telescoping; induction over the schedule; witnesses for the races |
| C130 | the networks an `A3C` or `ACER` agent holds, in the parent and in each worker; acting, updating, saving and loading as events in any order | induction over the schedule: the local network of each worker and the shared one are determined by the observations so far; witnesses for what is returned and saved |
| C131 | gain and divergence of `TRPO` averaged over all episodes of the old policy; the line search of C60 | Pinsker's inequality from a scalar inequality proved by derivatives; recursion over the steps of an episode for the difference of returns; Cauchy-Schwarz along the episode; a two-room environment as a witness |
| C132 | the targets of IQN with thresholds drawn from the uniform distribution, their law as a measure, and exact fits of the mean quantile Huber loss | derivative of the mean loss under the integral; its zeros compared with quantiles; means compared by the layer cake formula; variance of the mean of `K` draws for the choice of actions; then the iteration of C105; existence of fits by monotone selection |
| C133 | one policy update of SAC: the sampled action, its log-probability from the value before squashing, the loss and what every operation passes back, for any networks | the law of the sample as an image of the noise and its density (C108); the divergence by Mathlib's tilted measures; Rademacher's theorem for the smaller critic, at whose differentiable ties both gradients agree; derivative under the integral with a bound linear in the noise |
| C134 | every call of an agent as the list of inputs its networks get, for a given and a default `batch_states` | the inputs are an inductively defined set of things made by the given function; membership per agent; for the agents that call the other function, independence of the given one, and a witness |
| C135 | Gaussian heads, the log probability, entropy and divergence formulas, the policy losses of A2C, A3C/REINFORCE, PPO and TRPO and their gradients | the policy as a product of Gaussian measures; formulas against density, differential entropy and `klDiv`; differentiation under the integral with an explicit Gaussian majorant; change of measure for the surrogate |
| C136 | the generators of a process and which of them each line of the code that draws uses, `set_random_seed`, the seeds of asynchronous workers and of vector environments; programs as trees of draws and readings | induction over programs: numbers drawn are the first of the stream of the seed; workers under any interleaving compared with the worker alone |
| C137 | the same priority tree as C04 and C07, run with floating point numbers: values are rationals, sums and differences are rounded by any monotone map that fixes the representable numbers; IEEE rounding to nearest even as an instance | the tree is determined by the stored priorities and its window, so the error is bounded by induction on the height, the height by the largest number of items; the search by induction on the height with relative bounds on both ends; rounding a difference does not cross a grid point; numpy's uniform draw is shown to stay below its upper end in the normal range |
| C138 | the projection of C23 with rounding after every operation and the additions of `scatter_add_` in any order; with the identity as rounding it is the model of C23 | rounding errors of each operation; induction over the additions with one relative error per addition to an index, and at most two times the number of atoms of them |
| C139 | the methods of C01 and C03 again, each with a count of elementary list operations or of recursive calls; first components proved equal to the models of C01 and C03 | potential argument (items in the back list, twice the length); induction over the height of the tree, width of the window bounded by the largest length; exact tracking of the window for the counterexample |
| C140 | the schedules of C51 and the update of C53 for one number, with a rounding after every operation; any monotone rounding that fixes the representable numbers, IEEE rounding as an instance | monotonicity of rounding for the bounds; errors of each operation; contraction of the distance to the exact average |
| C141 | `experience` of C56 for one element, with a rounding after every operation; mean and variance of a batch are inputs | a part of a rounded difference never exceeds the difference, so that the mean moves towards the batch; errors of each operation; induction over the batches learnt from with the exact recurrences |
| C142 | the loops of C24, C25 and C26 and the sum of C21, with a rounding after every operation | error of one step of `x ↦ t + c x`, which contracts if the discount is below 1; induction over the episode backwards |
| C143 | the targets of C62 and the loss of C85 with one parameter per state and action, SGD by the derivative of the loss, soft target updates; any sequence of updates and syncs | the new value is a convex combination of the old one and the targets; errors never grow, and shrink by a fixed factor when everything has been replayed and the target updated; Borel-Cantelli for random minibatches |
| C144 | `default_target_policy_smoothing_func` with the numbers drawn as arguments, in the TD3 targets of C62 | clamping does not increase distances; the noise is an odd function of a normal number, so its mean is 0 |
| C145 | the agent of C143 with action values linear in a parameter vector, SGD by the partial derivatives of the loss | the loss of an experience lies between its tangents and these plus half the squared step; one step of gradient descent compared with arbitrary parameters, summed up |
| C146 | the model of C03 with random draws | renaming the indices commutes with the algorithm and keeps the distribution of the draws, so all results are equally likely; every index is drawn almost surely (Borel-Cantelli), so the loop ends; double counting for the probability of one index |
| C147 | the loop of train_agent with the agent of C143, the queue of C01, sampling of C03 and C146, epsilon-greedy actions and an environment with inner states, resets and random starts | one finite sequence of random numbers makes the agent visit and replay everything from whatever state it is in; by independence and Borel-Cantelli it comes up infinitely often, almost surely; with an unbounded buffer each transition is sampled infinitely often since the harmonic series diverges; then C143 |
| C148 | the processes of C44 with exit codes, deaths outside of `train_loop`, and the main process in `run_async` | invariant on top of that of C44; a measure of what is left to happen falls with every event; some harmless event is always enabled |
| C149 | the model of C16 with the random numbers of C146 and random offsets | the sampled list of episodes and the offset at the place of an episode are independent; sum over the places; counting the offsets that contain a step |
| C150 | the layers of C109 with broadcasts, chunks and reshapes on lists of lists | the convolutions as a function of one image by induction over the layers; a broadcast of a column is a map; cutting after flattening is the identity |
| C151 | arrays in a heap, recurrent states as trees of addresses, stored states as trees of views | every step only adds arrays, so that what an address below the mark shows never changes; refinement to the agent on values |
| C152 | arrays, lists and deques as objects in memory; deques changed in place | lists of observations are never the deques, and nothing else is changed in place; refinement to stacks of values |
| C153 | transitions as dicts in memory; the buffer of C11 over addresses; weights written in place | stored experiences begin with different dicts, because an episode has one window for each start; naturality of the windows; frame lemmas for writes |
| C154 | the minibatch generator of C30 with `random.sample` a uniform random permutation | each element of each minibatch is one fixed position of one permutation; counting permutations; linearity of the integral |
| C155 | `ReplayBuffer.sample` of C03 with the random generator of C146 | the mean of a minibatch is a sum of indicators of the events that an index is drawn; their probabilities are those of C146; linearity of the integral |

## Disagreements between the code and the expected property

Each is proved of the model with a concrete witness; the theorem named is the witness.  The claim is
then `partial`, and the strongest true part is proved beside it.

| id | what happens | theorem |
|---|---|---|
| C09 | an eviction between `sample` and `set_last_priority` shifts the indices: another item gets the priority | `set_last_priority_wrong_item` |
| C17 | after some evictions transitions and episodes of a prioritized episodic buffer differ | `prioritized_episodic_store_mismatch` |
| C19 | `popleft` returns `None`, item assignment raises, `extend` of an iterator consumes it while writing and leaves memory without the items | `persistent_extend_iterator_loses` |
| C20 | a crash while `meta.pkl` is first written makes the directory unusable | `restart_after_torn_meta_fails` |
| C22 | `update_interval=0` is accepted and then raises | `update_interval_zero_raises` |
| C27 | REINFORCE's backward sum adds the last reward twice and omits the action's own | `reinforce_wrong_coefficient` |
| C35 | `target_update_interval=0` is accepted and then raises | `target_interval_zero_raises` |
| C41 | the shared best score is a C `float`: a slightly worse agent may replace the best | `best_can_be_replaced_by_worse` |
| C49 | a game over in the no-op step of a reset is overlooked | `episodic_life_misses_game_over` |
| C51 | `decay_steps=0` raises on the first step | `linear_decay_zero` |
| C52 | `evaluating` sets every submodule to the mode of the whole module afterwards | `evaluating_forgets_submodule` |
| C55 | conjugate gradient with right-hand side 0 divides by 0 | `conjugate_gradient_zero` |
| C57 | the clipped `mu` does not maximise a quadratic value if the matrix is not diagonal | `greedy_quadratic_not_maximal` |
| C59 | `load` checks only one level for cycles | `load_loops_on_cycle` |
| C60 | a NaN gain is accepted by the line search if the divergence is fine | `line_search_nan_gain` |
| C62 | DDPG's target uses `gamma`, not `gamma^n` | `ddpg_target_wrong_discount` |
| C65 | max-and-skip returns the maximum with a stale or zero frame if the episode ends early | `max_and_skip_stale_frame` |
| C66 | a lineage that does not fit loses its newest items; `maxlen=None` raises | `ancestor_newest_lost`, `ancestor_unbounded_raises` |
| C67 | A2C with a step offset raises on its first step | `a2c_step_offset_fails` |
| C69 | fire-on-reset may return the observation of the episode that just ended | `fire_reset_stale_observation` |
| C70 | the cached standard deviation survives `load_state_dict` | `load_keeps_stale_scale` |
| C72 | PAL's target of a terminal transition depends on the state after it | `pal_target_uses_terminal_state` |
| C75 | an evaluation by steps leaves a recurrent state to the next evaluation | `serial_step_evaluation_leaves_state` |
| C78 | a failed extraction is never repeated | `interrupted_extraction_never_repaired` |
| C81 | with a capacity, transitions and episodes of a persistent episodic buffer are cut independently | `persistent_episodic_inconsistent` |
| C84 | recurrent PPO asserts that the standard deviation of the advantages is positive, so equal advantages end the training | `ppo_recurrent_equal_advantages_fail` |
| C87 | a crash while `best` is overwritten destroys the best agent | `best_torn_by_crash` |
| C87 | restarting in the same directory deletes the recorded scores and forgets the best score | `restart_truncates_scores`, `restart_forgets_best` |
| C96 | `NormalizedRewardFilter` uses `min(var, eps)` where a floor needs `max`: it divides by zero as long as all rewards have been zero, and the first nonzero reward is returned as `sqrt((1-tau)/tau)` whatever its size | `normalized_filter_raises`, `normalized_filter_first` |
| C98 | `to_factorized_noisy` leaves a layer linear under its second name, unties layers shared between containers, converts noisy layers again when a container is reached twice or the function is applied twice (then calling them raises), and ignores a root that is a linear layer | `noisy_shared_layer`, `noisy_shared_untied`, `noisy_shared_container`, `noisy_twice`, `noisy_root_linear` |
| C99 | when an environment raises, its worker ends without replying, and the main process, which keeps its own copies of the workers' pipe ends, waits forever; with fewer actions than environments `step` waits forever too | `processes_failure_hangs`, `processes_fewer_actions_hang` |
| C100 | a minibatch is drawn without replacement but weighted as if draws were independent, so that with beta 1 the update is still biased; with the default normalisation a single draw always has weight 1 | `prioritized_minibatch_biased`, `prioritized_batch_normalised` |
| C101 | with gamma below 1 the losses of A3C and A2C weight all steps of a segment equally, so their expected update is not a gradient of the discounted return and can decrease it; `keep_loss_scale_same` can do so too; REINFORCE ignores the first reward of an episode and can therefore learn nothing at all | `a3c_discounted_wrong_direction`, `a3c_scaled_wrong_direction`, `reinforce_first_reward_ignored`, `reinforce_learns_nothing` |
| C102 | asked for zero episodes, `eval_performance` reports one unfinished episode with an `Env` and raises with a `VectorEnv` | `eval_performance_zero_episodes` |
| C103 | the first episode of a deterministic partially observable ABC is shifted; the documentation, read as counting from one, says the opposite | `abc_shifts` |
| C103 | with continuous actions clipping precedes the argmax, so outside of the action space the largest entry need not win | `abc_clipping_ties` |
| C104 | losses divided by the segment length (A3C options, ACER by default) weigh short segments more, so exact values have a non-zero expected gradient | `a3c_critic_normalized_biased`, `a3c_critic_scaled_biased`, `acer_critic_normalized_biased` |
| C104 | A2C cuts returns at time limits, so exact values are moved away from the truth; A3C on the same environment leaves them alone | `a2c_critic_time_limit_biased` |
| C105 | with num_steps > 1 the targets of DQN follow the behaviour policy uncorrected, so exact fitting can prefer a worse action for ever | `n_step_wrong`, `n_step_underestimates` |
| C105 | AL accepts alpha > 1, with which it may never learn the better action | `al_alpha_too_large` |
| C106 | with num_steps > 1 the SAC targets leave out the entropies of the states in between, so the critics settle at values that are not the soft values of any temperature the user chose | `sac_two_steps_wrong` |
| C107 | with two equally good actions the learnt distributions need not converge, only their expected values do | `categorical_distributions_need_gap` |
| C108 | SAC documents that `act_deterministically` chooses most probable actions; with a squashed Gaussian the action chosen is most probable only if the mean is zero and every scale is at most 1/sqrt 2 | `mode_squashed`, `mode_squashed_wrong` |
| C108 | `mode_of_distribution` does not know the distribution `DeterministicHead` returns, and raises | `deterministic_head_unsupported` |
| C108 | `GaussianHeadWithDiagonalCovariance` accepts a row of length 3 and returns a two-dimensional policy | `diagonal_head_three` |
| C109 | `batch_states` cannot batch dictionaries or tuples within tuples, though the environments may return them: `TypeError` and `AttributeError` | `batch_states_raises` |
| C109 | `LargeAtariCNN` and `SmallAtariCNN` silently accept squares of up to 91 pixels | `atari_cnn_rows` |
| C109 | `LargeAtariCNN` and `SmallAtariCNN` raise for an empty batch, which the perceptrons accept: the size of a row is ambiguous | `atari_cnn_rows` |
| C111 | with `EpisodicLifeEnv` over `ContinuingTimeLimit`, as `make_atari` and `wrap_deepmind` build them, the no-op step after a lost life can reach `max_frames` unnoticed, and a further frame is played | `atari_limit_exceeded` |
| C113 | `train_agent_batch_with_evaluation` without `eval_env` evaluates on the environments of the training in the middle of their episodes, and the training goes on from where the evaluation left them, even in episodes that are over; `train_agent_with_evaluation` excludes this by an assertion | `batch_training_disturbed` |
| C114 | the thread that writes tensorboard records ends when `stop_event` is set and the queue is empty; a worker that reaches `successful_score` sets this event while others may still evaluate, and their records are lost | `tb_record_lost` |
| C118 | when the learner or the poller fails in actor-learner training, the poller stops answering; process 0 then asks it to save the agent before it kills the processes, and waits for ever: the training neither ends nor is the agent saved | `actor_failure_hangs` |
| C119 | PPO (and TRPO) feed the states of the data set to the observation normaliser after the log-probabilities have been stored and before the minibatches: the likelihood ratios of the first step are not 1, and clipping can remove the whole gradient | `ppo_normalizer_off_policy` |
| C120 | with the default `eval_env=None` of `train_agent_batch_with_evaluation`, the replay buffer gets n-step windows that go from before an evaluation to after it, whose steps are not consecutive | `batch_buffer_corrupted` |
| C121 | the averages reported by A2C, A3C, ACER and REINFORCE start at 0 and are not corrected for it: with the default decay, a constant value is reported at less than a hundredth of itself after ten steps | `ema_underestimates` |
| C121 | `average_value` of A2C is the average loss of the value function, not the average value | `a2c_average_value_wrong` |
| C122 | a snapshot in the middle of an episode loses the transitions that still wait for their n-step window | `snapshot_loses_window` |
| C122 | `beta` of a prioritized buffer is not in the snapshot: annealing starts again from `beta0` | `snapshot_restarts_beta` |
| C124 | the trust region of ACER works on normalised logits: on-policy updates with a non-negative advantage are never constrained, so the KL divergence from the average policy can rise at any rate | `acer_trust_region_blind`, `acer_trust_region_leaves` |
| C125 | experiment identifiers contain CRC-32 checksums, so different code or arguments can get the same identifier; `prepare_output_dir` ignores its parameter `argv` when it makes the identifier | `exp_id_collision`, `directory_ignores_argv` |
| C126 | the actor loss of DDPG/TD3 weights the states of an episode alike, so descending it can lower the discounted return even with an exact critic and on-policy states | `actor_loss_wrong_direction` |
| C129 | `train_agent_async` has no lock around `optimizer.step()`: two processes that read a parameter before either writes it lose one of the two updates | `async_update_lost` |
| C129 | with `centered=True`, another process may have multiplied `square_avg` but not `grad_avg`, and the root of a negative number is taken, which C82 excludes for a single process | `async_centered_nan` |
| C129 | with `make_agent`, each process gets the shared model but keeps its own initial copy, so that its first actions and its first gradient are those of other parameters; `sync_parameters` may also mix the parameters of two moments | `async_first_gradient_elsewhere`, `async_model_torn` |
| C130 | `train_agent_async` promises the "trained agent", but returns the parent's, whose own `model`, with which it acts and which it saves, no worker ever writes; only its `shared_model` is trained | `returned_agent_untrained`, `returned_agent_not_trained` |
| C130 | the agent in `{steps}_finish` is the local copy of one worker and lacks the updates others made since | `saved_agent_stale` |
| C130 | an agent loaded and given together with `make_agent`: the workers still start from the networks `make_agent` builds | `resumed_worker_acts_fresh` |
| C130 | `ACER.load` does not copy the loaded network to `shared_average_model`, so that the first updates after a resume are kept close to the untrained network | `loaded_average_untrained` |
| C131 | the line search accepts a step whose surrogate gain is merely not lower; such a step can lower the expected return, because the surrogate keeps the states of the old policy | `accepted_update_may_lose` |
| C132 | the quantile Huber loss of IQN has the fixed threshold 1 (`smooth_l1_loss`); for returns of that size what is fitted are not quantiles, their mean is biased, and the greedy action can be wrong | `iqn_prefers_worse` |
| C134 | the updates of DDPG, TD3 and SAC call `batch_experiences` without `batch_states`, and TRPO uses the imported function for its normaliser, its gain and its value function but the given one for acting and the line search; an agent given its own `batch_states` is trained on inputs it never acts on | `update_ignores`, `trpo_mixes`, `trpo_normaliser`, `update_wrong` |
| C136 | `RandomizeAction` draws from its own generator, not seeded by `set_random_seed` | `randomize_unseeded` |
| C136 | `MultiprocessVectorEnv.seed` does not reach `numpy.random`, which ABC uses, so that ABC environments in processes draw the same numbers; an integer seeds all environments alike; `SerialVectorEnv.seed` with too few seeds leaves environments unseeded | `vector_abc_same`, `vector_int_same`, `serial_short` |
| C137 | `_find` compares a rounded difference with a rounded sum and can walk past the last item: `prioritized_sample` raises `AssertionError` or draws an item of priority zero | `float_draw_fails`, `float_draw_twice` |
| C139 | the docstring of `TreeQueue` promises O(log n); the tree does not shrink with the queue, so the time depends on the largest length so far | `tree_update_not_log` |
| C140 | with rounding, epsilon can be below `end_epsilon` at the step `decay_steps` | `linear_epsilon_below_end` |
| C140 | with rounding, a soft-updated target can stop short of a fixed source, or leave a source it equals | `soft_update_stuck`, `soft_update_drifts` |
| C141 | with rounding, a batch 2^25 times as large as what was seen makes the variance negative and `std` nan | `normalizer_negative` |
| C141 | with rounding, a first batch with a standard deviation of 2^-15 leaves the variance 0, and after 2^25 values single values do not move the mean | `normalizer_lost`, `normalizer_stuck` |
| C142 | with discount 1, rewards can be lost completely: in single precision a return of 2^24 does not change when rewards of 1 are added | `undiscounted_stuck` |
| C143 | with random rewards and a constant learning rate the values do not converge; with a learning rate above 2 they grow without bound even in deterministic environments | `noise_remains`, `large_learning_rate` |
| C144 | the default smoothing of TD3 clips to [-1, 1] whatever the action space: with bounds of 2 a target policy that acts with 2 is valued at 1, with bounds of 0.4 critics are asked for actions of 0.9 | `smoothing_large_targets`, `smoothing_small` |
| C145 | with shared parameters and updates of the target network the values may diverge for every learning rate, in a deterministic environment in which all optimal values are 0 | `linear_diverges` |
| C147 | a replay buffer with a capacity below `replay_start_size` never reaches that size: the agent acts forever without one update, with no error or warning; an explorer with epsilon 0 may stay with a worse action forever | `small_capacity`, `never_explores` |
| C148 | if the worker that made step number `steps` fails afterwards, for example in its evaluation, no final model is saved, although the other workers complete the training (`final_model_lost`); a failing worker other than 0 saves nothing (`others_save_nothing`); if all workers fail, `train_agent_async` returns normally after warnings (`all_failed_returns`) |
| C149 | sub-episodes are uniform, transitions are not: the first and the last step of a long episode are sampled `max_len` times less often than those in the middle | `ends_seldom` |
| C150 | the `activation` given to `DuelingDQN` is not used in its two streams, which always have the ReLU; in `DistributionalDuelingDQN` it is used everywhere | `dueling_values`, `distributional_dueling` |
| C151 | on the CPU a stored recurrent state shares memory with the agent's current one: a network that changes its recurrent state in place corrupts the replay buffer | `in_place_corrupts` |
| C152 | frames are not copied: an environment that reuses its observation array corrupts the stored observations | `reused_arrays_corrupt` |
| C153 | weights live in the stored transitions: a batch kept beyond the next `sample` shows the next weights | `next_sample_overwrites` |
| C154 | minibatches of recurrent PPO are not unbiased: the transitions at the end of an epoch that do not fill a minibatch are dropped, and short sequences lose more | `recurrent_biased` |

## Axioms per theorem

Printed by `#print axioms` for every theorem named in `MANIFEST.json`.

<!-- axioms -->

**none**: `Envs.Wrap.episodic_life_misses_game_over`, `Modes.evaluating_forgets_submodule`, `Envs.Wrap.fire_reset_stale_observation`, `NoisyChain.noisy_root_linear`, `Train.Workers.returned_agent_untrained`, `Train.Workers.returned_agent_not_trained`, `Train.Workers.saved_agent_stale`, `Train.Workers.resumed_worker_acts_fresh`, `Train.Workers.loaded_average_untrained`, `Inputs.update_ignores`, `Train.WorkerFailure.final_model_lost`, `Train.WorkerFailure.all_failed_returns`, `LazyFrames.reused_arrays_corrupt`.

**propext**: `Persist.persistent_set_refused`, `Persist.restart_after_torn_meta_fails`, `Returns.reinforce_wrong_coefficient`, `Ppo.limit_sequence_length_rejects`, `Interact.evaluation_changes_nothing`, `Interact.target_interval_zero_raises`, `Eval.Async.call_claims_iff`, `Eval.Async.best_can_be_replaced_by_worse`, `SaveLoad.tree_acyclic`, `Envs.Wrap.max_and_skip_stale_frame`, `Persist.ancestor_newest_lost`, `Returns.a2c_step_offset_fails`, `Envs.Wrap.fire_reset_partial`, `Interact.Recurrent.serial_step_evaluation_leaves_state`, `Segments.a3c_test_state`, `AcerSegments.acer_replays`, `Burnin.burnin_not_in_evaluation`, `NoisyChain.noisy_shared_layer`, `NoisyChain.noisy_shared_untied`, `NoisyChain.noisy_shared_container`, `NoisyChain.noisy_twice`, `Train.Tensorboard.tb_record_lost`, `Train.Failure.failure_terminates_partial`, `Interact.Snapshot.snapshot_loses_window`, `Inputs.act_uses`, `Inputs.trpo_normaliser`, `Utils.Seeds.vector_seed_refuses`, `Queue.raq_popleft_linear`, `Snapshots.in_place_corrupts`, `SharedWeights.next_sample_overwrites`.

**propext, Quot.sound**: `Batch.batch_next_action`, `Batch.update_interval_zero_raises`, `Returns.reinforce_updates_partial`, `Returns.reinforce_coefficient_iff`, `Recurrent.flatten_time_first_rows`, `Interact.Learner.learner_loop_raises`, `Interact.Actors.actor_sends_experience`, `Eval.Async.thresholds_claimed_once`, `Eval.Async.header_written_once`, `Eval.Async.shared_best_is_max`, `Envs.serial_vector_env`, `Envs.Frames.frame_stack`, `Envs.Wrap.continuing_time_limit`, `Envs.Wrap.episodic_life_partial`, `Modes.eval_mode_restored`, `Modes.evaluating_restores_partial`, `Modes.evaluating_restores_module`, `Modes.evaluating_inside`, `SaveLoad.load_loops_on_cycle`, `Envs.Wrap.max_and_skip_partial`, `Envs.Wrap.noop_reset`, `Recurrent.one_step_forward_spec`, `Recurrent.rowLayer_is_rowwise`, `Recurrent.unsorted_refused`, `Pretrained.cached_files_whole`, `Pretrained.cached_download_returns`, `Pretrained.stored_once`, `Pretrained.interrupted_extraction_never_repaired`, `Results.best_torn_by_crash`, `Gradients.one_net_gradients`, `Gradients.ddpg_gradients`, `Gradients.td3_gradients`, `Gradients.sac_gradients`, `Gradients.async_gradients`, `Segments.a3c_updates`, `Segments.a3c_segments`, `AcerSegments.acer_calls`, `AcerSegments.acer_on_policy`, `Envs.Modifiers.action_repeated`, `Envs.Modifiers.limit_counts_frames`, `Envs.Modifiers.limit_counts_decisions`, `NoisyChain.call_noisy_iff`, `Envs.Lifecycle.processes_fewer_actions_hang`, `Envs.ABC.abc_shifts`, `Envs.ABC.abc_after_end`, `Train.WithEval.unsupported_hooks`, `Train.Tensorboard.tb_records_in_order`, `Train.Tensorboard.tb_all_written_partial`, `Train.Tensorboard.tb_written_before_stop`, `Train.Failure.actor_failure_hangs`, `Train.Failure.poller_ends`, `Files.ExpId.directory_ignores_argv`, `Train.Workers.workers_use_own_last_update`, `Train.Workers.updates_are_chained`, `Train.Workers.saves_newest_partial`, `Train.Workers.returned_agent_trained_partial`, `Train.Workers.resumes_from_loaded_partial`, `Inputs.dqn_uses`, `Inputs.ppo_uses`, `Inputs.ppo_recurrent_uses`, `Inputs.actor_critic_uses`, `Inputs.acer_uses`, `Inputs.default_uses_partial`, `Inputs.trpo_recurrent_uses_partial`, `Inputs.trpo_mixes`, `Inputs.update_wrong`, `Utils.Seeds.reproducible_partial`, `Utils.Seeds.worker_numbers`, `Utils.Seeds.worker_independent`, `Utils.Seeds.randomize_unseeded`, `Utils.Seeds.negative_seed`.

**propext, Classical.choice, Quot.sound**: `Queue.raq_refines_bounded_list`, `Queue.raq_new_error_iff`, `Queue.raq_keeps_newest`, `Queue.raq_unbounded_keeps_all`, `Queue.raq_length_le_maxlen`, `Sample.sample_n_k_value_error_iff`, `Sample.sample_n_k_sound`, `Sample.sample_n_k_no_other_error`, `Sample.sample_n_k_progress`, `Sample.sample_n_k_equivariant`, `Sample.sample_n_k_first_draws`, `Tree.sum_queue_refines_list`, `Tree.min_queue_refines_list`, `Tree.prioritized_draw_inverse_cdf`, `Tree.zero_priority_never_drawn`, `Tree.prioritized_draw_measure`, `Tree.prioritized_sample_without_replacement`, `Tree.uniform_sample_without_replacement`, `PBuf.prioritized_buffer_refines`, `PBuf.set_last_priority_updates_sampled_partial`, `PBuf.set_last_priority_wrong_item`, `Weights.importance_weights`, `Weights.importance_weights_unnormalised`, `Weights.beta_anneals`, `Weights.beta_constant`, `Weights.priority_positive`, `Replay.replay_buffer_stores_windows`, `Replay.stored_experience_within_episode`, `Replay.prioritized_replay_stores_windows`, `Replay.replay_buffer_capacity_fifo`, `Replay.environments_independent`, `Replay.replay_sample_distinct`, `Episodic.episodic_sample_distinct`, `Episodic.episodic_buffer_invariant`, `Episodic.sample_episodes_pieces`, `Episodic.prioritized_episodic_learning`, `Episodic.prioritized_episodic_consistent_partial`, `Episodic.prioritized_episodic_store_mismatch`, `Episodic.prioritized_episodic_never_fails`, `Persist.crash_during_append_recovers`, `Persist.persistent_session_matches_memory_partial`, `Persist.persistent_extend_iterator_loses`, `Persist.persistent_close`, `Persist.restarts_keep_newest_partial`, `Batch.batch_experiences_n_step`, `Batch.stored_terminal_only_last`, `Batch.update_schedule_partial`, `Categorical.categorical_projection_preserves`, `Categorical.categorical_projection_eq`, `Returns.gae_episodes`, `Returns.gae_is_discounted_td_sum`, `Returns.gae_lambda_zero`, `Returns.gae_lambda_one`, `Returns.a2c_returns`, `Returns.a2c_return_no_leak`, `Returns.a3c_returns`, `Returns.acer_targets_retrace`, `Returns.acer_trace`, `Returns.retrace_n_step`, `Returns.retrace_one_step`, `Returns.retrace_fixed_point`, `Returns.trust_region_projection`, `Ppo.minibatches_fair`, `Ppo.limit_sequence_length_pieces`, `Ppo.subsets_fixed_size`, `Ppo.Dataset.datasets_partition_experience`, `Recurrent.flatten_time_first_packed`, `Recurrent.concatenate_get_round_trip`, `Recurrent.mask_zeroes_exactly`, `Recurrent.concatenate_mask_get`, `Interact.interaction_schedule`, `Interact.stored_transitions`, `Interact.agent_buffer_contents`, `Interact.Learner.learner_loop_updates`, `Interact.Learner.learner_loop_complete`, `Interact.Actors.actor_transitions_unmixed`, `Interact.Actors.actor_transitions_arrive`, `Eval.evaluation_schedule`, `Eval.best_agent_saved`, `Train.train_agent_steps`, `Train.train_agent_saves`, `Train.train_agent_exception`, `Train.train_agent_no_exception`, `Train.Batch.train_agent_batch_statistics`, `Train.Batch.train_agent_batch_steps`, `Train.Batch.train_agent_batch_interaction`, `Train.Batch.train_agent_batch_exception`, `Train.Batch.train_agent_batch_terminates`, `Train.Async.step_numbers`, `Train.Async.overshoot`, `Train.Async.final_model_saved_once`, `Train.Async.saves_at_most_once`, `Train.Async.hooks_called_once`, `Eval.serial_evaluation_by_episodes`, `Eval.serial_evaluation_by_steps`, `Eval.Batch.batch_evaluation_by_episodes`, `Eval.Batch.batch_evaluation_by_steps`, `Eval.Batch.batch_evaluation_calls`, `Envs.multiprocess_equals_serial`, `Envs.multiprocess_returns`, `Envs.Frames.vector_frame_stack`, `Numeric.normalize_action_space`, `Numeric.bound_by_tanh`, `Numeric.additive_gaussian_in_box`, `Numeric.ornstein_uhlenbeck`, `Numeric.linear_decay`, `Numeric.linear_decay_zero`, `Numeric.exponential_decay`, `Numeric.epsilon_greedy_choice`, `CopyParam.hard_update`, `CopyParam.soft_updates`, `CopyParam.soft_update_between`, `ClipNorm.clip_grad_norm`, `CG.conjugate_gradient_partial`, `CG.conjugate_gradient_exact`, `CG.conjugate_gradient_ascent`, `CG.conjugate_gradient_zero`, `EmpNorm.running_statistics`, `EmpNorm.frozen_after_until`, `EmpNorm.forward_normalizes`, `EmpNorm.inverse_undoes_forward`, `Value.greedy_discrete`, `Value.greedy_distributional`, `Value.quantile_value`, `Value.expectation_between`, `Value.greedy_quadratic_partial`, `Value.greedy_quadratic_not_maximal`, `Value.dueling_identifiable`, `Value.dueling_distributional`, `SaveLoad.save_spec`, `SaveLoad.save_load_round_trip`, `Trpo.line_search_safe`, `Trpo.line_search_nan_gain`, `Value.td3_delayed_updates`, `Value.td3_targets`, `Value.categorical_double_targets`, `Value.dqn_targets`, `Value.double_dqn_targets`, `Value.sac_targets`, `Value.ddpg_targets_partial`, `Value.iqn_targets`, `Value.categorical_targets`, `Value.ddpg_target_wrong_discount`, `Value.quantile_huber`, `Replay.replay_save_load_round_trip`, `Replay.replay_load_deque`, `Episodic.episodic_save_load_round_trip`, `Persist.open_from_ancestor_partial`, `Persist.ancestor_unbounded_raises`, `Persist.ancestor_missing_raises`, `Returns.acer_bias_correction_exact`, `Returns.acer_weights_bounded`, `Returns.sample_correction_matches_full`, `EmpNorm.load_restores_partial`, `EmpNorm.load_keeps_stale_scale`, `Value.naf_matrix`, `Value.naf_greedy`, `Value.naf_unscaled`, `Value.advantage_learning_partial`, `Value.pal_target_uses_terminal_state`, `Value.double_pal_partial`, `Value.dpp_targets`, `Value.dpp_operators`, `Trpo.kl_constrained_step`, `Interact.Recurrent.recurrent_acting`, `Interact.Recurrent.recurrent_states_stored`, `Interact.Recurrent.evaluation_starts_fresh_partial`, `Recurrent.sequential_is_machine`, `Recurrent.branched_is_machine`, `Recurrent.pack_and_forward_spec`, `Recurrent.sequences_agree_with_steps`, `Recurrent.cell_is_machine`, `Recurrent.recurrent_batch_aligned`, `Pretrained.store_returns`, `Pretrained.stored_model_complete_partial`, `OutputDir.backup_before_overwrite`, `OutputDir.other_files_untouched`, `OutputDir.prepared`, `Persist.persistent_replay_contents`, `Persist.persistent_replay_crash`, `Persist.persistent_episodic_contents`, `Persist.persistent_episodic_crash`, `Persist.persistent_episodic_consistent_partial`, `Persist.persistent_episodic_inconsistent`, `RMSprop.rmsprop_never_fails`, `RMSprop.rmsprop_step_bounded`, `RMSprop.rmsprop_update`, `RMSprop.shared_rmsprop_same`, `Ppo.Loss.ppo_loss_pessimistic`, `Ppo.Loss.ppo_policy_gradient`, `Ppo.Loss.ppo_value_gradient`, `Ppo.Loss.ppo_standardized_advantages`, `Ppo.Loss.ppo_standardized_shift`, `Ppo.Loss.ppo_recurrent_standardized_partial`, `Ppo.Loss.ppo_recurrent_equal_advantages_fail`, `Value.Loss.unit_weights`, `Value.Loss.weighted_loss_gradient`, `Value.Loss.iqn_loss_gradient`, `Value.Loss.errors_per_experience`, `Value.Loss.categorical_loss_optimal`, `Weights.Training.prioritized_training`, `Results.crash_keeps_results`, `Results.best_agent_after_crash_partial`, `Results.restart_truncates_scores`, `Results.restart_forgets_best`, `Stochastic.boltzmann_probability`, `Stochastic.boltzmann_limits`, `Stochastic.boltzmann_batch_fails`, `Stochastic.randomize_action_probability`, `Stochastic.randomize_action_valid`, `Stochastic.linear_interpolation`, `Gradients.reinforce_gradients`, `AcerSegments.acer_stores`, `AcerSegments.acer_online`, `Temperature.temperature_fixed`, `Temperature.temperature_positive`, `Temperature.temperature_direction`, `Temperature.temperature_rate`, `Temperature.hasDerivAt_loss`, `Burnin.burnin_source`, `Burnin.burnin_until`, `Envs.Modifiers.timestep_limited`, `Envs.Modifiers.reward_clipped`, `Envs.Modifiers.filtered`, `RewardFilter.average_filter`, `RewardFilter.normalized_filter_partial`, `RewardFilter.normalized_filter_bound`, `RewardFilter.normalized_filter_first`, `RewardFilter.normalized_filter_raises`, `NoisyLinear.noisy_mean`, `NoisyLinear.noisy_covariance`, `NoisyChain.to_noisy_callable_partial`, `NoisyChain.to_noisy_partial`, `Envs.Lifecycle.processes_serial`, `Envs.Lifecycle.processes_deterministic`, `Envs.Lifecycle.processes_progress_partial`, `Envs.Lifecycle.processes_bounded`, `Envs.Lifecycle.processes_bound_step`, `Envs.Lifecycle.processes_close`, `Envs.Lifecycle.processes_close_once`, `Envs.Lifecycle.processes_failure_hangs`, `Weights.Unbiased.prioritized_unbiased_partial`, `Weights.Unbiased.prioritized_batch_normalised`, `Weights.Unbiased.prioritized_minibatch_biased`, `Returns.PG.a3c_policy_gradient_partial`, `Returns.PG.a3c_gradient_per_step`, `Returns.PG.a2c_gradient_per_step`, `Returns.PG.a3c_discounted_wrong_direction`, `Returns.PG.a3c_scaled_wrong_direction`, `Returns.PG.reinforce_first_reward_ignored`, `Returns.PG.reinforce_learns_nothing`, `Eval.Stats.statistics_relations`, `Eval.Stats.statistics_perm`, `Eval.Stats.eval_performance_serial`, `Eval.Stats.eval_performance_serial_steps`, `Eval.Stats.eval_performance_batch`, `Eval.Stats.eval_performance_batch_steps`, `Eval.Stats.eval_performance_zero_episodes`, `Envs.ABC.abc_episode`, `Envs.ABC.abc_return`, `Envs.ABC.abc_nonepisodic`, `Envs.ABC.abc_policy_return`, `Envs.ABC.abc_memoryless_fails`, `Envs.ABC.abc_memory_suffices`, `Envs.ABC.abc_inner_action`, `Envs.ABC.abc_clipping_ties`, `Envs.ABC.abc_stochastic_optimum`, `Returns.PG.a3c_critic_partial`, `Returns.PG.a3c_critic_exact_partial`, `Returns.PG.a2c_critic_partial`, `Returns.PG.a2c_critic_exact_partial`, `Returns.PG.gae_critic`, `Returns.PG.acer_critic_partial`, `Returns.PG.values_unique`, `Returns.PG.a3c_critic_normalized_biased`, `Returns.PG.a3c_critic_scaled_biased`, `Returns.PG.acer_critic_normalized_biased`, `Returns.PG.a2c_critic_time_limit_biased`, `Value.Iteration.dqn_iteration_partial`, `Value.Iteration.double_dqn_close`, `Value.Iteration.advantage_learning_optimal`, `Value.Iteration.persistent_advantage_learning_optimal`, `Value.Iteration.dpp_greedy_is_al`, `Value.Iteration.dppl_optimal`, `Value.Iteration.dpp_optimal`, `Value.Iteration.dpp_loss`, `Value.Iteration.dppl_loss`, `Value.Iteration.dpp_greedy_loss`, `Value.Iteration.optimal_exists`, `Value.Iteration.optimal_best`, `Value.Iteration.greedy_loss`, `Value.Iteration.greedy_optimal`, `Value.Iteration.n_step_contracts`, `Value.Iteration.n_step_underestimates`, `Value.Iteration.n_step_wrong`, `Value.Iteration.al_alpha_too_large`, `Value.Soft.sac_policy_loss`, `Value.Soft.soft_values_return`, `Value.Soft.soft_values_exist`, `Value.Soft.sac_critics_partial`, `Value.Soft.sac_policy_improves`, `Value.Soft.sac_policy_iteration`, `Value.Soft.sac_control_partial`, `Value.Soft.sac_two_steps_wrong`, `Value.Dist.categorical_fit`, `Value.Dist.categorical_values`, `Value.Dist.categorical_distributions`, `Value.Dist.categorical_distributions_need_gap`, `Policies.mode_most_probable_partial`, `Policies.mode_squashed`, `Policies.mode_squashed_wrong`, `Policies.mode_categorical`, `Policies.diagonal_head`, `Policies.diagonal_head_three`, `Policies.other_gaussian_heads`, `Policies.softplus_admissible`, `Policies.deterministic_head_unsupported`, `Networks.mlp_rows`, `Networks.mlp_init`, `Networks.mlp_wrong_size`, `Networks.state_action_rows`, `Networks.mlpbn_rows`, `Networks.mlpbn_training_mixes`, `Networks.distributional_rows`, `Networks.cosine_rows`, `Networks.iqn_rows`, `Networks.atari_cnn_rows`, `Networks.batch_states_rows`, `Networks.batch_states_raises`, `Networks.init_scale`, `Networks.init_scale_relu`, `Envs.Atari.atari_calls`, `Envs.Atari.atari_not_started`, `Envs.Atari.atari_step`, `Envs.Atari.atari_reset`, `Envs.Atari.atari_limit_partial`, `Envs.Atari.atari_limit_exceeded`, `Train.WithEval.training_sequence`, `Train.WithEval.evaluation_faithful`, `Train.WithEval.training_intact`, `Train.WithEval.evaluations_recorded`, `Train.WithEval.hook_stops_training`, `Train.WithEval.evaluation_invisible`, `Train.WithEval.unsupported_hooks_raise`, `Train.WithEval.optuna_pruning`, `Train.BatchWithEval.batch_training_intact_partial`, `Train.BatchWithEval.batch_training_calls`, `Train.BatchWithEval.batch_evaluation_invisible`, `Train.BatchWithEval.batch_training_disturbed`, `Train.Tensorboard.tb_returns`, `Train.Tensorboard.tb_writer_ends`, `Train.Replayed.buffer_holds_trajectory`, `Trpo.Update.hessian_is_fisher_categorical`, `Trpo.Update.hessian_is_fisher_gaussian`, `Trpo.Update.categorical_heads`, `Trpo.Update.normal_heads`, `Trpo.Update.divergence_quadratic`, `Trpo.Update.gain_gradient`, `Trpo.Update.trpo_update`, `Envs.Monitor.monitor_episodes`, `Envs.Monitor.monitor_refuses`, `Ppo.Update.ppo_dataset_faithful`, `Ppo.Update.ppo_values_consecutive`, `Ppo.Update.ppo_advantages`, `Ppo.Update.ppo_first_step_on_policy_partial`, `Ppo.Update.ppo_normalizer_off_policy`, `Train.BatchReplayed.batch_buffer_holds_trajectories_partial`, `Train.BatchReplayed.batch_buffer_corrupted`, `Agents.Statistics.dqn_statistics`, `Agents.Statistics.ddpg_statistics`, `Agents.Statistics.td3_statistics`, `Agents.Statistics.sac_statistics`, `Agents.Statistics.ppo_statistics`, `Agents.Statistics.trpo_statistics`, `Agents.Statistics.trpo_reported_kl`, `Agents.Statistics.reports_bounds`, `Agents.Statistics.explained_variance`, `Agents.Statistics.ema_fading`, `Agents.Statistics.actor_critic_statistics`, `Agents.Statistics.a2c_statistics`, `Agents.Statistics.ema_underestimates`, `Agents.Statistics.a2c_average_value_wrong`, `Interact.Snapshot.snapshot_resume_partial`, `Interact.Snapshot.snapshot_resume_any`, `Interact.Snapshot.snapshot_restarts_beta`, `Numeric.Noise.ou_stationary`, `Numeric.Noise.ou_from_mu`, `Numeric.Noise.ou_shared_by_environments`, `Numeric.Noise.gaussian_action_law`, `Agents.AcerUpdate.acer_expected_update`, `Agents.AcerUpdate.acer_expected_update_on_policy`, `Agents.AcerUpdate.acer_trust_region_partial`, `Agents.AcerUpdate.acer_trust_region_blind`, `Agents.AcerUpdate.acer_trust_region_leaves`, `Agents.AcerUpdate.acer_head_unbiased`, `Files.ExpId.exp_id_components_partial`, `Files.ExpId.exp_id_small_change`, `Files.ExpId.exp_id_characters`, `Files.ExpId.exp_id_collision`, `Agents.Dpg.actor_loss_return_partial`, `Agents.Dpg.improvement_everywhere`, `Agents.Dpg.tabular_actor_step`, `Agents.Dpg.actor_loss_wrong_direction`, `Train.BatchWithEval.batch_evaluation_proper`, `Trpo.Recurrent.trpo_recurrent_is_update_on_histories`, `Trpo.Recurrent.trpo_recurrent_order`, `Trpo.Recurrent.trpo_recurrent_guarantee`, `Trpo.Recurrent.trpo_recurrent_vf_loss`, `Train.Hogwild.async_never_nan`, `Train.Hogwild.async_bounded`, `Train.Hogwild.async_updates_add_up_partial`, `Train.Hogwild.async_model_values_partial`, `Train.Hogwild.async_alone`, `Train.Hogwild.async_update_lost`, `Train.Hogwild.async_centered_nan`, `Train.Hogwild.async_model_torn`, `Train.Hogwild.async_first_gradient_elsewhere`, `Trpo.Improve.return_change`, `Trpo.Improve.update_changes_return`, `Trpo.Improve.surrogate_improves_return_partial`, `Trpo.Improve.update_does_not_lose_partial`, `Trpo.Improve.accepted_update_may_lose`, `Value.Iqn.fit_near_quantile`, `Value.Iqn.fit_exists`, `Value.Iqn.iqn_iteration_partial`, `Value.Iqn.iqn_prefers_worse`, `Sac.Actor.sac_log_prob`, `Sac.Actor.sac_loss_divergence`, `Sac.Actor.sac_policy_gradient`, `Sac.Actor.sac_policy_descends`, `Sac.Actor.head_scale`, `Policies.Gradient.gaussian_log_prob`, `Policies.Gradient.gaussian_entropy`, `Policies.Gradient.gaussian_kl`, `Policies.Gradient.gaussian_backward`, `Policies.Gradient.gaussian_policy_gradient`, `Policies.Gradient.gaussian_baseline`, `Policies.Gradient.gaussian_surrogate`, `Policies.Gradient.gaussian_ppo_pessimistic`, `Policies.Gradient.gaussian_policy_ascends`, `Policies.Gradient.gaussian_heads`, `Utils.Seeds.reproducible_environments`, `Utils.Seeds.default_seeds`, `Utils.Seeds.vector_seed`, `Utils.Seeds.vector_abc_same`, `Utils.Seeds.vector_int_same`, `Utils.Seeds.serial_short`, `Tree.float_sum`, `Tree.float_draws_partial`, `Tree.float_draws_exact`, `Tree.rne_rounding`, `Tree.numpy_uniform`, `Tree.float_draw_fails`, `Tree.float_draw_twice`, `Categorical.float_projection`, `Categorical.float_position_past_end`, `Categorical.float_mass_changes`, `Queue.raq_amortized_constant`, `Tree.tree_calls_partial`, `Tree.prioritized_sample_calls`, `Tree.tree_update_not_log`, `Floats.linear_epsilon_partial`, `Floats.exponential_epsilon`, `Floats.soft_update_partial`, `Floats.soft_update_constant`, `Floats.rne_rounding`, `Floats.linear_epsilon_below_end`, `Floats.soft_update_stuck`, `Floats.soft_update_drifts`, `Floats.normalizer_range_partial`, `Floats.normalizer_accuracy_partial`, `Floats.normalizer_negative`, `Floats.normalizer_lost`, `Floats.normalizer_stuck`, `Floats.gae_accuracy`, `Floats.a3c_accuracy`, `Floats.a2c_accuracy`, `Floats.a2c_gae_accuracy`, `Floats.nstep_accuracy`, `Floats.undiscounted_stuck`, `Value.Table.table_converges`, `Value.Table.table_eventually`, `Value.Table.table_optimal`, `Value.Table.table_replay`, `Value.Table.unseen_unchanged`, `Value.Table.large_learning_rate`, `Value.Table.noise_remains`, `Value.Smoothing.smoothing_valid_partial`, `Value.Smoothing.smoothing_exact`, `Value.Smoothing.smoothing_mean`, `Value.Smoothing.smoothing_targets_partial`, `Value.Smoothing.smoothing_large`, `Value.Smoothing.smoothing_large_targets`, `Value.Smoothing.smoothing_small`, `Value.Linear.linear_fit`, `Value.Linear.linear_exact`, `Value.Linear.linear_diverges`, `Sample.Uniform.sample_uniform`, `Sample.Uniform.sample_inclusion`, `Sample.Uniform.queue_inclusion`, `Sample.Uniform.generator_exists`, `Value.Training.training_optimal`, `Value.Training.explorers_optimal`, `Value.Training.small_capacity`, `Value.Training.never_explores`, `Value.Training.draws_exist`, `Train.WorkerFailure.training_ends`, `Train.WorkerFailure.survivors_complete`, `Train.WorkerFailure.warnings_exact`, `Train.WorkerFailure.final_model_partial`, `Train.WorkerFailure.others_save_nothing`, `Episodic.Uniform.transition_inclusion`, `Episodic.Uniform.window_inclusion`, `Episodic.Uniform.short_inclusion`, `Episodic.Uniform.covering_eq`, `Episodic.Uniform.ends_seldom`, `Episodic.Uniform.offsets_exist`, `DuelingNet.dueling_values`, `DuelingNet.distributional_dueling`, `DuelingNet.dueling_raises`, `Snapshots.views_are_values`, `Snapshots.stored_states_stay`, `LazyFrames.lazy_observations`, `LazyFrames.step_before_reset`, `SharedWeights.weights_reach_their_experiences`, `SharedWeights.sampling_keeps_experiences`, `SharedWeights.history_ok`, `Ppo.Unbiased.minibatch_unbiased`, `Ppo.Unbiased.expected_uses`, `Ppo.Unbiased.recurrent_biased`, `Ppo.Unbiased.uniform_exists`, `Replay.Unbiased.sample_ends`, `Replay.Unbiased.replay_unbiased`.
