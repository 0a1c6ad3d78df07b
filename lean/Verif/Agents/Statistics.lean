import Mathlib.Data.Rat.Defs
import Mathlib.Algebra.Order.Field.Rat
import Mathlib.Algebra.BigOperators.Group.List.Basic
import Mathlib.Tactic.Linarith
import Mathlib.Tactic.Ring
import Mathlib.Tactic.FieldSimp
import Mathlib.Tactic.Positivity

/-!
# The statistics that agents report (C121)

`get_statistics` of all agents: windows of recent values in `collections.deque`s, exponential averages, counters and the explained variance.
-/

namespace Pfrl.Agents.Statistics

/-! ## Model

Numbers are exact rationals.  `none` is `nan`. -/

/-- `deque.append` for a `collections.deque(maxlen=m)`: the oldest items fall out. -/
def push (m : Nat) (d : List ℚ) (x : ℚ) : List ℚ := (d ++ [x]).drop (d.length + 1 - m)

/-- `deque.extend`: `append` for each item. -/
def extend (m : Nat) (d xs : List ℚ) : List ℚ := xs.foldl (push m) d

/-- `_mean_or_nan`, `pfrl/agents/dqn.py:39-41` and its copies in `ddpg.py:17-19`, `ppo.py:23-25`, `soft_actor_critic.py:19-21`, `td3.py:17-19` and
`trpo.py:71-73`. -/
def meanOrNan (xs : List ℚ) : Option ℚ := if xs.isEmpty then none else some (xs.sum / xs.length)

/-- An exponential average: `average += (1 - decay) * (x - average)`, as in `pfrl/agents/a2c.py:205-213`, `a3c.py:260-265`,
`acer.py:453` and `746-751`, `reinforce.py:123-125`. -/
def ema (decay avg x : ℚ) : ℚ := avg + (1 - decay) * (x - avg)

/-- `np.mean`, for a sequence that is not empty. -/
def mean (xs : List ℚ) : ℚ := xs.sum / xs.length

/-- `np.var`. -/
def var (xs : List ℚ) : ℚ := mean (xs.map fun x => (x - mean xs) ^ 2)

/-- `_compute_explained_variance`, `pfrl/agents/ppo.py:181-193`: the items are pairs of `v_teacher` and `v_pred`. -/
def explainedVariance (trs : List (ℚ × ℚ)) : Option ℚ :=
  if var (trs.map Prod.fst) = 0 then none else some (1 - var (trs.map fun x => x.1 - x.2) / var (trs.map Prod.fst))

/-! ### DQN and its subclasses -/

structure Dqn where
  q : List ℚ
  loss : List ℚ
  cumulative : Nat
  updates : Nat
deriving DecidableEq

/-- `pfrl/agents/dqn.py:259-264`. -/
def Dqn.new : Dqn := ⟨[], [], 0, 0⟩

/-- What happens to an agent: a transition of one environment is observed in training, or not in training, or the model is updated. -/
inductive Dqn.Ev where
  | observe (training : Bool)
  | update (ys : List ℚ) (loss : ℚ)

/-- `_batch_observe_train` for each environment (`dqn.py:518`), and `update` with `_compute_loss` (`dqn.py:352-364` and `445`; `ys` are the predicted action values). -/
def Dqn.step (s : Dqn) : Dqn.Ev → Dqn
  | .observe training => if training then { s with cumulative := s.cumulative + 1 } else s
  | .update ys loss => { s with q := extend 1000 s.q ys, loss := push 100 s.loss loss, updates := s.updates + 1 }

/-- `DQN.get_statistics`, `dqn.py:812-819`: `average_q`, `average_loss`, `cumulative_steps` and `n_updates`.  `rlen` is the length of the replay buffer. -/
def Dqn.stats (s : Dqn) : Option ℚ × Option ℚ × Nat × Nat := (meanOrNan s.q, meanOrNan s.loss, s.cumulative, s.updates)

/-! ### DDPG -/

structure Ddpg where
  q : List ℚ
  actor : List ℚ
  critic : List ℚ
  updates : Nat
deriving DecidableEq

/-- `pfrl/agents/ddpg.py:127-130`. -/
def Ddpg.new : Ddpg := ⟨[], [], [], 0⟩

/-- The losses of one `update`, and the action values of the actor's actions. -/
structure Ddpg.Ev where
  criticLoss : ℚ
  qs : List ℚ
  actorLoss : ℚ

/-- `update`, `compute_critic_loss` and `compute_actor_loss`, `ddpg.py:171`, `184-185` and `189-202`. -/
def Ddpg.step (s : Ddpg) (e : Ddpg.Ev) : Ddpg :=
  { critic := push 100 s.critic e.criticLoss, q := extend 1000 s.q e.qs, actor := push 100 s.actor e.actorLoss, updates := s.updates + 1 }

/-- `DDPG.get_statistics`, `ddpg.py:306-312`. -/
def Ddpg.stats (s : Ddpg) : Option ℚ × Option ℚ × Option ℚ × Nat := (meanOrNan s.q, meanOrNan s.actor, meanOrNan s.critic, s.updates)

/-! ### TD3 -/

structure Td3 where
  q1 : List ℚ
  q2 : List ℚ
  loss1 : List ℚ
  loss2 : List ℚ
  policyLoss : List ℚ
  policyUpdates : Nat
  qUpdates : Nat
deriving DecidableEq

/-- `pfrl/agents/td3.py:143-158`. -/
def Td3.new : Td3 := ⟨[], [], [], [], [], 0, 0⟩

/-- One `update`: predictions and losses of the critics, and the loss of the policy (computed only when the policy is updated). -/
structure Td3.Ev where
  q1 : List ℚ
  q2 : List ℚ
  loss1 : ℚ
  loss2 : ℚ
  policyLoss : ℚ

/-- `update_q_func`, `td3.py:214-231`. -/
def Td3.updateQ (s : Td3) (e : Td3.Ev) : Td3 :=
  { s with q1 := extend 1000 s.q1 e.q1, q2 := extend 1000 s.q2 e.q2, loss1 := push 100 s.loss1 e.loss1, loss2 := push 100 s.loss2 e.loss2, qUpdates := s.qUpdates + 1 }

/-- `update_policy`, `td3.py:244-250`. -/
def Td3.updatePolicy (s : Td3) (e : Td3.Ev) : Td3 :=
  { s with policyLoss := push 100 s.policyLoss e.policyLoss, policyUpdates := s.policyUpdates + 1 }

/-- `update`, `td3.py:252-259`. -/
def Td3.step (delay : Nat) (s : Td3) (e : Td3.Ev) : Td3 :=
  let s' := s.updateQ e
  if s'.qUpdates % delay = 0 then s'.updatePolicy e else s'

/-- `TD3.get_statistics`, `td3.py:319-328`. -/
def Td3.stats (s : Td3) : Option ℚ × Option ℚ × Option ℚ × Option ℚ × Option ℚ × Nat × Nat :=
  (meanOrNan s.q1, meanOrNan s.q2, meanOrNan s.loss1, meanOrNan s.loss2, meanOrNan s.policyLoss, s.policyUpdates, s.qUpdates)

/-! ### SAC -/

structure Sac where
  q1 : List ℚ
  q2 : List ℚ
  loss1 : List ℚ
  loss2 : List ℚ
  entropy : List ℚ
  updates : Nat
deriving DecidableEq

/-- `pfrl/agents/soft_actor_critic.py:184-189`. -/
def Sac.new : Sac := ⟨[], [], [], [], [], 0⟩

/-- One `update`: predictions and losses of the critics, the entropies of the policy's distributions (`none` if they raise `NotImplementedError`) and the
log-probabilities of the sampled actions. -/
structure Sac.Ev where
  q1 : List ℚ
  q2 : List ℚ
  loss1 : ℚ
  loss2 : ℚ
  entropies : Option (List ℚ)
  logProbs : List ℚ

/-- `update`, with `update_q_func` and `update_policy_and_temperature`, `soft_actor_critic.py:247-250`, `296` and `300-308`. -/
def Sac.step (s : Sac) (e : Sac.Ev) : Sac :=
  { q1 := extend 1000 s.q1 e.q1, q2 := extend 1000 s.q2 e.q2, loss1 := push 100 s.loss1 e.loss1, loss2 := push 100 s.loss2 e.loss2,
    entropy := extend 1000 s.entropy (match e.entropies with | some xs => xs | none => e.logProbs.map fun x => -x), updates := s.updates + 1 }

/-- `SoftActorCritic.get_statistics`, `soft_actor_critic.py:376-385`, without the temperature (C93). -/
def Sac.stats (s : Sac) : Option ℚ × Option ℚ × Option ℚ × Option ℚ × Nat × Option ℚ :=
  (meanOrNan s.q1, meanOrNan s.q2, meanOrNan s.loss1, meanOrNan s.loss2, s.updates, meanOrNan s.entropy)

/-! ### PPO and TRPO -/

/-- The windows of the statistics, arguments of the constructors. -/
structure Windows where
  value : Nat
  entropy : Nat
  third : Nat
  fourth : Nat

/-- The records of PPO: `third` and `fourth` are the losses of the value function and of the policy.  The records of TRPO: they are the KL
divergences and the step sizes. -/
structure OnPolicy where
  value : List ℚ
  entropy : List ℚ
  third : List ℚ
  fourth : List ℚ
  explained : Option ℚ
  updates : Nat
deriving DecidableEq

/-- `pfrl/agents/ppo.py:395-400`, `trpo.py:234-240`. -/
def OnPolicy.new : OnPolicy := ⟨[], [], [], [], none, 0⟩

/-- `_batch_act_train`, `ppo.py:733-735` and `trpo.py:761-763`; `batch_act` in evaluation records nothing. -/
def OnPolicy.act (w : Windows) (training : Bool) (entropies values : List ℚ) (s : OnPolicy) : OnPolicy :=
  if training then { s with entropy := extend w.entropy s.entropy entropies, value := extend w.value s.value values } else s

/-- `_lossfun` and the optimiser step for a minibatch, `ppo.py:532`, `606` and `662-663`. -/
def ppoMinibatch (w : Windows) (s : OnPolicy) (l : ℚ × ℚ) : OnPolicy :=
  { s with third := push w.third s.third l.1, fourth := push w.fourth s.fourth l.2, updates := s.updates + 1 }

inductive Ppo.Ev where
  | act (training : Bool) (entropies values : List ℚ)
  | update (losses : List (ℚ × ℚ)) (trs : List (ℚ × ℚ))

/-- PPO: `losses` are the losses of the value function and of the policy for each minibatch, `trs` the value targets and predictions of the data set; `ppo.py:432-447`. -/
def Ppo.step (w : Windows) (s : OnPolicy) : Ppo.Ev → OnPolicy
  | .act training es vs => s.act w training es vs
  | .update losses trs => { losses.foldl (ppoMinibatch w) s with explained := explainedVariance trs }

/-- `PPO.get_statistics`, `ppo.py:809-817`. -/
def Ppo.stats (s : OnPolicy) : Option ℚ × Option ℚ × Option ℚ × Option ℚ × Nat × Option ℚ :=
  (meanOrNan s.value, meanOrNan s.entropy, meanOrNan s.third, meanOrNan s.fourth, s.updates, s.explained)

/-- The loop of `_line_search`, `trpo.py:651-692`: for each step size, the improvement and the divergence (`none` if one of them is not finite). -/
def trpoSearch (w : Windows) (maxKl : ℚ) (s : OnPolicy) (size : ℚ) : List (Option (ℚ × ℚ)) → OnPolicy
  | [] => { s with fourth := push w.fourth s.fourth 0 }
  | none :: l => trpoSearch w maxKl s (size * (1 / 2)) l
  | some (improve, kl) :: l =>
    if improve < 0 then trpoSearch w maxKl s (size * (1 / 2)) l
    else if maxKl < kl then trpoSearch w maxKl s (size * (1 / 2)) l
    else { s with third := push w.third s.third kl, fourth := push w.fourth s.fourth size }

inductive Trpo.Ev where
  | act (training : Bool) (entropies values : List ℚ)
  | update (candidates : List (Option (ℚ × ℚ))) (trs : List (ℚ × ℚ))

/-- TRPO: `candidates` are the results of the step sizes 1, 1/2, 1/4, …; `trpo.py:290-306`. -/
def Trpo.step (w : Windows) (maxKl : ℚ) (s : OnPolicy) : Trpo.Ev → OnPolicy
  | .act training es vs => s.act w training es vs
  | .update candidates trs => { trpoSearch w maxKl s 1 candidates with explained := explainedVariance trs }

/-- `TRPO.get_statistics`, `trpo.py:837-844`. -/
def Trpo.stats (s : OnPolicy) : Option ℚ × Option ℚ × Option ℚ × Option ℚ × Option ℚ :=
  (meanOrNan s.value, meanOrNan s.entropy, meanOrNan s.third, meanOrNan s.fourth, s.explained)

/-! ### A2C, A3C, ACER and REINFORCE -/

structure Averages where
  actor : ℚ
  value : ℚ
  entropy : ℚ
deriving DecidableEq

/-- What an update of A2C sees: the returns, the predicted values and the log-probabilities of the actions of all steps, and the mean entropy. -/
structure A2c.Ev where
  steps : List (ℚ × ℚ × ℚ)
  entropy : ℚ

/-- `value_loss`, `pfrl/agents/a2c.py:184-185`: the mean squared difference of returns and values. -/
def A2c.Ev.valueLoss (e : A2c.Ev) : ℚ := mean (e.steps.map fun x => (x.1 - x.2.1) * (x.1 - x.2.1))

/-- `action_loss`, `a2c.py:186`. -/
def A2c.Ev.actionLoss (e : A2c.Ev) : ℚ := -mean (e.steps.map fun x => (x.1 - x.2.1) * x.2.2)

/-- `A2C.update`, `a2c.py:204-213`: `average_value` is moved towards the loss of the value function. -/
def A2c.step (dActor dValue dEntropy : ℚ) (s : Averages) (e : A2c.Ev) : Averages :=
  { actor := ema dActor s.actor e.actionLoss, value := ema dValue s.value e.valueLoss, entropy := ema dEntropy s.entropy e.entropy }

/-- `A2C.get_statistics`, `a2c.py:289-294`: `average_actor`, `average_value`, `average_entropy`. -/
def A2c.stats (s : Averages) : ℚ × ℚ × ℚ := (s.actor, s.value, s.entropy)

/-- `_act_train` of A3C and ACER, `a3c.py:259-265` and `acer.py:745-751` (`actor` is not used; `average_kl` of ACER is another exponential average, `acer.py:453`). -/
def ActorCritic.step (dValue dEntropy : ℚ) (s : Averages) (e : ℚ × ℚ) : Averages :=
  { s with value := ema dValue s.value e.1, entropy := ema dEntropy s.entropy e.2 }

/-! ## Specification -/

/-- `ys` is what is left of `xs` when only the newest `m` items are kept. -/
def Spec.Recent (m : Nat) (xs ys : List ℚ) : Prop := ys.length = min m xs.length ∧ ∃ old, xs = old ++ ys

/-- `r` is reported for the values `xs` with a window of `m`: the arithmetic mean of the newest `m` of them, `nan` if there are none. -/
def Spec.Reports (m : Nat) (xs : List ℚ) (r : Option ℚ) : Prop :=
  ∃ ys, Spec.Recent m xs ys ∧ ((ys = [] ∧ r = none) ∨ (ys ≠ [] ∧ ∃ a, r = some a ∧ a * ys.length = ys.sum))

/-- The first candidate of a line search that does not lose and keeps to the bound: its number, counted from `i`, and its divergence. -/
def Spec.accepted (maxKl : ℚ) : Nat → List (Option (ℚ × ℚ)) → Option (Nat × ℚ)
  | _, [] => none
  | i, some (improve, kl) :: l => if 0 ≤ improve ∧ kl ≤ maxKl then some (i, kl) else Spec.accepted maxKl (i + 1) l
  | i, none :: l => Spec.accepted maxKl (i + 1) l

/-- The average of `xs` with weights that fall by the factor `d` with each newer item, and what is left of the start value `a`. -/
def Spec.fading (d a : ℚ) (xs : List ℚ) : ℚ :=
  d ^ xs.length * a + (1 - d) * (xs.reverse.zipIdx.map fun x => d ^ x.2 * x.1).sum

/-! ## Lemmas -/

theorem push_length (m : Nat) (d : List ℚ) (x : ℚ) : (push m d x).length = min m (d.length + 1) := by
  simp only [push, List.length_drop, List.length_append, List.length_cons, List.length_nil]
  omega

theorem push_recent {m : Nat} {xs d : List ℚ} (x : ℚ) (h : Spec.Recent m xs d) : Spec.Recent m (xs ++ [x]) (push m d x) := by
  obtain ⟨h1, old, rfl⟩ := h
  refine ⟨?_, old ++ (d ++ [x]).take (d.length + 1 - m), ?_⟩
  · rw [push_length]
    simp only [List.length_append, List.length_cons, List.length_nil] at h1 ⊢
    omega
  · rw [push, List.append_assoc, List.append_assoc, List.take_append_drop]

theorem extend_recent {m : Nat} : ∀ (ys : List ℚ) {xs d : List ℚ}, Spec.Recent m xs d → Spec.Recent m (xs ++ ys) (extend m d ys)
  | [], xs, d, h => by
    rw [List.append_nil]
    exact h
  | y :: ys, xs, d, h => by
    have := extend_recent ys (push_recent y h)
    rw [List.append_assoc] at this
    exact this

theorem recent_nil (m : Nat) : Spec.Recent m [] [] := ⟨by simp, [], rfl⟩

theorem reports {m : Nat} {xs ys : List ℚ} (h : Spec.Recent m xs ys) : Spec.Reports m xs (meanOrNan ys) := by
  refine ⟨ys, h, ?_⟩
  unfold meanOrNan
  cases ys with
  | nil => exact Or.inl ⟨rfl, rfl⟩
  | cons y ys =>
    refine Or.inr ⟨by simp, _, rfl, ?_⟩
    have : (((y :: ys).length : Nat) : ℚ) ≠ 0 := by
      rw [List.length_cons]
      positivity
    field_simp

theorem sum_bounds {a b : ℚ} : ∀ (xs : List ℚ), (∀ x ∈ xs, a ≤ x ∧ x ≤ b) → a * xs.length ≤ xs.sum ∧ xs.sum ≤ b * xs.length
  | [], _ => by simp
  | x :: xs, h => by
    obtain ⟨h1, h2⟩ := sum_bounds xs fun y hy => h y (List.mem_cons_of_mem _ hy)
    obtain ⟨h3, h4⟩ := h x List.mem_cons_self
    rw [List.sum_cons, List.length_cons]
    push_cast
    constructor <;> linarith

/-! ## C121 -/

/-- **C121 (averages are averages).** A reported average over a window lies between bounds of the values in the window. -/
theorem reports_bounds {m : Nat} {xs : List ℚ} {a r : ℚ} {b : ℚ} (h : Spec.Reports m xs (some r)) (hx : ∀ x ∈ xs, a ≤ x ∧ x ≤ b) : a ≤ r ∧ r ≤ b := by
  obtain ⟨ys, ⟨-, old, ho⟩, h | ⟨hne, r', h1, h2⟩⟩ := h
  · exact absurd h.2 (by simp)
  · cases h1
    have hb := sum_bounds ys fun y hy => hx y (by rw [ho]; exact List.mem_append_right _ hy)
    have hp : (0 : ℚ) < ys.length := by
      have := List.length_pos_of_ne_nil hne
      exact_mod_cast this
    rw [← h2] at hb
    exact ⟨le_of_mul_le_mul_right hb.1 hp, le_of_mul_le_mul_right hb.2 hp⟩

/-- **C121 (DQN and its subclasses).** After any history, `average_q` and `average_loss` are the means of the newest 1000 action values and of the newest 100
losses of all updates, `n_updates` is the number of updates and `cumulative_steps` that of transitions observed in training. -/
theorem dqn_statistics (evs : List Dqn.Ev) :
    let r := (evs.foldl Dqn.step Dqn.new).stats
    Spec.Reports 1000 (evs.flatMap fun e => match e with | .update ys _ => ys | .observe _ => []) r.1 ∧
    Spec.Reports 100 (evs.flatMap fun e => match e with | .update _ l => [l] | .observe _ => []) r.2.1 ∧
    r.2.2.1 = evs.countP (fun e => match e with | .observe true => true | _ => false) ∧
    r.2.2.2 = evs.countP (fun e => match e with | .update _ _ => true | _ => false) := by
  suffices h : ∀ evs : List Dqn.Ev, Spec.Recent 1000 (evs.flatMap fun e => match e with | .update ys _ => ys | .observe _ => []) (evs.foldl Dqn.step Dqn.new).q ∧
      Spec.Recent 100 (evs.flatMap fun e => match e with | .update _ l => [l] | .observe _ => []) (evs.foldl Dqn.step Dqn.new).loss ∧
      (evs.foldl Dqn.step Dqn.new).cumulative = evs.countP (fun e => match e with | .observe true => true | _ => false) ∧
      (evs.foldl Dqn.step Dqn.new).updates = evs.countP (fun e => match e with | .update _ _ => true | _ => false) from
    ⟨reports (h evs).1, reports (h evs).2.1, (h evs).2.2.1, (h evs).2.2.2⟩
  intro evs
  induction evs using List.reverseRecOn with
  | nil => exact ⟨recent_nil _, recent_nil _, rfl, rfl⟩
  | append_singleton evs e ih =>
    obtain ⟨h1, h2, h3, h4⟩ := ih
    rw [List.foldl_append, List.flatMap_append, List.flatMap_append, List.countP_append, List.countP_append]
    cases e with
    | observe t =>
      cases t with
      | false => exact ⟨by simpa [Dqn.step] using h1, by simpa [Dqn.step] using h2, by simpa [Dqn.step] using h3, by simpa [Dqn.step] using h4⟩
      | true => exact ⟨by simpa [Dqn.step] using h1, by simpa [Dqn.step] using h2, by simpa [Dqn.step] using h3, by simpa [Dqn.step] using h4⟩
    | update ys l =>
      refine ⟨?_, ?_, by simpa [Dqn.step] using h3, by simpa [Dqn.step] using h4⟩
      · simpa [Dqn.step] using extend_recent ys h1
      · simpa [Dqn.step] using push_recent l h2

/-- **C121 (DDPG).** -/
theorem ddpg_statistics (evs : List Ddpg.Ev) :
    let r := (evs.foldl Ddpg.step Ddpg.new).stats
    Spec.Reports 1000 (evs.flatMap Ddpg.Ev.qs) r.1 ∧ Spec.Reports 100 (evs.map Ddpg.Ev.actorLoss) r.2.1 ∧
    Spec.Reports 100 (evs.map Ddpg.Ev.criticLoss) r.2.2.1 ∧ r.2.2.2 = evs.length := by
  suffices h : ∀ evs : List Ddpg.Ev, Spec.Recent 1000 (evs.flatMap Ddpg.Ev.qs) (evs.foldl Ddpg.step Ddpg.new).q ∧
      Spec.Recent 100 (evs.map Ddpg.Ev.actorLoss) (evs.foldl Ddpg.step Ddpg.new).actor ∧
      Spec.Recent 100 (evs.map Ddpg.Ev.criticLoss) (evs.foldl Ddpg.step Ddpg.new).critic ∧ (evs.foldl Ddpg.step Ddpg.new).updates = evs.length from
    ⟨reports (h evs).1, reports (h evs).2.1, reports (h evs).2.2.1, (h evs).2.2.2⟩
  intro evs
  induction evs using List.reverseRecOn with
  | nil => exact ⟨recent_nil _, recent_nil _, recent_nil _, rfl⟩
  | append_singleton evs e ih =>
    obtain ⟨h1, h2, h3, h4⟩ := ih
    rw [List.foldl_append, List.flatMap_append, List.map_append, List.map_append]
    refine ⟨?_, push_recent _ h2, push_recent _ h3, ?_⟩
    · simpa [Ddpg.step] using extend_recent e.qs h1
    · simpa [Ddpg.step] using h4

/-- The number of an update and what it recorded. -/
def Spec.policyLosses (delay : Nat) : Nat → List Td3.Ev → List ℚ
  | _, [] => []
  | n, e :: l => if delay ∣ n + 1 then e.policyLoss :: Spec.policyLosses delay (n + 1) l else Spec.policyLosses delay (n + 1) l

theorem policyLosses_append (delay : Nat) : ∀ (n : Nat) (l l' : List Td3.Ev),
    Spec.policyLosses delay n (l ++ l') = Spec.policyLosses delay n l ++ Spec.policyLosses delay (n + l.length) l'
  | n, [], l' => rfl
  | n, e :: l, l' => by
    rw [List.cons_append, Spec.policyLosses, Spec.policyLosses, policyLosses_append, List.length_cons, show n + 1 + l.length = n + (l.length + 1) by omega]
    split <;> rfl

/-- **C121 (TD3).** The losses of the policy are those of each `delay`-th update. -/
theorem td3_statistics (delay : Nat) (evs : List Td3.Ev) :
    let r := (evs.foldl (Td3.step delay) Td3.new).stats
    Spec.Reports 1000 (evs.flatMap Td3.Ev.q1) r.1 ∧ Spec.Reports 1000 (evs.flatMap Td3.Ev.q2) r.2.1 ∧
    Spec.Reports 100 (evs.map Td3.Ev.loss1) r.2.2.1 ∧ Spec.Reports 100 (evs.map Td3.Ev.loss2) r.2.2.2.1 ∧
    Spec.Reports 100 (Spec.policyLosses delay 0 evs) r.2.2.2.2.1 ∧
    r.2.2.2.2.2.1 = (Spec.policyLosses delay 0 evs).length ∧ r.2.2.2.2.2.2 = evs.length := by
  suffices h : ∀ evs : List Td3.Ev, Spec.Recent 1000 (evs.flatMap Td3.Ev.q1) (evs.foldl (Td3.step delay) Td3.new).q1 ∧
      Spec.Recent 1000 (evs.flatMap Td3.Ev.q2) (evs.foldl (Td3.step delay) Td3.new).q2 ∧
      Spec.Recent 100 (evs.map Td3.Ev.loss1) (evs.foldl (Td3.step delay) Td3.new).loss1 ∧
      Spec.Recent 100 (evs.map Td3.Ev.loss2) (evs.foldl (Td3.step delay) Td3.new).loss2 ∧
      Spec.Recent 100 (Spec.policyLosses delay 0 evs) (evs.foldl (Td3.step delay) Td3.new).policyLoss ∧
      (evs.foldl (Td3.step delay) Td3.new).policyUpdates = (Spec.policyLosses delay 0 evs).length ∧
      (evs.foldl (Td3.step delay) Td3.new).qUpdates = evs.length from
    ⟨reports (h evs).1, reports (h evs).2.1, reports (h evs).2.2.1, reports (h evs).2.2.2.1, reports (h evs).2.2.2.2.1, (h evs).2.2.2.2.2⟩
  intro evs
  induction evs using List.reverseRecOn with
  | nil => exact ⟨recent_nil _, recent_nil _, recent_nil _, recent_nil _, recent_nil _, rfl, rfl⟩
  | append_singleton evs e ih =>
    obtain ⟨h1, h2, h3, h4, h5, h6, h7⟩ := ih
    rw [List.foldl_append, List.flatMap_append, List.flatMap_append, List.map_append, List.map_append, policyLosses_append]
    simp only [List.foldl_cons, List.foldl_nil, Spec.policyLosses, Nat.zero_add]
    generalize evs.foldl (Td3.step delay) Td3.new = s at *
    unfold Td3.step
    simp only [show (s.updateQ e).qUpdates = evs.length + 1 from congrArg (· + 1) h7, ← Nat.dvd_iff_mod_eq_zero]
    have g1 : Spec.Recent 1000 (evs.flatMap Td3.Ev.q1 ++ [e].flatMap Td3.Ev.q1) (extend 1000 s.q1 e.q1) := by simpa using extend_recent e.q1 h1
    have g2 : Spec.Recent 1000 (evs.flatMap Td3.Ev.q2 ++ [e].flatMap Td3.Ev.q2) (extend 1000 s.q2 e.q2) := by simpa using extend_recent e.q2 h2
    split
    · exact ⟨g1, g2, push_recent _ h3, push_recent _ h4, push_recent _ h5, by simp [Td3.updatePolicy, Td3.updateQ, h6], by simp [Td3.updatePolicy, Td3.updateQ, h7]⟩
    · exact ⟨g1, g2, push_recent _ h3, push_recent _ h4, by simpa [Td3.updateQ] using h5, by simp [Td3.updateQ, h6], by simp [Td3.updateQ, h7]⟩

/-- **C121 (SAC).** `average_entropy` is the mean of the entropies, or of the negative log-probabilities where there are none. -/
theorem sac_statistics (evs : List Sac.Ev) :
    let r := (evs.foldl Sac.step Sac.new).stats
    Spec.Reports 1000 (evs.flatMap Sac.Ev.q1) r.1 ∧ Spec.Reports 1000 (evs.flatMap Sac.Ev.q2) r.2.1 ∧
    Spec.Reports 100 (evs.map Sac.Ev.loss1) r.2.2.1 ∧ Spec.Reports 100 (evs.map Sac.Ev.loss2) r.2.2.2.1 ∧
    r.2.2.2.2.1 = evs.length ∧ Spec.Reports 1000 (evs.flatMap fun e => e.entropies.getD (e.logProbs.map (- ·))) r.2.2.2.2.2 := by
  suffices h : ∀ evs : List Sac.Ev, Spec.Recent 1000 (evs.flatMap Sac.Ev.q1) (evs.foldl Sac.step Sac.new).q1 ∧
      Spec.Recent 1000 (evs.flatMap Sac.Ev.q2) (evs.foldl Sac.step Sac.new).q2 ∧
      Spec.Recent 100 (evs.map Sac.Ev.loss1) (evs.foldl Sac.step Sac.new).loss1 ∧
      Spec.Recent 100 (evs.map Sac.Ev.loss2) (evs.foldl Sac.step Sac.new).loss2 ∧
      (evs.foldl Sac.step Sac.new).updates = evs.length ∧
      Spec.Recent 1000 (evs.flatMap fun e => e.entropies.getD (e.logProbs.map (- ·))) (evs.foldl Sac.step Sac.new).entropy from
    ⟨reports (h evs).1, reports (h evs).2.1, reports (h evs).2.2.1, reports (h evs).2.2.2.1, (h evs).2.2.2.2.1, reports (h evs).2.2.2.2.2⟩
  intro evs
  induction evs using List.reverseRecOn with
  | nil => exact ⟨recent_nil _, recent_nil _, recent_nil _, recent_nil _, rfl, recent_nil _⟩
  | append_singleton evs e ih =>
    obtain ⟨h1, h2, h3, h4, h5, h6⟩ := ih
    rw [List.foldl_append, List.flatMap_append, List.flatMap_append, List.map_append, List.map_append, List.flatMap_append]
    refine ⟨?_, ?_, push_recent _ h3, push_recent _ h4, by simpa [Sac.step] using h5, ?_⟩
    · simpa [Sac.step] using extend_recent e.q1 h1
    · simpa [Sac.step] using extend_recent e.q2 h2
    · have := extend_recent (e.entropies.getD (e.logProbs.map (- ·))) h6
      cases he : e.entropies with
      | none => rw [he] at this; simpa [Sac.step, he] using this
      | some xs => rw [he] at this; simpa [Sac.step, he] using this

theorem minibatches (w : Windows) : ∀ (ls : List (ℚ × ℚ)) (s : OnPolicy) {xs ys : List ℚ}, Spec.Recent w.third xs s.third → Spec.Recent w.fourth ys s.fourth →
    Spec.Recent w.third (xs ++ ls.map Prod.fst) (ls.foldl (ppoMinibatch w) s).third ∧
    Spec.Recent w.fourth (ys ++ ls.map Prod.snd) (ls.foldl (ppoMinibatch w) s).fourth ∧
    (ls.foldl (ppoMinibatch w) s).updates = s.updates + ls.length ∧ (ls.foldl (ppoMinibatch w) s).value = s.value ∧
    (ls.foldl (ppoMinibatch w) s).entropy = s.entropy
  | [], s, xs, ys, h, h' => ⟨by simpa using h, by simpa using h', rfl, rfl, rfl⟩
  | l :: ls, s, xs, ys, h, h' => by
    have := minibatches w ls (ppoMinibatch w s l) (push_recent l.1 h) (push_recent l.2 h')
    rw [List.append_assoc, List.append_assoc] at this
    obtain ⟨a, b, c, d, e⟩ := this
    refine ⟨a, b, ?_, d, e⟩
    rw [List.foldl_cons, c, List.length_cons]
    show s.updates + 1 + ls.length = _
    omega

/-- **C121 (PPO).** Only what the policy does in training counts; `explained_variance` is that of the last data set. -/
theorem ppo_statistics (w : Windows) (evs : List Ppo.Ev) :
    let r := Ppo.stats (evs.foldl (Ppo.step w) OnPolicy.new)
    Spec.Reports w.value (evs.flatMap fun e => match e with | .act true _ vs => vs | _ => []) r.1 ∧
    Spec.Reports w.entropy (evs.flatMap fun e => match e with | .act true es _ => es | _ => []) r.2.1 ∧
    Spec.Reports w.third (evs.flatMap fun e => match e with | .update ls _ => ls.map Prod.fst | _ => []) r.2.2.1 ∧
    Spec.Reports w.fourth (evs.flatMap fun e => match e with | .update ls _ => ls.map Prod.snd | _ => []) r.2.2.2.1 ∧
    r.2.2.2.2.1 = (evs.flatMap fun e => match e with | .update ls _ => ls | _ => []).length ∧
    r.2.2.2.2.2 = ((evs.filterMap fun e => match e with | .update _ trs => some trs | _ => none).getLast?).bind explainedVariance := by
  suffices h : ∀ evs : List Ppo.Ev,
      Spec.Recent w.value (evs.flatMap fun e => match e with | .act true _ vs => vs | _ => []) (evs.foldl (Ppo.step w) OnPolicy.new).value ∧
      Spec.Recent w.entropy (evs.flatMap fun e => match e with | .act true es _ => es | _ => []) (evs.foldl (Ppo.step w) OnPolicy.new).entropy ∧
      Spec.Recent w.third (evs.flatMap fun e => match e with | .update ls _ => ls.map Prod.fst | _ => []) (evs.foldl (Ppo.step w) OnPolicy.new).third ∧
      Spec.Recent w.fourth (evs.flatMap fun e => match e with | .update ls _ => ls.map Prod.snd | _ => []) (evs.foldl (Ppo.step w) OnPolicy.new).fourth ∧
      (evs.foldl (Ppo.step w) OnPolicy.new).updates = (evs.flatMap fun e => match e with | .update ls _ => ls | _ => []).length ∧
      (evs.foldl (Ppo.step w) OnPolicy.new).explained =
        ((evs.filterMap fun e => match e with | .update _ trs => some trs | _ => none).getLast?).bind explainedVariance from
    ⟨reports (h evs).1, reports (h evs).2.1, reports (h evs).2.2.1, reports (h evs).2.2.2.1, (h evs).2.2.2.2.1, (h evs).2.2.2.2.2⟩
  intro evs
  induction evs using List.reverseRecOn with
  | nil => exact ⟨recent_nil _, recent_nil _, recent_nil _, recent_nil _, rfl, rfl⟩
  | append_singleton evs e ih =>
    obtain ⟨h1, h2, h3, h4, h5, h6⟩ := ih
    simp only [List.foldl_append, List.flatMap_append, List.filterMap_append, List.foldl_cons, List.foldl_nil]
    generalize evs.foldl (Ppo.step w) OnPolicy.new = s at *
    cases e with
    | act t es vs =>
      cases t with
      | false => exact ⟨by simpa [Ppo.step, OnPolicy.act] using h1, by simpa [Ppo.step, OnPolicy.act] using h2, by simpa [Ppo.step, OnPolicy.act] using h3, by simpa [Ppo.step, OnPolicy.act] using h4, by simpa [Ppo.step, OnPolicy.act] using h5, by simpa [Ppo.step, OnPolicy.act] using h6⟩
      | true =>
        refine ⟨?_, ?_, by simpa [Ppo.step, OnPolicy.act] using h3, by simpa [Ppo.step, OnPolicy.act] using h4, by simpa [Ppo.step, OnPolicy.act] using h5, by simpa [Ppo.step, OnPolicy.act] using h6⟩
        · simpa [Ppo.step, OnPolicy.act] using extend_recent vs h1
        · simpa [Ppo.step, OnPolicy.act] using extend_recent es h2
    | update ls trs =>
      obtain ⟨a, b, c, d, e⟩ := minibatches w ls s h3 h4
      refine ⟨by simpa [Ppo.step, d] using h1, by simpa [Ppo.step, e] using h2, by simpa [Ppo.step] using a, by simpa [Ppo.step] using b, ?_, ?_⟩
      · simpa [Ppo.step, c] using h5
      · simp [Ppo.step]

theorem trpoSearch_records (w : Windows) (maxKl : ℚ) (s : OnPolicy) : ∀ (i : Nat) (l : List (Option (ℚ × ℚ))),
    trpoSearch w maxKl s ((1 / 2) ^ i) l = match Spec.accepted maxKl i l with
      | some (j, kl) => { s with third := push w.third s.third kl, fourth := push w.fourth s.fourth ((1 / 2) ^ j) }
      | none => { s with fourth := push w.fourth s.fourth 0 }
  | _, [] => rfl
  | i, none :: l => by
    rw [trpoSearch, ← pow_succ, trpoSearch_records w maxKl s (i + 1) l]
    rfl
  | i, some (improve, kl) :: l => by
    rw [trpoSearch, ← pow_succ, trpoSearch_records w maxKl s (i + 1) l]
    by_cases h1 : improve < 0
    · rw [if_pos h1, Spec.accepted, if_neg (fun h => absurd h.1 (not_le.mpr h1))]
    · rw [if_neg h1]
      by_cases h2 : maxKl < kl
      · rw [if_pos h2, Spec.accepted, if_neg (fun h => absurd h.2 (not_le.mpr h2))]
      · rw [if_neg h2, Spec.accepted, if_pos ⟨not_lt.mp h1, not_lt.mp h2⟩]

/-- **C121 (TRPO).** Each update records one step size, 0 if it failed; divergences are recorded for the updates that succeeded. -/
theorem trpo_statistics (w : Windows) (maxKl : ℚ) (evs : List Trpo.Ev) :
    let r := Trpo.stats (evs.foldl (Trpo.step w maxKl) OnPolicy.new)
    Spec.Reports w.value (evs.flatMap fun e => match e with | .act true _ vs => vs | _ => []) r.1 ∧
    Spec.Reports w.entropy (evs.flatMap fun e => match e with | .act true es _ => es | _ => []) r.2.1 ∧
    Spec.Reports w.third (evs.flatMap fun e => match e with | .update c _ => ((Spec.accepted maxKl 0 c).map Prod.snd).toList | _ => []) r.2.2.1 ∧
    Spec.Reports w.fourth (evs.flatMap fun e => match e with | .update c _ => [((Spec.accepted maxKl 0 c).map fun x => (1 / 2) ^ x.1).getD 0] | _ => []) r.2.2.2.1 ∧
    r.2.2.2.2 = ((evs.filterMap fun e => match e with | .update _ trs => some trs | _ => none).getLast?).bind explainedVariance := by
  suffices h : ∀ evs : List Trpo.Ev,
      Spec.Recent w.value (evs.flatMap fun e => match e with | .act true _ vs => vs | _ => []) (evs.foldl (Trpo.step w maxKl) OnPolicy.new).value ∧
      Spec.Recent w.entropy (evs.flatMap fun e => match e with | .act true es _ => es | _ => []) (evs.foldl (Trpo.step w maxKl) OnPolicy.new).entropy ∧
      Spec.Recent w.third (evs.flatMap fun e => match e with | .update c _ => ((Spec.accepted maxKl 0 c).map Prod.snd).toList | _ => [])
        (evs.foldl (Trpo.step w maxKl) OnPolicy.new).third ∧
      Spec.Recent w.fourth (evs.flatMap fun e => match e with | .update c _ => [((Spec.accepted maxKl 0 c).map fun x => (1 / 2) ^ x.1).getD 0] | _ => [])
        (evs.foldl (Trpo.step w maxKl) OnPolicy.new).fourth ∧
      (evs.foldl (Trpo.step w maxKl) OnPolicy.new).explained =
        ((evs.filterMap fun e => match e with | .update _ trs => some trs | _ => none).getLast?).bind explainedVariance from
    ⟨reports (h evs).1, reports (h evs).2.1, reports (h evs).2.2.1, reports (h evs).2.2.2.1, (h evs).2.2.2.2⟩
  intro evs
  induction evs using List.reverseRecOn with
  | nil => exact ⟨recent_nil _, recent_nil _, recent_nil _, recent_nil _, rfl⟩
  | append_singleton evs e ih =>
    obtain ⟨h1, h2, h3, h4, h6⟩ := ih
    simp only [List.foldl_append, List.flatMap_append, List.filterMap_append, List.foldl_cons, List.foldl_nil]
    generalize evs.foldl (Trpo.step w maxKl) OnPolicy.new = s at *
    cases e with
    | act t es vs =>
      cases t with
      | false => exact ⟨by simpa [Trpo.step, OnPolicy.act] using h1, by simpa [Trpo.step, OnPolicy.act] using h2, by simpa [Trpo.step, OnPolicy.act] using h3, by simpa [Trpo.step, OnPolicy.act] using h4, by simpa [Trpo.step, OnPolicy.act] using h6⟩
      | true =>
        refine ⟨?_, ?_, by simpa [Trpo.step, OnPolicy.act] using h3, by simpa [Trpo.step, OnPolicy.act] using h4, by simpa [Trpo.step, OnPolicy.act] using h6⟩
        · simpa [Trpo.step, OnPolicy.act] using extend_recent vs h1
        · simpa [Trpo.step, OnPolicy.act] using extend_recent es h2
    | update c trs =>
      have := trpoSearch_records w maxKl s 0 c
      rw [pow_zero] at this
      simp only [Trpo.step, this]
      cases hx : Spec.accepted maxKl 0 c with
      | none => exact ⟨by simpa using h1, by simpa using h2, by simpa [hx] using h3, by simpa [hx] using push_recent 0 h4, by simp⟩
      | some x => exact ⟨by simpa using h1, by simpa using h2, by simpa [hx] using push_recent x.2 h3, by simpa [hx] using push_recent ((1 / 2) ^ x.1) h4, by simp⟩

theorem accepted_le {maxKl : ℚ} : ∀ {i : Nat} {l : List (Option (ℚ × ℚ))} {x : Nat × ℚ}, Spec.accepted maxKl i l = some x → x.2 ≤ maxKl
  | i, [], x, h => absurd h (by simp [Spec.accepted])
  | i, none :: l, x, h => accepted_le (i := i + 1) (l := l) h
  | i, some (improve, kl) :: l, x, h => by
    rw [Spec.accepted] at h
    split at h
    · next hc =>
      rw [← Option.some.inj h]
      exact hc.2
    · exact accepted_le (i := i + 1) (l := l) h

/-- **C121 (TRPO keeps its bound).** The reported `average_kl` never exceeds `max_kl`, and the reported step size is between 0 and 1. -/
theorem trpo_reported_kl (w : Windows) (maxKl : ℚ) (evs : List Trpo.Ev) :
    let r := Trpo.stats (evs.foldl (Trpo.step w maxKl) OnPolicy.new)
    (∀ k, r.2.2.1 = some k → k ≤ maxKl) ∧ ∀ a, r.2.2.2.1 = some a → 0 ≤ a ∧ a ≤ 1 := by
  obtain ⟨-, -, h3, h4, -⟩ := trpo_statistics w maxKl evs
  refine ⟨fun k hk => ?_, fun a ha => ?_⟩
  · rw [hk] at h3
    obtain ⟨ys, ⟨hl, old, ho⟩, h | ⟨hne, r', h1, h2⟩⟩ := h3
    · exact absurd h.2 (by simp)
    · cases h1
      have hm : ∀ y ∈ ys, y ≤ maxKl := by
        intro y hy
        have : y ∈ old ++ ys := List.mem_append_right _ hy
        rw [← ho, List.mem_flatMap] at this
        obtain ⟨e, -, he⟩ := this
        cases e with
        | act t es vs => exact absurd he (by simp)
        | update c trs =>
          simp only [Option.mem_toList, Option.map_eq_some_iff] at he
          obtain ⟨x, hx, rfl⟩ := he
          exact accepted_le hx
      have hs : ∀ zs : List ℚ, (∀ y ∈ zs, y ≤ maxKl) → zs.sum ≤ maxKl * zs.length := by
        intro zs
        induction zs with
        | nil => intro _; simp
        | cons z zs ih =>
          intro h
          have a1 := ih fun y hy => h y (List.mem_cons_of_mem _ hy)
          have a2 := h z List.mem_cons_self
          rw [List.sum_cons, List.length_cons]
          push_cast
          linarith
      have hp : (0 : ℚ) < ys.length := by
        have := List.length_pos_of_ne_nil hne
        exact_mod_cast this
      have := hs ys hm
      rw [← h2] at this
      exact le_of_mul_le_mul_right this hp
  · rw [ha] at h4
    refine reports_bounds h4 fun x hx => ?_
    rw [List.mem_flatMap] at hx
    obtain ⟨e, -, he⟩ := hx
    cases e with
    | act t es vs => exact absurd he (by simp)
    | update c trs =>
      simp only [List.mem_singleton] at he
      subst he
      cases Spec.accepted maxKl 0 c with
      | none => simp
      | some x =>
        simp only [Option.map_some, Option.getD_some]
        exact ⟨by positivity, pow_le_one₀ (by norm_num) (by norm_num)⟩

/-! ### Explained variance -/

theorem var_nonneg (xs : List ℚ) : 0 ≤ var xs := by
  unfold var mean
  apply div_nonneg
  · apply List.sum_nonneg
    intro x hx
    obtain ⟨y, -, rfl⟩ := List.mem_map.mp hx
    positivity
  · positivity

theorem sum_sq_zero {c : ℚ} : ∀ (xs : List ℚ), (xs.map fun x => (x - c) ^ 2).sum = 0 → ∀ x ∈ xs, x = c
  | [], _, x, h => by simp at h
  | y :: xs, hs, x, h => by
    rw [List.map_cons, List.sum_cons] at hs
    have h1 : 0 ≤ (xs.map fun x => (x - c) ^ 2).sum := by
      apply List.sum_nonneg
      intro z hz
      obtain ⟨u, -, rfl⟩ := List.mem_map.mp hz
      positivity
    have h2 : 0 ≤ (y - c) ^ 2 := by positivity
    have h3 : (y - c) ^ 2 = 0 := by linarith
    have h4 : (xs.map fun x => (x - c) ^ 2).sum = 0 := by linarith
    rcases List.mem_cons.mp h with rfl | h
    · have := pow_eq_zero_iff (two_ne_zero) |>.mp h3
      linarith
    · exact sum_sq_zero xs h4 x h

theorem mean_const {c : ℚ} (xs : List ℚ) (hne : xs ≠ []) (h : ∀ x ∈ xs, x = c) : mean xs = c := by
  have hp : (0 : ℚ) < xs.length := by
    have := List.length_pos_of_ne_nil hne
    exact_mod_cast this
  have := sum_bounds (a := c) (b := c) xs fun x hx => ⟨(h x hx).ge, (h x hx).le⟩
  unfold mean
  rw [div_eq_iff hp.ne']
  linarith [this.1, this.2]

theorem var_eq_zero (xs : List ℚ) : var xs = 0 ↔ ∀ x ∈ xs, ∀ y ∈ xs, x = y := by
  cases xs with
  | nil => simp [var, mean]
  | cons a xs =>
    have hp : (((a :: xs).length : Nat) : ℚ) ≠ 0 := by
      rw [List.length_cons]
      positivity
    constructor
    · intro h x hx y hy
      unfold var at h
      rw [mean, List.length_map, div_eq_zero_iff] at h
      have h := h.resolve_right hp
      rw [sum_sq_zero _ h x hx, sum_sq_zero _ h y hy]
    · intro h
      have hc := mean_const (c := a) (a :: xs) (by simp) fun x hx => h x hx a List.mem_cons_self
      unfold var
      rw [hc]
      apply mean_const
      · simp
      · intro z hz
        obtain ⟨u, hu, rfl⟩ := List.mem_map.mp hz
        rw [h u hu a List.mem_cons_self]
        ring

/-- **C121 (explained variance).** It is `nan` exactly if all value targets are equal; else it is at most 1, and 1 exactly if the errors of the predictions are all equal; and
it is 0 if the predictions are all equal. -/
theorem explained_variance (trs : List (ℚ × ℚ)) :
    (explainedVariance trs = none ↔ ∀ x ∈ trs, ∀ y ∈ trs, x.1 = y.1) ∧
    (∀ r, explainedVariance trs = some r → r ≤ 1 ∧ (r = 1 ↔ ∀ x ∈ trs, ∀ y ∈ trs, x.1 - x.2 = y.1 - y.2) ∧
      ((∀ x ∈ trs, ∀ y ∈ trs, x.2 = y.2) → r = 0)) := by
  have hv : var (trs.map Prod.fst) = 0 ↔ ∀ x ∈ trs, ∀ y ∈ trs, x.1 = y.1 := by
    rw [var_eq_zero]
    simp only [List.forall_mem_map]
  have he : var (trs.map fun x => x.1 - x.2) = 0 ↔ ∀ x ∈ trs, ∀ y ∈ trs, x.1 - x.2 = y.1 - y.2 := by
    rw [var_eq_zero]
    simp only [List.forall_mem_map]
  unfold explainedVariance
  refine ⟨?_, fun r hr => ?_⟩
  · rw [← hv]
    split
    · next h => simp [h]
    · next h => simp [h]
  · split at hr
    · exact absurd hr (by simp)
    · next h =>
      have hpos : 0 < var (trs.map Prod.fst) := lt_of_le_of_ne (var_nonneg _) (Ne.symm h)
      rw [← Option.some.inj hr]
      refine ⟨?_, ?_, fun hc => ?_⟩
      · have := div_nonneg (var_nonneg (trs.map fun x => x.1 - x.2)) hpos.le
        linarith
      · rw [← he]
        constructor
        · intro h1
          have h2 : var (trs.map fun x => x.1 - x.2) / var (trs.map Prod.fst) = 0 := by linarith
          exact (div_eq_zero_iff.mp h2).resolve_right h
        · intro h1
          rw [h1, zero_div, sub_zero]
      · have hs : var (trs.map fun x => x.1 - x.2) = var (trs.map Prod.fst) := by
          cases trs with
          | nil => rfl
          | cons t trs =>
            have e1 : ((t :: trs).map fun x => x.1 - x.2) = ((t :: trs).map Prod.fst).map fun y => y - t.2 := by
              rw [List.map_map]
              apply List.map_congr_left
              intro x hx
              simp only [Function.comp]
              rw [hc x hx t List.mem_cons_self]
            have e2 : ∀ (xs : List ℚ) (c : ℚ), xs ≠ [] → mean (xs.map fun y => y - c) = mean xs - c := by
              intro xs c hne
              have hp : (xs.length : ℚ) ≠ 0 := by
                have := List.length_pos_of_ne_nil hne
                positivity
              have e3 : ∀ ys : List ℚ, (ys.map fun y => y - c).sum = ys.sum - c * ys.length := by
                intro ys
                induction ys with
                | nil => simp
                | cons y ys ih =>
                  rw [List.map_cons, List.sum_cons, List.sum_cons, ih, List.length_cons]
                  push_cast
                  ring
              unfold mean
              rw [e3, List.length_map]
              field_simp
            rw [e1]
            unfold var
            rw [e2 _ _ (by simp), List.map_map]
            congr 1
            apply List.map_congr_left
            intro x _
            simp only [Function.comp]
            ring
        rw [hs, div_self h]
        ring

/-! ### Exponential averages -/

/-- **C121 (exponential averages).** What A3C, ACER and REINFORCE (and A2C) report is a sum of all values with weights that fall exponentially with their age. -/
theorem ema_fading (d a : ℚ) (xs : List ℚ) : xs.foldl (ema d) a = Spec.fading d a xs := by
  induction xs using List.reverseRecOn with
  | nil => simp [Spec.fading]
  | append_singleton xs x ih =>
    rw [List.foldl_append, ih]
    simp only [List.foldl_cons, List.foldl_nil, ema, Spec.fading, List.reverse_append, List.reverse_cons, List.reverse_nil, List.nil_append, List.singleton_append,
      List.zipIdx_cons, List.map_cons, List.sum_cons, List.length_append, List.length_cons, List.length_nil, pow_zero, one_mul]
    have : ∀ (ys : List ℚ) (i : Nat), ((ys.zipIdx (i + 1)).map fun y => d ^ y.2 * y.1).sum = d * ((ys.zipIdx i).map fun y => d ^ y.2 * y.1).sum := by
      intro ys
      induction ys with
      | nil => intro i; simp
      | cons y ys ih2 =>
        intro i
        rw [List.zipIdx_cons, List.zipIdx_cons, List.map_cons, List.map_cons, List.sum_cons, List.sum_cons, ih2 (i + 1)]
        ring
    rw [this xs.reverse 0]
    ring

/-- **C121 (A3C and ACER).** -/
theorem actor_critic_statistics (dValue dEntropy : ℚ) (evs : List (ℚ × ℚ)) :
    let r := evs.foldl (ActorCritic.step dValue dEntropy) ⟨0, 0, 0⟩
    r.value = Spec.fading dValue 0 (evs.map Prod.fst) ∧ r.entropy = Spec.fading dEntropy 0 (evs.map Prod.snd) := by
  have : ∀ (evs : List (ℚ × ℚ)) (s : Averages), (evs.foldl (ActorCritic.step dValue dEntropy) s).value = (evs.map Prod.fst).foldl (ema dValue) s.value ∧
      (evs.foldl (ActorCritic.step dValue dEntropy) s).entropy = (evs.map Prod.snd).foldl (ema dEntropy) s.entropy := by
    intro evs
    induction evs with
    | nil => intro s; exact ⟨rfl, rfl⟩
    | cons e evs ih => intro s; exact ih _
  rw [← ema_fading, ← ema_fading]
  exact this evs _

/-- **C121 (A2C).** `average_actor` and `average_entropy` are as named; `average_value` follows the loss of the value function (`a2c_average_value_wrong`). -/
theorem a2c_statistics (dActor dValue dEntropy : ℚ) (evs : List A2c.Ev) :
    let r := A2c.stats (evs.foldl (A2c.step dActor dValue dEntropy) ⟨0, 0, 0⟩)
    r.1 = Spec.fading dActor 0 (evs.map A2c.Ev.actionLoss) ∧ r.2.1 = Spec.fading dValue 0 (evs.map A2c.Ev.valueLoss) ∧
    r.2.2 = Spec.fading dEntropy 0 (evs.map A2c.Ev.entropy) := by
  have : ∀ (evs : List A2c.Ev) (s : Averages), (evs.foldl (A2c.step dActor dValue dEntropy) s).actor = (evs.map A2c.Ev.actionLoss).foldl (ema dActor) s.actor ∧
      (evs.foldl (A2c.step dActor dValue dEntropy) s).value = (evs.map A2c.Ev.valueLoss).foldl (ema dValue) s.value ∧
      (evs.foldl (A2c.step dActor dValue dEntropy) s).entropy = (evs.map A2c.Ev.entropy).foldl (ema dEntropy) s.entropy := by
    intro evs
    induction evs with
    | nil => intro s; exact ⟨rfl, rfl, rfl⟩
    | cons e evs ih => intro s; exact ih _
  rw [← ema_fading, ← ema_fading, ← ema_fading]
  exact this evs _

theorem ema_const (d c : ℚ) : ∀ (n : Nat) (a : ℚ), (List.replicate n c).foldl (ema d) a = c + d ^ n * (a - c)
  | 0, a => by simp
  | n + 1, a => by
    rw [List.replicate_succ, List.foldl_cons, ema_const d c n, ema]
    ring

/-- **C121 (exponential averages start at 0).** The claim that reported averages lie between the smallest and the largest value is false for them: if all values
are the same `c > 0`, the report is below `c`, by the factor `1 - decay ^ n` after `n` values: with the default decay, by a factor of less than 0.01 after ten steps. -/
theorem ema_underestimates {d c : ℚ} (hd : 0 < d) (hc : 0 < c) (n : Nat) :
    (List.replicate n c).foldl (ema d) 0 = (1 - d ^ n) * c ∧ (List.replicate n c).foldl (ema d) 0 < c ∧
    (List.replicate 10 c).foldl (ema (999 / 1000)) 0 < c / 100 := by
  rw [ema_const, ema_const]
  have : 0 < d ^ n * c := by positivity
  refine ⟨by ring, by linarith, ?_⟩
  norm_num
  linarith

/-- **C121 (A2C's `average_value`).** It is the average loss of the value function and not the average value: if all predicted values are 5 and so are the returns,
`average_value` is 0 after any number of updates. -/
theorem a2c_average_value_wrong (dActor dValue dEntropy : ℚ) (n : Nat) :
    (A2c.stats ((List.replicate n ⟨[(5, 5, 0), (5, 5, 0)], 1⟩).foldl (A2c.step dActor dValue dEntropy) ⟨0, 0, 0⟩)).2.1 = 0 := by
  have : ∀ (n : Nat) (s : Averages), s.value = 0 →
      ((List.replicate n ⟨[(5, 5, 0), (5, 5, 0)], 1⟩).foldl (A2c.step dActor dValue dEntropy) s).value = 0 := by
    intro n
    induction n with
    | zero => intro s h; exact h
    | succ n ih =>
      intro s h
      rw [List.replicate_succ, List.foldl_cons]
      apply ih
      simp [A2c.step, A2c.Ev.valueLoss, mean, ema, h]
  exact this n _ rfl

/-! ### Non-vacuity -/

/-- More losses than the window has room for. -/
example : (((List.range 250).map fun i => Dqn.Ev.update [1, ((i : Nat) : ℚ)] ((i : Nat) : ℚ)).foldl Dqn.step Dqn.new).stats = (some (251 / 4), some (399 / 2), 0, 250) := by decide +kernel

example : Ppo.stats ([.act true [1, 3] [4, 5], .act false [9] [9], .update [(1, 2), (3, 4)] [(1, 1), (2, 2), (4, 3)]].foldl (Ppo.step ⟨1, 10, 10, 10⟩) OnPolicy.new) =
    (some 5, some 2, some 2, some 3, 2, some (6 / 7)) := by decide +kernel

example : Trpo.stats ([.update [some (-1, 0), none, some (1, 3), some (1, 1)] [(1, 1), (2, 2)], .update [some (0, 3)] [(1, 1), (2, 2)]].foldl
    (Trpo.step ⟨5, 5, 5, 5⟩ 2) OnPolicy.new) = (none, none, some 1, some (1 / 16), some 1) := by decide +kernel

example : (([⟨[1], [2], 1, 1, 7⟩, ⟨[3], [4], 1, 1, 8⟩, ⟨[5], [6], 1, 1, 9⟩].foldl (Td3.step 2) Td3.new).stats) = (some 3, some 4, some 1, some 1, some 8, 1, 3) := by decide +kernel

example : (([⟨[1], [2], 1, 1, none, [-7]⟩, ⟨[3], [4], 1, 1, some [8], [0]⟩].foldl Sac.step Sac.new).stats) = (some 2, some 3, some 1, some 1, 2, some (15 / 2)) := by decide +kernel

example : Spec.fading (1 / 2) 0 [4, 8] = 5 := by decide +kernel

end Pfrl.Agents.Statistics
