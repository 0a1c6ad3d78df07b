import Verif.Value.Table

/-!
# DQN with a network that is linear in its parameters (C145)

The action values are linear in the parameters of the network, for instance a last layer on fixed features, or no hidden layer at all.  The optimiser is
`torch.optim.SGD` without momentum.  Experiences have one transition.  Numbers are exact.
-/

namespace Pfrl.Value.Linear

open Filter
open Pfrl.Returns.PG (Env Outcome Step)
open Pfrl.Value.Table (Minibatch Cfg Event targets loss)

variable {S : Type} {m p : ℕ}

/-! ## Model -/

/-- The action values: `nn.Linear` on features that depend on the state and the action, `pfrl/q_functions/state_q_functions.py:26-73` without
hidden layers.
A bias is a parameter whose feature is always 1. -/
def value (feat : S → Fin m → Fin p → ℝ) (θ : Fin p → ℝ) : S → Fin m → ℝ := fun s a => ∑ i, θ i * feat s a i

/-- The parameters of the model and of the target model. -/
structure Agent (p : ℕ) where
  θ : Fin p → ℝ
  target : Fin p → ℝ

/-- `zero_grad`, `backward` and `step`, `pfrl/agents/dqn.py:360-365`: every parameter moves against the derivative of the loss by it, without
`max_grad_norm`. -/
noncomputable def sgd (lr : ℝ) (L : (Fin p → ℝ) → ℝ) (θ : Fin p → ℝ) : Fin p → ℝ :=
  fun i => θ i - lr * deriv (fun v => L (Function.update θ i v)) (θ i)

/-- `update`, `pfrl/agents/dqn.py:316-365`, and `sync_target_network`, `:307-314`, as in `Table.Agent.step`. -/
noncomputable def Agent.step (feat : S → Fin m → Fin p → ℝ) (cfg : Cfg) (st : Agent p) : Event S m → Option (Agent p)
  | .update batch => (targets cfg.gamma (value feat st.target) batch).map fun ts =>
      { st with θ := sgd cfg.lr (fun θ => loss cfg batch ts (value feat θ)) st.θ }
  | .sync => some { st with target := fun i => (1 - cfg.tau) * st.target i + cfg.tau * st.θ i }

/-- The agent after the first `n` events. -/
noncomputable def Agent.run (feat : S → Fin m → Fin p → ℝ) (cfg : Cfg) (ev : ℕ → Event S m) (st : Agent p) : ℕ → Option (Agent p)
  | 0 => some st
  | n + 1 => (Agent.run feat cfg ev st n).bind fun st => st.step feat cfg (ev n)

/-! ## Specification -/

/-- Minibatches of 1 to `N` transitions with weights between 0 and 1. -/
def Spec.Batches (N : ℕ) (batch : ℕ → Minibatch S m) : Prop :=
  ∀ n, batch n ≠ [] ∧ (batch n).length ≤ N ∧ ∀ e ∈ batch n, 0 ≤ e.2 ∧ e.2 ≤ 1

/-- The squared length of the features is at most `B`, and the learning rate at most `1 / B`, or `1 / (N B)` if losses are added up. -/
def Spec.Rate (feat : S → Fin m → Fin p → ℝ) (cfg : Cfg) (N : ℕ) (B : ℝ) : Prop :=
  (∀ s a, ∑ i, feat s a i ^ 2 ≤ B) ∧ 0 < cfg.lr ∧ cfg.lr * (B * (if cfg.mean then 1 else (N : ℝ))) ≤ 1

/-- The squared distance of parameters. -/
def Spec.dist2 (θ θ' : Fin p → ℝ) : ℝ := ∑ i, (θ i - θ' i) ^ 2

/-- The target of a transition, with the largest values `V` of the target model. -/
noncomputable def Spec.goal (gamma : ℝ) (V : S → ℝ) (x : Step S (Fin m)) : ℝ := x.out.reward + gamma * if x.out.done then 0 else V x.out.next

/-- The loss of one experience: half the square of the error, or with clipping that up to 1 and a straight line beyond. -/
noncomputable def Spec.err (clipDelta : Bool) (d : ℝ) : ℝ := if clipDelta ∧ 1 < |d| then |d| - 1 / 2 else d ^ 2 / 2

/-- The loss of a minibatch: the sum of the weighted losses of its experiences, or that divided by their number. -/
noncomputable def Spec.total (cfg : Cfg) (q : S → Fin m → ℝ) (y : Step S (Fin m) → ℝ) (batch : Minibatch S m) : ℝ :=
  (batch.map fun e => e.2 * Spec.err cfg.clipDelta (q e.1.s e.1.a - y e.1)).sum / if cfg.mean then (batch.length : ℝ) else 1

/-! ## Lemmas -/

theorem err_le (d u : ℝ) : Spec.err true d ≤ u ^ 2 / 2 + |d - u| := by
  have hab : ∀ x : ℝ, |x| ^ 2 = x ^ 2 := sq_abs
  by_cases h : 1 < |d|
  · rw [Spec.err, if_pos ⟨rfl, h⟩]
    have := abs_sub_abs_le_abs_sub d u
    have := sq_nonneg (|u| - 1)
    have := hab u
    nlinarith
  · rw [Spec.err, if_neg (fun x => h x.2)]
    have h1 : d * (d - u) ≤ |d - u| := by
      refine (le_abs_self _).trans ?_
      rw [abs_mul]
      have := mul_le_mul_of_nonneg_right (not_lt.1 h) (abs_nonneg (d - u))
      linarith
    have := sq_nonneg (d - u)
    nlinarith

theorem err_slope (d : ℝ) : Spec.err true d = Table.slope true d ^ 2 / 2 + |d - Table.slope true d| ∧
    Spec.err true d = Table.slope true d * d - Table.slope true d ^ 2 / 2 ∧ |Table.slope true d| ≤ 1 := by
  by_cases h : 1 < |d|
  · rw [Spec.err, if_pos ⟨rfl, h⟩]
    rcases le_total 0 d with h' | h'
    · rw [abs_of_nonneg h'] at h
      have e : Table.slope true d = 1 := by rw [Table.slope, if_pos rfl, min_eq_left h.le, max_eq_right (by norm_num)]
      rw [e, abs_of_nonneg h', abs_of_nonneg (by linarith)]
      exact ⟨by ring, by ring, by norm_num⟩
    · rw [abs_of_nonpos h'] at h
      have e : Table.slope true d = -1 := by rw [Table.slope, if_pos rfl, min_eq_right (by linarith), max_eq_left (by linarith)]
      rw [e, abs_of_nonpos h', abs_of_nonpos (by linarith)]
      exact ⟨by ring, by ring, by norm_num⟩
  · rw [Spec.err, if_neg (fun x => h x.2)]
    have h' := abs_le.1 (not_lt.1 h)
    have e : Table.slope true d = d := by rw [Table.slope, if_pos rfl, min_eq_right h'.2, max_eq_right h'.1]
    rw [e, sub_self, abs_zero]
    exact ⟨by ring, by ring, not_lt.1 h⟩

/-- The loss lies above its tangents, and below the tangents plus half the square of the step. -/
theorem err_bounds (clipDelta : Bool) (d h : ℝ) :
    Spec.err clipDelta d + Table.slope clipDelta d * h ≤ Spec.err clipDelta (d + h) ∧
    Spec.err clipDelta (d + h) ≤ Spec.err clipDelta d + Table.slope clipDelta d * h + h ^ 2 / 2 := by
  cases clipDelta
  · simp only [Spec.err, Table.slope, Bool.false_eq_true, false_and, if_false]
    have := sq_nonneg h
    constructor <;> nlinarith
  · obtain ⟨e1, e2, e3⟩ := err_slope d
    obtain ⟨f1, f2, f3⟩ := err_slope (d + h)
    set s := Table.slope true d
    set s' := Table.slope true (d + h)
    constructor
    · rw [f1, e2]
      have h1 : s * (d + h - s') ≤ |d + h - s'| := by
        refine (le_abs_self _).trans ?_
        rw [abs_mul]
        have := mul_le_mul_of_nonneg_right e3 (abs_nonneg (d + h - s'))
        linarith
      have := sq_nonneg (s - s')
      nlinarith
    · have := err_le (d + h) (s + h)
      rw [show d + h - (s + h) = d - s by ring] at this
      rw [e1]
      nlinarith

theorem err_nonneg (clipDelta : Bool) (d : ℝ) : 0 ≤ Spec.err clipDelta d := by
  unfold Spec.err
  split
  · rename_i h
    linarith [h.2]
  · positivity

theorem dist2_nonneg (θ θ' : Fin p → ℝ) : 0 ≤ Spec.dist2 θ θ' := Finset.sum_nonneg fun _ _ => sq_nonneg _

theorem rowLoss_eq (clipDelta : Bool) (y t w : ℝ) : Loss.rowLoss clipDelta ⟨y, t, w⟩ = Spec.err clipDelta (y - t) := by
  cases clipDelta
  · simp [Loss.rowLoss, Spec.err]
  · simp only [Loss.rowLoss, Spec.err, if_true, true_and, smoothL1]
    rcases lt_trichotomy |y - t| 1 with h | h | h
    · rw [if_pos h, if_neg (not_lt.2 h.le)]
    · rw [if_neg (not_lt.2 h.ge), if_neg (not_lt.2 h.le), ← sq_abs, h]
      norm_num
    · rw [if_neg (not_lt.2 h.le), if_pos h]

theorem loss_eq (cfg : Cfg) (batch : Minibatch S m) (y : Step S (Fin m) → ℝ) (q : S → Fin m → ℝ) :
    loss cfg batch (batch.map fun e => y e.1) q = Spec.total cfg q y batch := by
  have hz : List.zipWith (fun (e : Step S (Fin m) × ℝ) t => (⟨q e.1.s e.1.a, t, e.2⟩ : Loss.Row ℝ ℝ)) batch
      (batch.map fun e => y e.1) = batch.map fun e => ⟨q e.1.s e.1.a, y e.1, e.2⟩ := by
    induction batch with
    | nil => rfl
    | cons e batch ih => rw [List.map_cons, List.zipWith_cons_cons, ih, List.map_cons]
  rw [loss, hz, Loss.weightedValueLoss_eq, List.map_map, List.length_map, Spec.total]
  congr 3
  funext e
  simp only [Function.comp, rowLoss_eq]
  ring

theorem value_update (feat : S → Fin m → Fin p → ℝ) (θ : Fin p → ℝ) (i : Fin p) (v : ℝ) (s : S) (a : Fin m) :
    value feat (Function.update θ i v) s a = value feat θ s a + (v - θ i) * feat s a i := by
  have h : ∀ j, Function.update θ i v j * feat s a j = θ j * feat s a j + if j = i then (v - θ i) * feat s a i else 0 := by
    intro j
    by_cases hj : j = i
    · subst hj
      rw [Function.update_self, if_pos rfl]
      ring
    · rw [Function.update_of_ne hj, if_neg hj, add_zero]
  simp only [value, h, Finset.sum_add_distrib, Finset.sum_ite_eq', Finset.mem_univ, if_true]

/-- The derivatives of the loss. -/
noncomputable def grad (feat : S → Fin m → Fin p → ℝ) (cfg : Cfg) (y : Step S (Fin m) → ℝ) (batch : Minibatch S m) (θ : Fin p → ℝ) (i : Fin p) : ℝ :=
  (batch.map fun e => e.2 * (Table.slope cfg.clipDelta (value feat θ e.1.s e.1.a - y e.1) * feat e.1.s e.1.a i)).sum /
    if cfg.mean then (batch.length : ℝ) else 1

theorem sgd_eq (feat : S → Fin m → Fin p → ℝ) (cfg : Cfg) (y : Step S (Fin m) → ℝ) (batch : Minibatch S m) (θ : Fin p → ℝ) :
    sgd cfg.lr (fun θ => loss cfg batch (batch.map fun e => y e.1) (value feat θ)) θ = fun i => θ i - cfg.lr * grad feat cfg y batch θ i := by
  funext i
  have hd : HasDerivAt (fun v => loss cfg batch (batch.map fun e => y e.1) (value feat (Function.update θ i v))) (grad feat cfg y batch θ i) (θ i) := by
    simp only [loss_eq, Spec.total]
    apply HasDerivAt.div_const
    refine Loss.sum_map_deriv (fun (e : Step S (Fin m) × ℝ) v =>
      e.2 * Spec.err cfg.clipDelta (value feat (Function.update θ i v) e.1.s e.1.a - y e.1)) _ _ _ fun e _ => ?_
    apply HasDerivAt.const_mul
    have h1 : HasDerivAt (fun v => value feat (Function.update θ i v) e.1.s e.1.a) (feat e.1.s e.1.a i) (θ i) := by
      simp only [value_update]
      have := (((hasDerivAt_id (θ i)).sub_const (θ i)).mul_const (feat e.1.s e.1.a i)).const_add (value feat θ e.1.s e.1.a)
      simpa using this
    have h2 := Loss.rowLoss_deriv cfg.clipDelta ⟨value feat (Function.update θ i (θ i)) e.1.s e.1.a, y e.1, e.2⟩
    simp only [rowLoss_eq] at h2
    have h3 := h2.comp (θ i) h1
    rw [Function.update_eq_self] at h3
    exact h3
  unfold sgd
  rw [hd.deriv]

theorem value_sub (feat : S → Fin m → Fin p → ℝ) (θ θ' : Fin p → ℝ) (s : S) (a : Fin m) :
    value feat θ s a - value feat θ' s a = ∑ i, (θ i - θ' i) * feat s a i := by
  simp only [value, ← Finset.sum_sub_distrib, sub_mul]

theorem value_sub_sq (feat : S → Fin m → Fin p → ℝ) {B : ℝ} (hB : ∀ s a, ∑ i, feat s a i ^ 2 ≤ B) (θ θ' : Fin p → ℝ) (s : S) (a : Fin m) :
    (value feat θ s a - value feat θ' s a) ^ 2 ≤ B * Spec.dist2 θ θ' := by
  rw [value_sub]
  refine (Finset.sum_mul_sq_le_sq_mul_sq _ _ _).trans ?_
  rw [mul_comm]
  exact mul_le_mul_of_nonneg_right (hB s a) (Finset.sum_nonneg fun i _ => sq_nonneg _)

/-- The sum over the experiences, for a step from `θ` to `θ'` compared with any `θs`. -/
theorem sum_bound (feat : S → Fin m → Fin p → ℝ) {B : ℝ} (hB : ∀ s a, ∑ i, feat s a i ^ 2 ≤ B) (clipDelta : Bool) (y : Step S (Fin m) → ℝ)
    (θ θ' θs : Fin p → ℝ) (batch : Minibatch S m) (hw : ∀ e ∈ batch, 0 ≤ e.2 ∧ e.2 ≤ 1) :
    (batch.map fun e => e.2 * Spec.err clipDelta (value feat θ' e.1.s e.1.a - y e.1)).sum ≤
      (batch.map fun e => e.2 * Spec.err clipDelta (value feat θs e.1.s e.1.a - y e.1)).sum +
      ∑ i, (batch.map fun e => e.2 * (Table.slope clipDelta (value feat θ e.1.s e.1.a - y e.1) * feat e.1.s e.1.a i)).sum * (θ' i - θs i) +
      batch.length * (B * Spec.dist2 θ' θ / 2) := by
  induction batch with
  | nil => simp
  | cons e batch ih =>
    have ih := ih fun x hx => hw x (by simp [hx])
    obtain ⟨w0, w1⟩ := hw e (by simp)
    simp only [List.map_cons, List.sum_cons, List.length_cons, Nat.cast_add, Nat.cast_one, add_mul, Finset.sum_add_distrib, one_mul]
    set s := Table.slope clipDelta (value feat θ e.1.s e.1.a - y e.1) with hs
    have b1 := (err_bounds clipDelta (value feat θ e.1.s e.1.a - y e.1) (value feat θs e.1.s e.1.a - value feat θ e.1.s e.1.a)).1
    have b2 := (err_bounds clipDelta (value feat θ e.1.s e.1.a - y e.1) (value feat θ' e.1.s e.1.a - value feat θ e.1.s e.1.a)).2
    rw [← hs, show value feat θ e.1.s e.1.a - y e.1 + (value feat θs e.1.s e.1.a - value feat θ e.1.s e.1.a) = value feat θs e.1.s e.1.a - y e.1 by
      ring] at b1
    rw [← hs, show value feat θ e.1.s e.1.a - y e.1 + (value feat θ' e.1.s e.1.a - value feat θ e.1.s e.1.a) = value feat θ' e.1.s e.1.a - y e.1 by
      ring] at b2
    have b3 := value_sub_sq feat hB θ' θ e.1.s e.1.a
    have e1 : ∑ i, e.2 * (s * feat e.1.s e.1.a i) * (θ' i - θs i) = e.2 * (s * (value feat θ' e.1.s e.1.a - value feat θs e.1.s e.1.a)) := by
      rw [value_sub, Finset.mul_sum, Finset.mul_sum]
      exact Finset.sum_congr rfl fun i _ => by ring
    rw [e1]
    have hd : 0 ≤ B * Spec.dist2 θ' θ / 2 := by
      have := (sq_nonneg _).trans b3
      linarith
    have b4 : e.2 * (B * Spec.dist2 θ' θ / 2) ≤ B * Spec.dist2 θ' θ / 2 := by
      have := mul_le_mul_of_nonneg_right w1 hd
      linarith
    have b5 : Spec.err clipDelta (value feat θ' e.1.s e.1.a - y e.1) ≤ Spec.err clipDelta (value feat θs e.1.s e.1.a - y e.1) +
        s * (value feat θ' e.1.s e.1.a - value feat θs e.1.s e.1.a) + B * Spec.dist2 θ' θ / 2 := by
      have : s * (value feat θ' e.1.s e.1.a - value feat θs e.1.s e.1.a) = s * (value feat θ' e.1.s e.1.a - value feat θ e.1.s e.1.a) -
        s * (value feat θs e.1.s e.1.a - value feat θ e.1.s e.1.a) := by ring
      linarith
    have b6 := mul_le_mul_of_nonneg_left b5 w0
    rw [mul_add, mul_add] at b6
    linarith

/-- One step, compared with any parameters. -/
theorem step_bound (feat : S → Fin m → Fin p → ℝ) {cfg : Cfg} {N : ℕ} {B : ℝ} (hr : Spec.Rate feat cfg N B) (y : Step S (Fin m) → ℝ)
    (θ θs : Fin p → ℝ) {batch : Minibatch S m} (hne : batch ≠ []) (hN : batch.length ≤ N) (hw : ∀ e ∈ batch, 0 ≤ e.2 ∧ e.2 ≤ 1) :
    Spec.total cfg (value feat fun i => θ i - cfg.lr * grad feat cfg y batch θ i) y batch ≤ Spec.total cfg (value feat θs) y batch +
      (Spec.dist2 θ θs - Spec.dist2 (fun i => θ i - cfg.lr * grad feat cfg y batch θ i) θs) / (2 * cfg.lr) := by
  obtain ⟨hB, hlr, hle⟩ := hr
  set θ' : Fin p → ℝ := fun i => θ i - cfg.lr * grad feat cfg y batch θ i with hθ'
  have hpos : 0 < (batch.length : ℝ) := by exact_mod_cast List.length_pos_iff.2 hne
  have hlen : (batch.length : ℝ) ≤ N := by exact_mod_cast hN
  set D : ℝ := if cfg.mean then (batch.length : ℝ) else 1 with hD
  have hDpos : 0 < D := by rw [hD]; split <;> [exact hpos; exact one_pos]
  have h := div_le_div_of_nonneg_right (sum_bound feat hB cfg.clipDelta y θ θ' θs batch hw) hDpos.le
  rw [add_div, add_div] at h
  have hdist : 0 ≤ Spec.dist2 θ' θ := Finset.sum_nonneg fun i _ => sq_nonneg _
  obtain ⟨e0, he0⟩ := List.exists_mem_of_ne_nil batch hne
  have hB0 : 0 ≤ B := (Finset.sum_nonneg fun i _ => sq_nonneg _).trans (hB e0.1.s e0.1.a)
  have h1 : (batch.length * (B * Spec.dist2 θ' θ / 2)) / D ≤ Spec.dist2 θ' θ / (2 * cfg.lr) := by
    have hk : cfg.lr * (B * (batch.length / D)) ≤ 1 := by
      refine le_trans ?_ hle
      refine mul_le_mul_of_nonneg_left (mul_le_mul_of_nonneg_left ?_ hB0) hlr.le
      rw [hD]
      split
      · rw [div_self hpos.ne']
      · rw [div_one]; exact hlen
    have := mul_le_mul_of_nonneg_right hk hdist
    rw [le_div_iff₀ (by linarith)]
    calc (batch.length * (B * Spec.dist2 θ' θ / 2)) / D * (2 * cfg.lr) = cfg.lr * (B * (batch.length / D)) * Spec.dist2 θ' θ := by ring
      _ ≤ Spec.dist2 θ' θ := by linarith
  have h2 : (∑ i, (batch.map fun e => e.2 * (Table.slope cfg.clipDelta (value feat θ e.1.s e.1.a - y e.1) * feat e.1.s e.1.a i)).sum *
      (θ' i - θs i)) / D + Spec.dist2 θ' θ / (2 * cfg.lr) = (Spec.dist2 θ θs - Spec.dist2 θ' θs) / (2 * cfg.lr) := by
    unfold Spec.dist2
    rw [← Finset.sum_sub_distrib, Finset.sum_div, Finset.sum_div, Finset.sum_div, ← Finset.sum_add_distrib]
    refine Finset.sum_congr rfl fun i _ => ?_
    have hi : θ' i = θ i - cfg.lr * ((batch.map fun e => e.2 * (Table.slope cfg.clipDelta (value feat θ e.1.s e.1.a - y e.1) * feat e.1.s e.1.a i)).sum / D) :=
      rfl
    rw [hi]
    field_simp
    ring
  change _ / D ≤ _ / D + _
  linarith

/-- The events of an agent that does not update its target model. -/
theorem step_eq [NeZero m] (feat : S → Fin m → Fin p → ℝ) (cfg : Cfg) (st : Agent p) {V : S → ℝ}
    (hV : Iteration.Spec.Max (value feat st.target) V) {batch : Minibatch S m} (hne : batch ≠ []) :
    st.step feat cfg (.update batch) = some ⟨fun i => st.θ i - cfg.lr * grad feat cfg (Spec.goal cfg.gamma V) batch st.θ i, st.target⟩ := by
  have h : targets cfg.gamma (value feat st.target) batch = some (batch.map fun e => Spec.goal cfg.gamma V e.1) := Table.targets_eq hV hne
  simp only [Agent.step, h, Option.map_some, sgd_eq]

theorem run_eq [NeZero m] (feat : S → Fin m → Fin p → ℝ) (cfg : Cfg) (st : Agent p) {V : S → ℝ}
    (hV : Iteration.Spec.Max (value feat st.target) V) {batch : ℕ → Minibatch S m} (hne : ∀ n, batch n ≠ []) :
    ∃ sts : ℕ → Agent p, (∀ n, st.run feat cfg (fun n => .update (batch n)) n = some (sts n)) ∧ sts 0 = st ∧ (∀ n, (sts n).target = st.target) ∧
      ∀ n, (sts (n + 1)).θ = fun i => (sts n).θ i - cfg.lr * grad feat cfg (Spec.goal cfg.gamma V) (batch n) (sts n).θ i := by
  let sts : ℕ → Agent p := fun n => Nat.rec st (fun n st' =>
    ⟨fun i => st'.θ i - cfg.lr * grad feat cfg (Spec.goal cfg.gamma V) (batch n) st'.θ i, st'.target⟩) n
  have ht : ∀ n, (sts n).target = st.target := fun n => by
    induction n with
    | zero => rfl
    | succ n ih => exact ih
  refine ⟨sts, fun n => ?_, rfl, ht, fun n => rfl⟩
  induction n with
  | zero => rfl
  | succ n ih =>
    rw [Agent.run, ih, Option.bind_some, step_eq feat cfg (sts n) (by rw [ht]; exact hV) (hne n)]

/-! ## C145 -/

/-- **C145 (best fit).** Training again and again on the same minibatch, without updates of the target model, never fails, never increases the loss, and after
`n` updates the loss is at most that of any other parameters `θ'`, plus the squared distance from the initial parameters to `θ'` divided by `2 lr n`. -/
theorem linear_fit [NeZero m] (feat : S → Fin m → Fin p → ℝ) {cfg : Cfg} {N : ℕ} {B : ℝ} (hr : Spec.Rate feat cfg N B) (st : Agent p) {V : S → ℝ}
    (hV : Iteration.Spec.Max (value feat st.target) V) {batch : Minibatch S m} (hb : Spec.Batches N fun _ => batch) :
    ∃ sts : ℕ → Agent p, (∀ n, st.run feat cfg (fun _ => .update batch) n = some (sts n)) ∧ (∀ n, (sts n).target = st.target) ∧
      (∀ n, Spec.total cfg (value feat (sts (n + 1)).θ) (Spec.goal cfg.gamma V) batch ≤ Spec.total cfg (value feat (sts n).θ) (Spec.goal cfg.gamma V) batch) ∧
      ∀ n θ', Spec.total cfg (value feat (sts (n + 1)).θ) (Spec.goal cfg.gamma V) batch ≤
        Spec.total cfg (value feat θ') (Spec.goal cfg.gamma V) batch + Spec.dist2 st.θ θ' / (2 * cfg.lr * (n + 1)) := by
  obtain ⟨sts, h1, h2, h3, h4⟩ := run_eq feat cfg st hV (fun n => (hb n).1)
  obtain ⟨hne, hN, hw⟩ := hb 0
  have hlr := hr.2.1
  have hstep : ∀ n θ', Spec.total cfg (value feat (sts (n + 1)).θ) (Spec.goal cfg.gamma V) batch ≤ Spec.total cfg (value feat θ') (Spec.goal cfg.gamma V) batch +
      (Spec.dist2 (sts n).θ θ' - Spec.dist2 (sts (n + 1)).θ θ') / (2 * cfg.lr) := fun n θ' => by
    rw [h4 n]
    exact step_bound feat hr _ _ θ' hne hN hw
  have hmono : ∀ n, Spec.total cfg (value feat (sts (n + 1)).θ) (Spec.goal cfg.gamma V) batch ≤
      Spec.total cfg (value feat (sts n).θ) (Spec.goal cfg.gamma V) batch := fun n => by
    have h := hstep n (sts n).θ
    have h0 : Spec.dist2 (sts n).θ (sts n).θ = 0 := by simp [Spec.dist2]
    have h5 : 0 ≤ Spec.dist2 (sts (n + 1)).θ (sts n).θ / (2 * cfg.lr) := div_nonneg (dist2_nonneg _ _) (by linarith)
    rw [h0, zero_sub, neg_div] at h
    linarith
  refine ⟨sts, h1, h3, hmono, fun n θ' => ?_⟩
  have hsum : ∀ n : ℕ, (n : ℝ) * Spec.total cfg (value feat (sts n).θ) (Spec.goal cfg.gamma V) batch ≤
      n * Spec.total cfg (value feat θ') (Spec.goal cfg.gamma V) batch + (Spec.dist2 st.θ θ' - Spec.dist2 (sts n).θ θ') / (2 * cfg.lr) := by
    intro n
    induction n with
    | zero => simp [h2]
    | succ n ih =>
      have := mul_le_mul_of_nonneg_left (hmono n) (Nat.cast_nonneg (α := ℝ) n)
      have := hstep n θ'
      rw [sub_div] at this ih ⊢
      push_cast
      linarith
  have h := hsum (n + 1)
  push_cast at h
  have hpos : (0 : ℝ) < n + 1 := by positivity
  have h5 : 0 ≤ Spec.dist2 (sts (n + 1)).θ θ' / (2 * cfg.lr) := div_nonneg (dist2_nonneg _ _) (by linarith)
  rw [sub_div] at h
  rw [← div_div, ← sub_le_iff_le_add', le_div_iff₀ hpos]
  linarith

/-- **C145 (exact fit).** If some parameters `θ'` fit all targets, then training on any minibatches, without updates of the target model, never increases the
distance to `θ'`, and the losses of the minibatches after their updates add up to at most the squared distance from the initial parameters to `θ'` divided by
`2 lr`: they tend to 0. -/
theorem linear_exact [NeZero m] (feat : S → Fin m → Fin p → ℝ) {cfg : Cfg} {N : ℕ} {B : ℝ} (hr : Spec.Rate feat cfg N B) (st : Agent p) {V : S → ℝ}
    (hV : Iteration.Spec.Max (value feat st.target) V) {batch : ℕ → Minibatch S m} (hb : Spec.Batches N batch) {θ' : Fin p → ℝ}
    (hfit : ∀ n, ∀ e ∈ batch n, value feat θ' e.1.s e.1.a = Spec.goal cfg.gamma V e.1) :
    ∃ sts : ℕ → Agent p, (∀ n, st.run feat cfg (fun n => .update (batch n)) n = some (sts n)) ∧
      (∀ n, Spec.dist2 (sts (n + 1)).θ θ' ≤ Spec.dist2 (sts n).θ θ') ∧
      (∀ n, ∑ k ∈ Finset.range n, Spec.total cfg (value feat (sts (k + 1)).θ) (Spec.goal cfg.gamma V) (batch k) ≤ Spec.dist2 st.θ θ' / (2 * cfg.lr)) ∧
      Tendsto (fun n => Spec.total cfg (value feat (sts (n + 1)).θ) (Spec.goal cfg.gamma V) (batch n)) atTop (nhds 0) := by
  obtain ⟨sts, h1, h2, h3, h4⟩ := run_eq feat cfg st hV (fun n => (hb n).1)
  have hlr := hr.2.1
  have hzero : ∀ n, Spec.total cfg (value feat θ') (Spec.goal cfg.gamma V) (batch n) = 0 := fun n => by
    have : ((batch n).map fun e => e.2 * Spec.err cfg.clipDelta (value feat θ' e.1.s e.1.a - Spec.goal cfg.gamma V e.1)) = (batch n).map fun _ => 0 := by
      refine List.map_congr_left fun e he => ?_
      rw [hfit n e he, sub_self, Spec.err]
      norm_num
    rw [Spec.total, this]
    simp
  have hpos : ∀ n q, 0 ≤ Spec.total cfg q (Spec.goal cfg.gamma V) (batch n) := fun n q => by
    refine div_nonneg (List.sum_nonneg fun x hx => ?_) ?_
    · obtain ⟨e, he, rfl⟩ := List.mem_map.1 hx
      exact mul_nonneg ((hb n).2.2 e he).1 (err_nonneg _ _)
    · split
      · exact Nat.cast_nonneg _
      · exact zero_le_one
  have hstep : ∀ n, Spec.total cfg (value feat (sts (n + 1)).θ) (Spec.goal cfg.gamma V) (batch n) ≤
      (Spec.dist2 (sts n).θ θ' - Spec.dist2 (sts (n + 1)).θ θ') / (2 * cfg.lr) := fun n => by
    have := step_bound feat hr (Spec.goal cfg.gamma V) (sts n).θ θ' (hb n).1 (hb n).2.1 (hb n).2.2
    rw [hzero, zero_add] at this
    rw [h4 n]
    exact this
  have hsum : ∀ n, ∑ k ∈ Finset.range n, Spec.total cfg (value feat (sts (k + 1)).θ) (Spec.goal cfg.gamma V) (batch k) ≤
      (Spec.dist2 st.θ θ' - Spec.dist2 (sts n).θ θ') / (2 * cfg.lr) := fun n => by
    induction n with
    | zero => simp [h2]
    | succ n ih =>
      have := hstep n
      rw [Finset.sum_range_succ]
      rw [sub_div] at this ih ⊢
      linarith
  have hle : ∀ n, ∑ k ∈ Finset.range n, Spec.total cfg (value feat (sts (k + 1)).θ) (Spec.goal cfg.gamma V) (batch k) ≤
      Spec.dist2 st.θ θ' / (2 * cfg.lr) := fun n => by
    have := hsum n
    have : 0 ≤ Spec.dist2 (sts n).θ θ' / (2 * cfg.lr) := div_nonneg (dist2_nonneg _ _) (by linarith)
    rw [sub_div] at *
    linarith
  refine ⟨sts, h1, fun n => ?_, hle, (summable_of_sum_range_le (fun n => hpos n _) hle).tendsto_atTop_zero⟩
  have := (hpos n _).trans (hstep n)
  rw [le_div_iff₀ (by linarith)] at this
  linarith

/-! ## Limits -/

/-- State `false` leads to state `true`, which ends the episode; there are no rewards. -/
def walk (s : Bool) : Step Bool (Fin 1) := ⟨s, 0, ⟨0, s, true, true⟩⟩

/-- Ten transitions from `false`, one from `true`, as when episodes of at most one step begin ten times more often in `false`. -/
def starts : Minibatch Bool 1 := List.replicate 10 (walk false, 1) ++ [(walk true, 1)]

/-- One parameter, with the feature 1 in `false` and 2 in `true`. -/
def one : Bool → Fin 1 → Fin 1 → ℝ := fun s _ _ => if s then 2 else 1

/-- Updates on the minibatch, and after each of them an update of the target model. -/
def both (i : ℕ) : Event Bool 1 := if i % 2 = 0 then .update starts else .sync

theorem both_step (lr x : ℝ) : (⟨fun _ => x, fun _ => x⟩ : Agent 1).step one ⟨9 / 10, lr, 1, false, true⟩ (.update starts) =
    some ⟨fun _ => (1 + 4 * lr / 11) * x, fun _ => x⟩ := by
  have hV : Iteration.Spec.Max (value one fun _ => x) fun s => x * if s then 2 else 1 := fun s => by
    refine ⟨⟨0, by simp [value, one]⟩, ?_⟩
    rintro _ ⟨a, rfl⟩
    simp [value, one]
  rw [step_eq one ⟨9 / 10, lr, 1, false, true⟩ ⟨fun _ => x, fun _ => x⟩ hV (by simp [starts])]
  congr 2
  funext i
  simp [grad, starts, walk, value, one, Table.slope, Spec.goal]
  ring

/-- With parameters shared by the states, and updates of the target model in between, the values may grow without bound however small the learning rate: in
a deterministic environment without rewards, with every transition in every minibatch, and although the parameter 0 gives the optimal values. -/
theorem linear_diverges {lr : ℝ} (hlr : 0 < lr) : Table.Spec.Fair 2 both ∧
    Table.Spec.Data (9 / 10) 11 1 0 (fun _ => 0) (value one fun _ => 0) both ∧
    (∀ n, (⟨fun _ => 1, fun _ => 1⟩ : Agent 1).run one ⟨9 / 10, lr, 1, false, true⟩ both (2 * n) =
      some ⟨fun _ => (1 + 4 * lr / 11) ^ n, fun _ => (1 + 4 * lr / 11) ^ n⟩) ∧
    Tendsto (fun n : ℕ => (1 + 4 * lr / 11) ^ n) atTop atTop := by
  have hev : ∀ n, both (2 * n) = .update starts ∧ both (2 * n + 1) = .sync := fun n =>
    ⟨by rw [both, if_pos (by omega)], by rw [both, if_neg (by omega)]⟩
  refine ⟨fun k => ⟨fun s a => ?_, ?_⟩, ?_, fun n => ?_, tendsto_pow_atTop_atTop_of_one_lt (by linarith)⟩
  · refine ⟨2 * ((k + 1) / 2), starts, by omega, by omega, (hev _).1, (walk s, 1), ?_, rfl, by rw [Subsingleton.elim a 0]; rfl⟩
    cases s <;> simp [starts]
  · exact ⟨2 * (k / 2) + 1, by omega, by omega, (hev _).2⟩
  · intro i batch h
    unfold both at h
    split at h
    · cases h
      refine ⟨by simp [starts], by simp [starts], fun e he => ?_⟩
      have : e = (walk false, 1) ∨ e = (walk true, 1) := by simpa [starts] using he
      rcases this with rfl | rfl <;> simp [walk, value]
    · cases h
  · induction n with
    | zero => simp [Agent.run]
    | succ n ih =>
      rw [show 2 * (n + 1) = 2 * n + 1 + 1 by ring]
      simp only [Agent.run, ih, Option.bind_some, hev]
      rw [both_step, Option.bind_some, Agent.step]
      simp only [sub_self, zero_mul, one_mul, zero_add, pow_succ]
      congr 2 <;> funext _ <;> ring

/-! ## Non-vacuity -/

/-- The same transitions and features, with learning rate 1/4, meet the hypotheses of `linear_fit`, and of `linear_exact` if the target model has the parameter 0:
then the parameter 0 fits. -/
example : Spec.Rate one ⟨9 / 10, 1 / 4, 1, false, true⟩ 11 4 ∧ Spec.Batches 11 (fun _ => starts) ∧
    Iteration.Spec.Max (value one fun _ => 0) (fun _ => 0) ∧ ∀ e ∈ starts, value one (fun _ => 0) e.1.s e.1.a = Spec.goal (9 / 10) (fun _ => 0) e.1 := by
  refine ⟨⟨fun s a => ?_, by norm_num, by norm_num⟩, fun _ => ⟨by simp [starts], by simp [starts], fun e he => ?_⟩, fun s => ⟨⟨0, by simp [value]⟩, by rintro _ ⟨a, rfl⟩; simp [value]⟩,
    fun e he => ?_⟩
  · cases s <;> norm_num [one]
  · have : e = (walk false, 1) ∨ e = (walk true, 1) := by simpa [starts] using he
    rcases this with rfl | rfl <;> simp
  · have : e = (walk false, 1) ∨ e = (walk true, 1) := by simpa [starts] using he
    rcases this with rfl | rfl <;> simp [walk, value, Spec.goal]

/-- Without updates of the target model, the loss tends to 0 from any parameter. -/
example (x : ℝ) : ∃ sts : ℕ → Agent 1, (∀ n, (⟨fun _ => x, fun _ => 0⟩ : Agent 1).run one ⟨9 / 10, 1 / 4, 1, false, true⟩ (fun _ => .update starts) n = some (sts n)) ∧
    Tendsto (fun n => Spec.total ⟨9 / 10, 1 / 4, 1, false, true⟩ (value one (sts (n + 1)).θ) (Spec.goal (9 / 10) fun _ => 0) starts) atTop (nhds 0) := by
  obtain ⟨sts, h1, _, _, h2⟩ := linear_exact one (cfg := ⟨9 / 10, 1 / 4, 1, false, true⟩) (N := 11) (B := 4)
    ⟨fun s a => by cases s <;> norm_num [one], by norm_num, by norm_num⟩ ⟨fun _ => x, fun _ => 0⟩ (V := fun _ => 0)
    (fun s => ⟨⟨0, by simp [value]⟩, by rintro _ ⟨a, rfl⟩; simp [value]⟩) (batch := fun _ => starts)
    (fun _ => ⟨by simp [starts], by simp [starts], fun e he => by
      have : e = (walk false, 1) ∨ e = (walk true, 1) := by simpa [starts] using he
      rcases this with rfl | rfl <;> simp⟩) (θ' := fun _ => 0)
    (fun _ e he => by
      have : e = (walk false, 1) ∨ e = (walk true, 1) := by simpa [starts] using he
      rcases this with rfl | rfl <;> simp [walk, value, Spec.goal])
  exact ⟨sts, h1, h2⟩

end Pfrl.Value.Linear
