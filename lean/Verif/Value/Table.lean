import Verif.Value.Iteration
import Verif.Value.Losses
import Mathlib.Probability.BorelCantelli
import Mathlib.Probability.Independence.InfinitePi
import Mathlib.Probability.Distributions.Uniform

/-!
# DQN with a table of action values (C143)

The network has one parameter per state and action, the optimiser is `torch.optim.SGD` without momentum, and minibatches, with or without weights, come
in any order.  Experiences have one transition.  Numbers are exact.
-/

namespace Pfrl.Value.Table

open Filter MeasureTheory ProbabilityTheory
open Pfrl.Batch (Trans Out batchExperiences)
open Pfrl.Returns.PG (Env Outcome Step)
open Pfrl.Value.Iteration (row trans)
open Pfrl.Value.Loss (weightedValueLoss)

variable {S : Type} {m : ℕ}

/-! ## Model -/

/-- A minibatch: transitions and their weights, `pfrl/agents/dqn.py:316-352`.  Without prioritized replay all weights are 1 (C85). -/
abbrev Minibatch (S : Type) (m : ℕ) : Type := List (Step S (Fin m) × ℝ)

/-- The arguments of the agent and of the optimiser. -/
structure Cfg where
  gamma : ℝ
  lr : ℝ
  tau : ℝ
  clipDelta : Bool
  mean : Bool

/-- The parameters of the model and of the target model. -/
structure Agent (S : Type) (m : ℕ) where
  q : S → Fin m → ℝ
  target : S → Fin m → ℝ

/-- The targets of a minibatch: `pfrl/agents/dqn.py:338-344`, then `:388-405`. -/
noncomputable def targets (gamma : ℝ) (target : S → Fin m → ℝ) (batch : Minibatch S m) : Option (List ℝ) :=
  match batchExperiences id gamma (batch.map fun e => [trans e.1]) with
  | .error _ => none
  | .ok out => dqnTargets (row target) out

/-- `_compute_loss`, `pfrl/agents/dqn.py:407-470`, as a function of the parameters; the targets are constants (`torch.no_grad`, line 424). -/
noncomputable def loss (cfg : Cfg) (batch : Minibatch S m) (ts : List ℝ) (q : S → Fin m → ℝ) : ℝ :=
  weightedValueLoss cfg.clipDelta cfg.mean (List.zipWith (fun e t => ⟨q e.1.s e.1.a, t, e.2⟩) batch ts)

/-- The parameters with another value for one of them. -/
def setEntry [DecidableEq S] (q : S → Fin m → ℝ) (s : S) (a : Fin m) (v : ℝ) : S → Fin m → ℝ := fun s' a' => if s' = s ∧ a' = a then v else q s' a'

/-- `zero_grad`, `backward` and `step`, `pfrl/agents/dqn.py:360-365`: every parameter moves against the derivative of the loss by it, without
`max_grad_norm`. -/
noncomputable def sgd [DecidableEq S] (lr : ℝ) (L : (S → Fin m → ℝ) → ℝ) (q : S → Fin m → ℝ) : S → Fin m → ℝ :=
  fun s a => q s a - lr * deriv (fun v => L (setEntry q s a v)) (q s a)

/-- What an agent does to its parameters. -/
inductive Event (S : Type) (m : ℕ) where
  | update (batch : Minibatch S m)
  | sync

/-- `update`, `pfrl/agents/dqn.py:316-365`, and `sync_target_network`, `:307-314`: a soft update with `tau`; copying is the update with `tau = 1`
(`pfrl/utils/copy_param.py:4-22, 37-43`). -/
noncomputable def Agent.step [DecidableEq S] (cfg : Cfg) (st : Agent S m) : Event S m → Option (Agent S m)
  | .update batch => (targets cfg.gamma st.target batch).map fun ts => { st with q := sgd cfg.lr (loss cfg batch ts) st.q }
  | .sync => some { st with target := fun s a => (1 - cfg.tau) * st.target s a + cfg.tau * st.q s a }

/-- The agent after the first `n` events. -/
noncomputable def Agent.run [DecidableEq S] (cfg : Cfg) (ev : ℕ → Event S m) (st : Agent S m) : ℕ → Option (Agent S m)
  | 0 => some st
  | n + 1 => (Agent.run cfg ev st n).bind fun st => st.step cfg (ev n)

/-- The events of an agent that trains on minibatches drawn from a buffer with the transitions `data`, and updates the target model after every `c`
updates: `pfrl/replay_buffer.py:329-357` and `pfrl/agents/dqn.py:509-549`.  Sampling gives indices, `pfrl/replay_buffers/replay_buffer.py:78-80`; `idx n`
are those of minibatch `n`.  Simplified: the buffer does not change any more. -/
def replay {L B : ℕ} (data : Fin L → Step S (Fin m)) (c : ℕ) (idx : ℕ → Fin B → Fin L) (i : ℕ) : Event S m :=
  if i % (c + 1) = c then .sync else .update ((List.ofFn (idx (i / (c + 1) * c + i % (c + 1)))).map fun j => (data j, 1))

/-! ## Specification -/

/-- Every minibatch has between 1 and `N` transitions, with weights between `w₀` and 1, and what is seen in each of them differs by at most `δ` from the
optimal value of its state and action. -/
def Spec.Data (gamma : ℝ) (N : ℕ) (w₀ δ : ℝ) (V : S → ℝ) (Q : S → Fin m → ℝ) (ev : ℕ → Event S m) : Prop :=
  ∀ i batch, ev i = .update batch → batch ≠ [] ∧ batch.length ≤ N ∧ ∀ e ∈ batch, w₀ ≤ e.2 ∧ e.2 ≤ 1 ∧
    |e.1.out.reward + gamma * (if e.1.out.done then 0 else V e.1.out.next) - Q e.1.s e.1.a| ≤ δ

/-- Every transition in the minibatches is one that the environment may make. -/
def Spec.From {O : Type} [Fintype O] (M : Env S (Fin m) O) (N : ℕ) (w₀ : ℝ) (ev : ℕ → Event S m) : Prop :=
  ∀ i batch, ev i = .update batch → batch ≠ [] ∧ batch.length ≤ N ∧ ∀ e ∈ batch, w₀ ≤ e.2 ∧ e.2 ≤ 1 ∧ ∃ o, M.prob e.1.s e.1.a o ≠ 0 ∧ e.1.out = M.out e.1.s e.1.a o

/-- In any `P` consecutive events, every action in every state is replayed and the target model is updated. -/
def Spec.Fair (P : ℕ) (ev : ℕ → Event S m) : Prop :=
  ∀ k, (∀ s a, ∃ i batch, k ≤ i ∧ i < k + P ∧ ev i = .update batch ∧ ∃ e ∈ batch, e.1.s = s ∧ e.1.a = a) ∧ ∃ i, k ≤ i ∧ i < k + P ∧ ev i = .sync

/-- Every action in every state is replayed again and again, and the target model is updated again and again. -/
def Spec.Again (ev : ℕ → Event S m) : Prop :=
  (∀ s a k, ∃ i ≥ k, ∃ batch, ev i = .update batch ∧ ∃ e ∈ batch, e.1.s = s ∧ e.1.a = a) ∧ ∀ k, ∃ i ≥ k, ev i = .sync

/-- Minibatches that are drawn independently, each index with probability at least `p`. -/
structure Spec.Sampled {Ω : Type} [MeasurableSpace Ω] {L B : ℕ} (μ : Measure Ω) (p : ENNReal) (idx : ℕ → Ω → Fin B → Fin L) : Prop where
  measurable : ∀ n, Measurable (idx n)
  independent : iIndepFun idx μ
  likely : ∀ n j, p ≤ μ {ω | ∃ b, idx n ω b = j}

/-- The least share of the way to its target that a replayed value moves, when it begins at most `d` from the optimal one. -/
noncomputable def Spec.share (cfg : Cfg) (N : ℕ) (w₀ d : ℝ) : ℝ := cfg.lr * w₀ / (if cfg.mean then (N : ℝ) else 1) / max 1 (2 * d)

/-! ## Lemmas -/

/-- The target of a transition. -/
noncomputable def goal (gamma : ℝ) (V : S → ℝ) (x : Step S (Fin m)) : ℝ := x.out.reward + gamma * if x.out.done then 0 else V x.out.next

theorem targets_eq {gamma : ℝ} {Qt : S → Fin m → ℝ} {Vt : S → ℝ} (h : Iteration.Spec.Max Qt Vt) {batch : Minibatch S m} (hne : batch ≠ []) :
    targets gamma Qt batch = some (batch.map fun e => goal gamma Vt e.1) := by
  obtain ⟨out, ts, h1, h2, h3, h4⟩ := dqn_targets id gamma (exps := batch.map fun e => [trans e.1]) (by simpa using hne)
    (by intro e he; obtain ⟨x, _, rfl⟩ := List.mem_map.1 he; simp) (row Qt) Vt
    (Iteration.isMax_row h)
  simp only [targets, h1, h2]
  congr 1
  apply List.ext_getElem?
  intro k
  rw [List.getElem?_map]
  cases hk : batch[k]? with
  | none =>
    have : batch.length ≤ k := List.getElem?_eq_none_iff.1 hk
    simp only [Option.map_none]
    exact List.getElem?_eq_none_iff.2 (by rw [h3, List.length_map]; exact this)
  | some e =>
    rw [h4 k [trans e.1] (by rw [List.getElem?_map, hk]; rfl) (Iteration.good_one e.1).2.1]
    rfl

/-- The derivative of the loss of one experience. -/
noncomputable def slope (clipDelta : Bool) (d : ℝ) : ℝ := if clipDelta then max (-1) (min 1 d) else d

theorem slope_spec (clipDelta : Bool) {d B : ℝ} (h : |d| ≤ B) : ∃ ρ, slope clipDelta d = ρ * d ∧ 1 / max 1 B ≤ ρ ∧ ρ ≤ 1 := by
  have hB : 0 < max 1 B := lt_of_lt_of_le one_pos (le_max_left _ _)
  have h1 : 1 / max 1 B ≤ 1 := by rw [div_le_one hB]; exact le_max_left _ _
  unfold slope
  cases clipDelta
  · exact ⟨1, by simp, h1, le_rfl⟩
  · simp only [if_true]
    by_cases hd : |d| ≤ 1
    · have := abs_le.1 hd
      exact ⟨1, by rw [min_eq_right this.2, max_eq_right this.1, one_mul], h1, le_rfl⟩
    · have hpos : 0 < |d| := lt_trans one_pos (not_le.1 hd)
      refine ⟨1 / |d|, ?_, ?_, ?_⟩
      · rcases le_total 0 d with h' | h'
        · rw [abs_of_nonneg h'] at hd hpos ⊢
          rw [min_eq_left (not_le.1 hd).le, max_eq_right (by norm_num)]
          field_simp
        · rw [abs_of_nonpos h'] at hd hpos ⊢
          rw [min_eq_right (by linarith), max_eq_left (by linarith)]
          have : d ≠ 0 := by intro h; rw [h] at hpos; simp at hpos
          field_simp
      · exact one_div_le_one_div_of_le hpos (h.trans (le_max_right _ _))
      · rw [div_le_one hpos]
        exact (not_le.1 hd).le

section
variable [DecidableEq S]

/-- The share of an experience in the update of the value of `s` and `a`. -/
noncomputable def weightOf (cfg : Cfg) (n : ℕ) (s : S) (a : Fin m) (e : Step S (Fin m) × ℝ) : ℝ :=
  if e.1.s = s ∧ e.1.a = a then cfg.lr * e.2 / (if cfg.mean then (n : ℝ) else 1) else 0

/-- The new value of `s` and `a`. -/
theorem sgd_eq (cfg : Cfg) (batch : Minibatch S m) (y : Step S (Fin m) → ℝ) (q : S → Fin m → ℝ) (s : S) (a : Fin m) :
    sgd cfg.lr (loss cfg batch (batch.map fun e => y e.1)) q s a =
      q s a - (batch.map fun e => weightOf cfg batch.length s a e * slope cfg.clipDelta (q s a - y e.1)).sum := by
  have hz : ∀ q' : S → Fin m → ℝ, List.zipWith (fun (e : Step S (Fin m) × ℝ) t => (⟨q' e.1.s e.1.a, t, e.2⟩ : Loss.Row ℝ ℝ)) batch
      (batch.map fun e => y e.1) = batch.map fun e => ⟨q' e.1.s e.1.a, y e.1, e.2⟩ := by
    intro q'
    induction batch with
    | nil => rfl
    | cons e batch ih => rw [List.map_cons, List.zipWith_cons_cons, ih, List.map_cons]
  have hl : ∀ q' : S → Fin m → ℝ, loss cfg batch (batch.map fun e => y e.1) q' =
      (batch.map fun e => Loss.rowLoss cfg.clipDelta ⟨q' e.1.s e.1.a, y e.1, e.2⟩ * e.2).sum / (if cfg.mean then (batch.length : ℝ) else 1) := by
    intro q'
    rw [loss, hz, Loss.weightedValueLoss_eq, List.map_map, List.length_map]
    rfl
  have hd : HasDerivAt (fun v => loss cfg batch (batch.map fun e => y e.1) (setEntry q s a v))
      ((batch.map fun e => if e.1.s = s ∧ e.1.a = a then slope cfg.clipDelta (q s a - y e.1) * e.2 else 0).sum /
        (if cfg.mean then (batch.length : ℝ) else 1)) (q s a) := by
    simp only [hl]
    apply HasDerivAt.div_const
    refine Loss.sum_map_deriv (fun (e : Step S (Fin m) × ℝ) v => Loss.rowLoss cfg.clipDelta ⟨setEntry q s a v e.1.s e.1.a, y e.1, e.2⟩ * e.2)
      (fun e => if e.1.s = s ∧ e.1.a = a then slope cfg.clipDelta (q s a - y e.1) * e.2 else 0) _ _ fun e _ => ?_
    by_cases h : e.1.s = s ∧ e.1.a = a
    · simp only [setEntry, if_pos h]
      exact (Loss.rowLoss_deriv cfg.clipDelta ⟨q s a, y e.1, e.2⟩).mul_const e.2
    · simp only [setEntry, if_neg h]
      exact hasDerivAt_const _ _
  unfold sgd
  rw [hd.deriv, ← Loss.sum_div_const, ← List.sum_map_mul_left]
  congr 3
  funext e
  unfold weightOf
  split
  · ring
  · ring

/-- Moving towards several targets. -/
theorem mix (clipDelta : Bool) {q Q c B : ℝ} (l : List (ℝ × ℝ)) (h : ∀ x ∈ l, 0 ≤ x.1 ∧ (x.1 = 0 ∨ |x.2 - Q| ≤ c ∧ |q - x.2| ≤ B)) :
    ∃ Λ T, (l.map fun x => x.1 * slope clipDelta (q - x.2)).sum = Λ * (q - Q) - T ∧ |T| ≤ Λ * c ∧
      (l.map Prod.fst).sum / max 1 B ≤ Λ ∧ Λ ≤ (l.map Prod.fst).sum := by
  induction l with
  | nil => exact ⟨0, 0, by simp, by simp, by simp, by simp⟩
  | cons x l ih =>
    obtain ⟨Λ, T, h1, h2, h3, h4⟩ := ih (fun y hy => h y (by simp [hy]))
    obtain ⟨hx0, hx⟩ := h x (by simp)
    simp only [List.map_cons, List.sum_cons, h1]
    rcases hx with hx | ⟨hx, hB⟩
    · exact ⟨Λ, T, by rw [hx]; ring, h2, by rwa [hx, zero_add], by rwa [hx, zero_add]⟩
    · obtain ⟨ρ, e, r0, r1⟩ := slope_spec clipDelta hB
      have hρ : 0 ≤ ρ := le_trans (by positivity) r0
      refine ⟨x.1 * ρ + Λ, x.1 * ρ * (x.2 - Q) + T, by rw [e]; ring, ?_, ?_, ?_⟩
      · refine (abs_add_le _ _).trans ?_
        rw [abs_mul, abs_of_nonneg (mul_nonneg hx0 hρ), add_mul]
        exact add_le_add (mul_le_mul_of_nonneg_left hx (mul_nonneg hx0 hρ)) h2
      · rw [add_div]
        refine add_le_add ?_ h3
        rw [div_eq_mul_one_div]
        exact mul_le_mul_of_nonneg_left r0 hx0
      · have := mul_le_mul_of_nonneg_left r1 hx0
        linarith

theorem move {q Q X c Λ T : ℝ} (hX : |q - Q| ≤ X) (hT : |T| ≤ Λ * c) (h1 : Λ ≤ 1) : |q - (Λ * (q - Q) - T) - Q| ≤ (1 - Λ) * X + Λ * c := by
  have e : q - (Λ * (q - Q) - T) - Q = (1 - Λ) * (q - Q) + T := by ring
  rw [e]
  refine (abs_add_le _ _).trans (add_le_add ?_ hT)
  rw [abs_mul, abs_of_nonneg (by linarith)]
  exact mul_le_mul_of_nonneg_left hX (by linarith)

end

/-- One-step targets computed with a target model that is off by at most `Y`. -/
theorem goal_abs {gamma Y δ : ℝ} (h0 : 0 ≤ gamma) (hY : 0 ≤ Y) {V Vt : S → ℝ} (h : ∀ s, |Vt s - V s| ≤ Y) {x : Step S (Fin m)} {v : ℝ}
    (hx : |goal gamma V x - v| ≤ δ) : |goal gamma Vt x - v| ≤ gamma * Y + δ := by
  have e : goal gamma Vt x - v = gamma * ((if x.out.done then 0 else Vt x.out.next) - if x.out.done then 0 else V x.out.next) + (goal gamma V x - v) := by
    unfold goal; ring
  rw [e]
  refine (abs_add_le _ _).trans (add_le_add ?_ hx)
  rw [abs_mul, abs_of_nonneg h0]
  refine mul_le_mul_of_nonneg_left ?_ h0
  by_cases hd : x.out.done = true
  · simpa [hd] using hY
  · simpa [hd] using h _

section
variable [DecidableEq S]

theorem weightOf_nonneg {cfg : Cfg} (hlr : 0 ≤ cfg.lr) (n : ℕ) (s : S) (a : Fin m) {e : Step S (Fin m) × ℝ} (he : 0 ≤ e.2) :
    0 ≤ weightOf cfg n s a e := by
  unfold weightOf
  split
  · refine div_nonneg (mul_nonneg hlr he) ?_
    split
    · exact Nat.cast_nonneg n
    · exact zero_le_one
  · exact le_rfl

theorem weights_le {cfg : Cfg} (hlr : 0 ≤ cfg.lr) {N : ℕ} (hN : cfg.lr * (if cfg.mean then 1 else (N : ℝ)) ≤ 1) (s : S) (a : Fin m)
    {batch : Minibatch S m} (hne : batch ≠ []) (hlen : batch.length ≤ N) (hw : ∀ e ∈ batch, 0 ≤ e.2 ∧ e.2 ≤ 1) :
    (batch.map (weightOf cfg batch.length s a)).sum ≤ 1 := by
  have hpos : 0 < (batch.length : ℝ) := by exact_mod_cast List.length_pos_iff.2 hne
  have hden : 0 < (if cfg.mean then (batch.length : ℝ) else 1) := by split <;> [exact hpos; exact one_pos]
  have h1 : (batch.map (weightOf cfg batch.length s a)).sum ≤ batch.length • (cfg.lr / (if cfg.mean then (batch.length : ℝ) else 1)) := by
    have := List.sum_le_card_nsmul (batch.map (weightOf cfg batch.length s a)) (cfg.lr / (if cfg.mean then (batch.length : ℝ) else 1)) (by
      intro x hx
      obtain ⟨e, he, rfl⟩ := List.mem_map.1 hx
      unfold weightOf
      split
      · refine div_le_div_of_nonneg_right ?_ hden.le
        have := mul_le_mul_of_nonneg_left (hw e he).2 hlr
        linarith
      · exact div_nonneg hlr hden.le)
    rwa [List.length_map] at this
  refine h1.trans ?_
  rw [nsmul_eq_mul]
  by_cases hm : cfg.mean = true
  · simp only [hm, if_true, mul_one] at hN ⊢
    rw [mul_div_cancel₀ _ hpos.ne']
    exact hN
  · rw [if_neg hm] at hN
    rw [if_neg hm, div_one]
    have := mul_le_mul_of_nonneg_right (by exact_mod_cast hlen : (batch.length : ℝ) ≤ N) hlr
    linarith

theorem weights_ge {cfg : Cfg} (hlr : 0 ≤ cfg.lr) {N : ℕ} {w₀ : ℝ} (hw₀ : 0 ≤ w₀) (s : S) (a : Fin m) {batch : Minibatch S m}
    (hlen : batch.length ≤ N) (hw : ∀ e ∈ batch, w₀ ≤ e.2) (h : ∃ e ∈ batch, e.1.s = s ∧ e.1.a = a) :
    cfg.lr * w₀ / (if cfg.mean then (N : ℝ) else 1) ≤ (batch.map (weightOf cfg batch.length s a)).sum := by
  obtain ⟨e, he, hs, ha⟩ := h
  have hpos : 0 < (batch.length : ℝ) := by exact_mod_cast List.length_pos_iff.2 (List.ne_nil_of_mem he)
  have h1 := List.single_le_sum (l := batch.map (weightOf cfg batch.length s a)) (by
    intro x hx
    obtain ⟨e, he, rfl⟩ := List.mem_map.1 hx
    exact weightOf_nonneg hlr _ s a (hw₀.trans (hw e he))) _ (List.mem_map.2 ⟨e, he, rfl⟩)
  refine le_trans ?_ h1
  unfold weightOf
  rw [if_pos (And.intro hs ha)]
  have h2 := mul_le_mul_of_nonneg_left (hw e he) hlr
  by_cases hm : cfg.mean = true
  · rw [if_pos hm, if_pos hm]
    exact div_le_div₀ (mul_nonneg hlr (hw₀.trans (hw e he))) h2 hpos (by exact_mod_cast hlen)
  · rw [if_neg hm, if_neg hm, div_one, div_one]
    exact h2

/-- What one update does to the errors. -/
theorem update_bound {cfg : Cfg} {N : ℕ} {w₀ δ R Y : ℝ} {V : S → ℝ} {Q : S → Fin m → ℝ} [NeZero m] (hV : Iteration.Spec.Max Q V) (h0 : 0 ≤ cfg.gamma)
    (hlr : 0 ≤ cfg.lr) (hN : cfg.lr * (if cfg.mean then 1 else (N : ℝ)) ≤ 1) (hw₀ : 0 ≤ w₀) {batch : Minibatch S m} (hne : batch ≠ [])
    (hlen : batch.length ≤ N)
    (hb : ∀ e ∈ batch, w₀ ≤ e.2 ∧ e.2 ≤ 1 ∧ |e.1.out.reward + cfg.gamma * (if e.1.out.done then 0 else V e.1.out.next) - Q e.1.s e.1.a| ≤ δ)
    (st : Agent S m) (hY0 : 0 ≤ Y) (hY : ∀ s a, |st.target s a - Q s a| ≤ Y) (hR : cfg.gamma * Y + δ ≤ R) (hq : ∀ s a, |st.q s a - Q s a| ≤ R) :
    ∃ st', st.step cfg (.update batch) = some st' ∧ st'.target = st.target ∧ ∀ s a, ∃ Λ, 0 ≤ Λ ∧ Λ ≤ 1 ∧
      ((∃ e ∈ batch, e.1.s = s ∧ e.1.a = a) → Spec.share cfg N w₀ R ≤ Λ) ∧
      |st'.q s a - Q s a| ≤ (1 - Λ) * |st.q s a - Q s a| + Λ * (cfg.gamma * Y + δ) := by
  obtain ⟨Vt, hVt⟩ := Iteration.max_exists st.target
  refine ⟨{ st with q := sgd cfg.lr (loss cfg batch (batch.map fun e => goal cfg.gamma Vt e.1)) st.q },
    by simp only [Agent.step, targets_eq hVt hne, Option.map_some], rfl, fun s a => ?_⟩
  simp only
  rw [sgd_eq cfg batch (goal cfg.gamma Vt)]
  obtain ⟨Λ, T, e, hT, hl, hu⟩ := mix cfg.clipDelta (q := st.q s a) (Q := Q s a) (c := cfg.gamma * Y + δ) (B := 2 * R)
    (batch.map fun e => (weightOf cfg batch.length s a e, goal cfg.gamma Vt e.1)) (by
      intro x hx
      obtain ⟨e, he, rfl⟩ := List.mem_map.1 hx
      obtain ⟨h1, h2, h3⟩ := hb e he
      refine ⟨weightOf_nonneg hlr _ s a (hw₀.trans h1), ?_⟩
      by_cases hm : e.1.s = s ∧ e.1.a = a
      · right
        have h4 : |goal cfg.gamma Vt e.1 - Q s a| ≤ cfg.gamma * Y + δ := by
          refine goal_abs h0 hY0 (Iteration.max_abs hVt hV hY) ?_
          rw [← hm.1, ← hm.2]
          exact h3
        refine ⟨h4, ?_⟩
        have e2 : st.q s a - goal cfg.gamma Vt e.1 = (st.q s a - Q s a) - (goal cfg.gamma Vt e.1 - Q s a) := by ring
        simp only
        rw [e2]
        have := abs_sub (st.q s a - Q s a) (goal cfg.gamma Vt e.1 - Q s a)
        have := hq s a
        linarith
      · left
        simp only [weightOf, if_neg hm])
  simp only [List.map_map, Function.comp_def] at e hl hu
  have hs : (batch.map fun e => weightOf cfg batch.length s a e).sum ≤ 1 :=
    weights_le hlr hN s a hne hlen fun e he => ⟨hw₀.trans (hb e he).1, (hb e he).2.1⟩
  have hmax : (0 : ℝ) < max 1 (2 * R) := lt_of_lt_of_le one_pos (le_max_left _ _)
  have hsum0 : 0 ≤ (batch.map fun e => weightOf cfg batch.length s a e).sum := by
    refine List.sum_nonneg fun x hx => ?_
    obtain ⟨e, he, rfl⟩ := List.mem_map.1 hx
    exact weightOf_nonneg hlr _ s a (hw₀.trans (hb e he).1)
  refine ⟨Λ, (div_nonneg hsum0 hmax.le).trans hl, hu.trans hs, fun h => ?_, ?_⟩
  · refine le_trans ?_ hl
    exact div_le_div_of_nonneg_right (weights_ge hlr hw₀ s a hlen (fun e he => (hb e he).1) h) hmax.le
  · rw [e]
    exact move le_rfl hT (hu.trans hs)

end

/-- The argument, with errors `x` of the values and `y` of the target values: errors that are small stay small; when all values have been replayed and
then the target values updated, they are smaller. -/
theorem shrink {I : Type} {x y : ℕ → I → ℝ} {gamma tau κ δ d : ℝ} {hit : ℕ → I → Prop} {syn : ℕ → Prop} (h1 : gamma < 1)
    (ht0 : 0 ≤ tau) (ht1 : tau ≤ 1) (hκ0 : 0 ≤ κ) (hκ1 : κ ≤ 1) (hδ : 0 ≤ δ)
    (hx : ∀ n Y, 0 ≤ Y → (∀ i, y n i ≤ Y) → gamma * Y + δ ≤ δ / (1 - gamma) + d → (∀ i, x n i ≤ δ / (1 - gamma) + d) →
      ∀ i, ∃ Λ, 0 ≤ Λ ∧ Λ ≤ 1 ∧ (hit n i → κ ≤ Λ) ∧ x (n + 1) i ≤ (1 - Λ) * x n i + Λ * (gamma * Y + δ))
    (hy : ∀ n, (¬ syn n ∧ ∀ i, y (n + 1) i ≤ y n i) ∨ ∀ i, y (n + 1) i ≤ (1 - tau) * y n i + tau * x n i) {D : ℝ} (hD0 : 0 ≤ D) (hDd : D ≤ d) {k : ℕ}
    (hxk : ∀ i, x k i ≤ δ / (1 - gamma) + D) (hyk : ∀ i, y k i ≤ δ / (1 - gamma) + D) :
    (∀ j, (∀ i, x (k + j) i ≤ δ / (1 - gamma) + D) ∧ ∀ i, y (k + j) i ≤ δ / (1 - gamma) + D) ∧
    ∀ p p', (∀ i, ∃ n, k ≤ n ∧ n < k + p ∧ hit n i) → (∃ n, k + p ≤ n ∧ n < k + p' ∧ syn n) →
      (∀ i, x (k + p') i ≤ δ / (1 - gamma) + (1 - tau * κ * (1 - gamma)) * D) ∧
        ∀ i, y (k + p') i ≤ δ / (1 - gamma) + (1 - tau * κ * (1 - gamma)) * D := by
  have hg : 0 < 1 - gamma := by linarith
  set e := δ / (1 - gamma) with he
  have he0 : 0 ≤ e := div_nonneg hδ hg.le
  have hee : gamma * e + δ = e := by rw [he]; field_simp; ring
  have hgD : gamma * D ≤ D := by nlinarith
  have hYR : gamma * (e + D) + δ ≤ e + d := by linarith
  have hall : ∀ j, (∀ i, x (k + j) i ≤ e + D) ∧ ∀ i, y (k + j) i ≤ e + D := by
    intro j
    induction j with
    | zero => exact ⟨hxk, hyk⟩
    | succ j ih =>
      obtain ⟨ihx, ihy⟩ := ih
      constructor
      · intro i
        obtain ⟨Λ, l0, l1, _, hl⟩ := hx (k + j) (e + D) (by linarith) ihy hYR (fun i => (ihx i).trans (by linarith)) i
        refine hl.trans ?_
        have a1 := mul_le_mul_of_nonneg_left (ihx i) (by linarith : 0 ≤ 1 - Λ)
        have a2 := mul_le_mul_of_nonneg_left (by linarith : gamma * (e + D) + δ ≤ e + D) l0
        linarith
      · intro i
        rcases hy (k + j) with ⟨_, h⟩ | h
        · exact (h i).trans (ihy i)
        · refine (h i).trans ?_
          have a1 := mul_le_mul_of_nonneg_left (ihy i) (by linarith : 0 ≤ 1 - tau)
          have a2 := mul_le_mul_of_nonneg_left (ihx i) ht0
          linarith
  refine ⟨hall, fun p p' hhit hsyn => ?_⟩
  have hD' : gamma * D ≤ (1 - κ * (1 - gamma)) * D := by nlinarith [mul_nonneg (mul_nonneg (sub_nonneg.2 hκ1) hg.le) hD0]
  have hstep := fun j => hx (k + j) (e + D) (by linarith) (hall j).2 hYR (fun i => ((hall j).1 i).trans (by linarith))
  have hkeep : ∀ i j, x (k + j) i ≤ e + (1 - κ * (1 - gamma)) * D → ∀ l, x (k + j + l) i ≤ e + (1 - κ * (1 - gamma)) * D := by
    intro i j hj l
    induction l with
    | zero => exact hj
    | succ l ih =>
      obtain ⟨Λ, l0, l1, _, hl⟩ := hstep (j + l) i
      rw [← add_assoc] at hl
      refine hl.trans ?_
      have a1 := mul_le_mul_of_nonneg_left ih (by linarith : 0 ≤ 1 - Λ)
      have a2 := mul_le_mul_of_nonneg_left (by linarith : gamma * (e + D) + δ ≤ e + (1 - κ * (1 - gamma)) * D) l0
      linarith
  have hP : ∀ i j, p ≤ j → x (k + j) i ≤ e + (1 - κ * (1 - gamma)) * D := by
    intro i j hj
    obtain ⟨n, n0, n1, hn⟩ := hhit i
    obtain ⟨l, rfl⟩ := Nat.exists_eq_add_of_le n0
    obtain ⟨Λ, l0, l1, h2, hl⟩ := hstep l i
    have h3 := h2 hn
    have h4 : x (k + (l + 1)) i ≤ e + (1 - κ * (1 - gamma)) * D := by
      rw [← add_assoc]
      refine hl.trans ?_
      have a1 := mul_le_mul_of_nonneg_left ((hall l).1 i) (by linarith : 0 ≤ 1 - Λ)
      have a2 := mul_nonneg (mul_nonneg (sub_nonneg.2 h3) hg.le) hD0
      have e1 : gamma * (e + D) + δ = e + gamma * D := by linarith
      rw [e1]
      nlinarith
    have h5 := hkeep i (l + 1) h4 (j - (l + 1))
    have e1 : k + (l + 1) + (j - (l + 1)) = k + j := by omega
    rwa [e1] at h5
  have hD'' : (1 - κ * (1 - gamma)) * D ≤ (1 - tau * κ * (1 - gamma)) * D := by
    nlinarith [mul_nonneg (mul_nonneg (mul_nonneg (sub_nonneg.2 ht1) hκ0) hg.le) hD0]
  have hkeepy : ∀ j, p ≤ j → (∀ i, y (k + j) i ≤ e + (1 - tau * κ * (1 - gamma)) * D) → ∀ l, ∀ i,
      y (k + j + l) i ≤ e + (1 - tau * κ * (1 - gamma)) * D := by
    intro j hj h l
    induction l with
    | zero => exact h
    | succ l ih =>
      intro i
      rw [← add_assoc]
      rcases hy (k + j + l) with ⟨_, h⟩ | h
      · exact (h i).trans (ih i)
      · refine (h i).trans ?_
        have a1 := mul_le_mul_of_nonneg_left (ih i) (by linarith : 0 ≤ 1 - tau)
        have a3 := hP i (j + l) (by omega)
        rw [← add_assoc] at a3
        have a2 := mul_le_mul_of_nonneg_left (a3.trans (by linarith : _ ≤ e + (1 - tau * κ * (1 - gamma)) * D)) ht0
        linarith
  obtain ⟨n, n0, n1, hn⟩ := hsyn
  refine ⟨fun i => (hP i p' (by omega)).trans (by linarith), ?_⟩
  obtain ⟨l, rfl⟩ := Nat.exists_eq_add_of_le n0
  have h4 : ∀ i, y (k + (p + l + 1)) i ≤ e + (1 - tau * κ * (1 - gamma)) * D := by
    intro i
    have e1 : k + (p + l + 1) = k + p + l + 1 := by omega
    rw [e1]
    rcases hy (k + p + l) with ⟨h, _⟩ | h
    · exact absurd hn h
    · refine (h i).trans ?_
      have a1 := mul_le_mul_of_nonneg_left ((hall (p + l)).2 i) (by linarith : 0 ≤ 1 - tau)
      have a2 := mul_le_mul_of_nonneg_left (hP i (p + l) (by omega)) ht0
      rw [← add_assoc] at a1 a2
      nlinarith
  have h5 := hkeepy (p + l + 1) (by omega) h4 (p' - (p + l + 1))
  have e1 : k + (p + l + 1) + (p' - (p + l + 1)) = k + p' := by omega
  rwa [e1] at h5

theorem factor_bounds {gamma tau κ : ℝ} (h0 : 0 ≤ gamma) (h1 : gamma < 1) (ht0 : 0 ≤ tau) (ht1 : tau ≤ 1) (hκ0 : 0 ≤ κ) (hκ1 : κ ≤ 1) :
    0 ≤ 1 - tau * κ * (1 - gamma) ∧ 1 - tau * κ * (1 - gamma) ≤ 1 := by
  have hg : 0 < 1 - gamma := by linarith
  have a1 := mul_le_one₀ (mul_le_one₀ ht1 hκ0 hκ1) hg.le (by linarith : 1 - gamma ≤ 1)
  have a2 := mul_nonneg (mul_nonneg ht0 hκ0) hg.le
  constructor <;> linarith

/-- After windows `[t k, t (k + 1))`, in each of which everything is replayed and then the target values are updated. -/
theorem squeeze {I : Type} {x y : ℕ → I → ℝ} {gamma tau κ δ d : ℝ} {hit : ℕ → I → Prop} {syn : ℕ → Prop} (h0 : 0 ≤ gamma) (h1 : gamma < 1)
    (ht0 : 0 ≤ tau) (ht1 : tau ≤ 1) (hκ0 : 0 ≤ κ) (hκ1 : κ ≤ 1) (hδ : 0 ≤ δ) (hd : 0 ≤ d)
    (hx0 : ∀ i, x 0 i ≤ δ / (1 - gamma) + d) (hy0 : ∀ i, y 0 i ≤ δ / (1 - gamma) + d)
    (hx : ∀ n Y, 0 ≤ Y → (∀ i, y n i ≤ Y) → gamma * Y + δ ≤ δ / (1 - gamma) + d → (∀ i, x n i ≤ δ / (1 - gamma) + d) →
      ∀ i, ∃ Λ, 0 ≤ Λ ∧ Λ ≤ 1 ∧ (hit n i → κ ≤ Λ) ∧ x (n + 1) i ≤ (1 - Λ) * x n i + Λ * (gamma * Y + δ))
    (hy : ∀ n, (¬ syn n ∧ ∀ i, y (n + 1) i ≤ y n i) ∨ ∀ i, y (n + 1) i ≤ (1 - tau) * y n i + tau * x n i)
    (t : ℕ → ℕ) (ht : ∀ k, ∃ u, (∀ i, ∃ n, t k ≤ n ∧ n < u ∧ hit n i) ∧ ∃ n, t k ≤ u ∧ u ≤ n ∧ n < t (k + 1) ∧ syn n) (h00 : t 0 = 0)
    (k n : ℕ) (hn : t k ≤ n) (i : I) : x n i ≤ δ / (1 - gamma) + (1 - tau * κ * (1 - gamma)) ^ k * d := by
  obtain ⟨hr0, hr1⟩ := factor_bounds h0 h1 ht0 ht1 hκ0 hκ1
  have hD : ∀ k : ℕ, 0 ≤ (1 - tau * κ * (1 - gamma)) ^ k * d ∧ (1 - tau * κ * (1 - gamma)) ^ k * d ≤ d := fun k =>
    ⟨mul_nonneg (pow_nonneg hr0 k) hd, mul_le_of_le_one_left hd (pow_le_one₀ hr0 hr1)⟩
  have hall : ∀ k, (∀ i, x (t k) i ≤ δ / (1 - gamma) + (1 - tau * κ * (1 - gamma)) ^ k * d) ∧
      ∀ i, y (t k) i ≤ δ / (1 - gamma) + (1 - tau * κ * (1 - gamma)) ^ k * d := by
    intro k
    induction k with
    | zero => rw [h00]; simpa using ⟨hx0, hy0⟩
    | succ k ih =>
      obtain ⟨u, hu, n, n0, n1, n2, n3⟩ := ht k
      obtain ⟨p, rfl⟩ := Nat.exists_eq_add_of_le n0
      obtain ⟨p', hp'⟩ := Nat.exists_eq_add_of_le (by omega : t k ≤ t (k + 1))
      have := (shrink h1 ht0 ht1 hκ0 hκ1 hδ hx hy (hD k).1 (hD k).2 ih.1 ih.2).2 p p' hu ⟨n, n1, by omega, n3⟩
      rw [← mul_assoc, ← pow_succ'] at this
      rwa [hp']
  obtain ⟨j, rfl⟩ := Nat.exists_eq_add_of_le hn
  exact ((shrink h1 ht0 ht1 hκ0 hκ1 hδ hx hy (hD k).1 (hD k).2 (hall k).1 (hall k).2).1 j).1 i

section
variable [DecidableEq S] [NeZero m]

theorem run_some (cfg : Cfg) {ev : ℕ → Event S m} (hne : ∀ i batch, ev i = .update batch → batch ≠ []) (st : Agent S m) (n : ℕ) :
    ∃ st', st.run cfg ev n = some st' := by
  induction n with
  | zero => exact ⟨st, rfl⟩
  | succ n ih =>
    obtain ⟨st', h⟩ := ih
    simp only [Agent.run, h, Option.bind_some]
    cases he : ev n with
    | sync => exact ⟨_, rfl⟩
    | update batch =>
      obtain ⟨Vt, hVt⟩ := Iteration.max_exists st'.target
      simp only [Agent.step, targets_eq hVt (hne n batch he), Option.map_some]
      exact ⟨_, rfl⟩

end

section
variable [DecidableEq S] [NeZero m]

omit [DecidableEq S] [NeZero m] in
theorem share_bounds {cfg : Cfg} {N : ℕ} {w₀ δ d : ℝ} {V : S → ℝ} {Q : S → Fin m → ℝ} (hlr : 0 ≤ cfg.lr)
    (hN : cfg.lr * (if cfg.mean then 1 else (N : ℝ)) ≤ 1) (hw₀ : 0 ≤ w₀) {ev : ℕ → Event S m} (hev : Spec.Data cfg.gamma N w₀ δ V Q ev)
    (hsome : ∃ i batch, ev i = .update batch) :
    0 ≤ Spec.share cfg N w₀ d ∧ Spec.share cfg N w₀ d ≤ 1 ∧ (0 < cfg.lr → 0 < w₀ → 0 < Spec.share cfg N w₀ d) := by
  have hmax : (1 : ℝ) ≤ max 1 (2 * d) := le_max_left _ _
  obtain ⟨i, batch, hb⟩ := hsome
  obtain ⟨b1, b2, b3⟩ := hev i batch hb
  obtain ⟨e, he⟩ := List.exists_mem_of_ne_nil _ b1
  have hN1 : (1 : ℝ) ≤ N := by exact_mod_cast le_trans (List.length_pos_iff.2 b1) b2
  have hden : 0 < (if cfg.mean then (N : ℝ) else 1) := by split <;> [exact lt_of_lt_of_le one_pos hN1; exact zero_lt_one]
  have hw1 : w₀ ≤ 1 := (b3 e he).1.trans (b3 e he).2.1
  have hl1 : cfg.lr ≤ 1 := by
    by_cases hm : cfg.mean = true
    · simpa [hm] using hN
    · rw [if_neg hm] at hN
      have := mul_le_mul_of_nonneg_left hN1 hlr
      linarith
  refine ⟨div_nonneg (div_nonneg (mul_nonneg hlr hw₀) hden.le) (by linarith), ?_, fun h1 h2 => ?_⟩
  · refine div_le_one_of_le₀ (le_trans ?_ hmax) (by linarith)
    refine div_le_one_of_le₀ (le_trans (mul_le_one₀ hl1 hw₀ hw1) ?_) hden.le
    split <;> [exact hN1; exact le_rfl]
  · exact div_pos (div_pos (mul_pos h1 h2) hden) (by linarith)

theorem core {cfg : Cfg} {N : ℕ} {w₀ δ d : ℝ} {V : S → ℝ} {Q : S → Fin m → ℝ} (hV : Iteration.Spec.Max Q V) (h0 : 0 ≤ cfg.gamma)
    (h1 : cfg.gamma < 1) (hlr : 0 ≤ cfg.lr) (hN : cfg.lr * (if cfg.mean then 1 else (N : ℝ)) ≤ 1) (ht0 : 0 ≤ cfg.tau) (ht1 : cfg.tau ≤ 1)
    (hw₀ : 0 ≤ w₀) (hδ : 0 ≤ δ) (hd : 0 ≤ d) {ev : ℕ → Event S m} (hev : Spec.Data cfg.gamma N w₀ δ V Q ev) {st : Agent S m}
    (hst : ∀ s a, |st.q s a - Q s a| ≤ δ / (1 - cfg.gamma) + d ∧ |st.target s a - Q s a| ≤ δ / (1 - cfg.gamma) + d)
    {tr : ℕ → Agent S m} (htr : ∀ n, st.run cfg ev n = some (tr n)) (t : ℕ → ℕ)
    (ht : ∀ k, ∃ u, (∀ s a, ∃ i batch, t k ≤ i ∧ i < u ∧ ev i = .update batch ∧ ∃ e ∈ batch, e.1.s = s ∧ e.1.a = a) ∧
      ∃ n, t k ≤ u ∧ u ≤ n ∧ n < t (k + 1) ∧ ev n = .sync) (h00 : t 0 = 0) (k n : ℕ) (hk : t k ≤ n) (s : S) (a : Fin m) :
    |(tr n).q s a - Q s a| ≤ δ / (1 - cfg.gamma) +
      (1 - cfg.tau * Spec.share cfg N w₀ (δ / (1 - cfg.gamma) + d) * (1 - cfg.gamma)) ^ k * d := by
  have hne : ∀ i batch, ev i = .update batch → batch ≠ [] := fun i batch h => (hev i batch h).1
  have hstep : ∀ n, (tr n).step cfg (ev n) = some (tr (n + 1)) := by
    intro n
    have := htr (n + 1)
    rwa [Agent.run, htr n, Option.bind_some] at this
  have htr0 : tr 0 = st := (Option.some.inj (htr 0)).symm
  obtain ⟨hκ0, hκ1, _⟩ := share_bounds (d := δ / (1 - cfg.gamma) + d) hlr hN hw₀ hev (by
    obtain ⟨u, hu, _⟩ := ht 0
    obtain ⟨i, batch, _, _, h, _⟩ := hu s a
    exact ⟨i, batch, h⟩)
  refine squeeze (I := S × Fin m) (x := fun n i => |(tr n).q i.1 i.2 - Q i.1 i.2|) (y := fun n i => |(tr n).target i.1 i.2 - Q i.1 i.2|)
    (hit := fun n i => ∃ batch, ev n = .update batch ∧ ∃ e ∈ batch, e.1.s = i.1 ∧ e.1.a = i.2) (syn := fun n => ev n = .sync)
    h0 h1 ht0 ht1 hκ0 hκ1 hδ hd (fun i => ?_) (fun i => ?_) (fun n Y hY0 hY hR hq i => ?_) (fun n => ?_) t (fun k => ?_) h00 k n hk (s, a)
  · rw [htr0]; exact (hst i.1 i.2).1
  · rw [htr0]; exact (hst i.1 i.2).2
  · have hs := hstep n
    cases he : ev n with
    | sync =>
      rw [he] at hs
      refine ⟨0, le_rfl, zero_le_one, fun h => ?_, ?_⟩
      · obtain ⟨b, hb, _⟩ := h
        cases hb
      · have : (tr (n + 1)).q = (tr n).q := by rw [← Option.some.inj hs]
        rw [this]; linarith
    | update batch =>
      rw [he] at hs
      obtain ⟨b1, b2, b3⟩ := hev n batch he
      obtain ⟨st', g1, _, g3⟩ := update_bound hV h0 hlr hN hw₀ b1 b2 b3 (tr n) hY0 (fun s a => hY (s, a)) hR (fun s a => hq (s, a))
      rw [hs] at g1
      rw [Option.some.inj g1]
      obtain ⟨Λ, l0, l1, l2, l3⟩ := g3 i.1 i.2
      refine ⟨Λ, l0, l1, fun h => ?_, l3⟩
      obtain ⟨b, hb, h⟩ := h
      cases hb
      exact l2 h
  · have hs := hstep n
    cases he : ev n with
    | sync =>
      right
      intro i
      rw [he] at hs
      have : (tr (n + 1)).target = fun s a => (1 - cfg.tau) * (tr n).target s a + cfg.tau * (tr n).q s a := by rw [← Option.some.inj hs]
      rw [this]
      have e : (1 - cfg.tau) * (tr n).target i.1 i.2 + cfg.tau * (tr n).q i.1 i.2 - Q i.1 i.2 =
          (1 - cfg.tau) * ((tr n).target i.1 i.2 - Q i.1 i.2) + cfg.tau * ((tr n).q i.1 i.2 - Q i.1 i.2) := by ring
      simp only
      rw [e]
      refine (abs_add_le _ _).trans ?_
      rw [abs_mul, abs_mul, abs_of_nonneg ht0, abs_of_nonneg (by linarith : 0 ≤ 1 - cfg.tau)]
    | update batch =>
      left
      rw [he] at hs
      refine ⟨fun h => (by cases h), fun i => ?_⟩
      have : (tr (n + 1)).target = (tr n).target := by
        obtain ⟨Vt, hVt⟩ := Iteration.max_exists (tr n).target
        simp only [Agent.step, targets_eq hVt (hne n batch he), Option.map_some] at hs
        rw [← Option.some.inj hs]
      rw [this]
  · obtain ⟨u, hu, n, h⟩ := ht k
    refine ⟨u, fun i => ?_, n, h⟩
    obtain ⟨n, batch, a1, a2, a3, a4⟩ := hu i.1 i.2
    exact ⟨n, a1, a2, batch, a3, a4⟩

omit [DecidableEq S] [NeZero m] in
/-- Windows, when everything happens again and again. -/
theorem windows [Fintype S] {ev : ℕ → Event S m} (h : Spec.Again ev) : ∃ t : ℕ → ℕ, t 0 = 0 ∧
    ∀ k, ∃ u, (∀ s a, ∃ i batch, t k ≤ i ∧ i < u ∧ ev i = .update batch ∧ ∃ e ∈ batch, e.1.s = s ∧ e.1.a = a) ∧
      ∃ n, t k ≤ u ∧ u ≤ n ∧ n < t (k + 1) ∧ ev n = .sync := by
  have key : ∀ k, ∃ k' u, (∀ s a, ∃ i batch, k ≤ i ∧ i < u ∧ ev i = .update batch ∧ ∃ e ∈ batch, e.1.s = s ∧ e.1.a = a) ∧
      ∃ n, k ≤ u ∧ u ≤ n ∧ n < k' ∧ ev n = .sync := by
    intro k
    choose f hf batch hb using fun i : S × Fin m => h.1 i.1 i.2 k
    obtain ⟨n, hn, hs⟩ := h.2 (k + Finset.univ.sup f + 1)
    refine ⟨n + 1, k + Finset.univ.sup f + 1, fun s a => ?_, n, by omega, by omega, by omega, hs⟩
    have h1 : f (s, a) ≤ Finset.univ.sup f := Finset.le_sup (Finset.mem_univ _)
    have h2 := hf (s, a)
    exact ⟨f (s, a), batch (s, a), h2, by omega, (hb (s, a)).1, (hb (s, a)).2⟩
  choose g u hu hn using key
  exact ⟨fun k => Nat.rec 0 (fun _ t => g t) k, rfl, fun k => ⟨_, hu _, hn _⟩⟩

/-! ## C143 -/

/-- Whatever the order of the minibatches and of the updates of the target model, training never fails, and the values get as close to the optimal ones as
the randomness of what is seen allows: every two periods the rest of the error shrinks by a fixed factor. -/
theorem table_converges {cfg : Cfg} {N P : ℕ} {w₀ δ d : ℝ} {V : S → ℝ} {Q : S → Fin m → ℝ} (hV : Iteration.Spec.Max Q V) (h0 : 0 ≤ cfg.gamma)
    (h1 : cfg.gamma < 1) (hlr : 0 ≤ cfg.lr) (hN : cfg.lr * (if cfg.mean then 1 else (N : ℝ)) ≤ 1) (ht0 : 0 ≤ cfg.tau) (ht1 : cfg.tau ≤ 1)
    (hw₀ : 0 ≤ w₀) (hδ : 0 ≤ δ) (hd : 0 ≤ d) {ev : ℕ → Event S m} (hev : Spec.Data cfg.gamma N w₀ δ V Q ev) (hfair : Spec.Fair P ev) (st : Agent S m)
    (hst : ∀ s a, |st.q s a - Q s a| ≤ δ / (1 - cfg.gamma) + d ∧ |st.target s a - Q s a| ≤ δ / (1 - cfg.gamma) + d) (n : ℕ) :
    ∃ st', st.run cfg ev n = some st' ∧ ∀ k, 2 * P * k ≤ n → ∀ s a,
      |st'.q s a - Q s a| ≤ δ / (1 - cfg.gamma) +
        (1 - cfg.tau * Spec.share cfg N w₀ (δ / (1 - cfg.gamma) + d) * (1 - cfg.gamma)) ^ k * d := by
  choose tr htr using run_some cfg (fun i batch h => (hev i batch h).1) st
  refine ⟨tr n, htr n, fun k hk => core hV h0 h1 hlr hN ht0 ht1 hw₀ hδ hd hev hst htr (fun k => 2 * P * k) (fun k => ?_) (by simp) k n hk⟩
  obtain ⟨i, i0, i1, hi⟩ := (hfair (2 * P * k + P)).2
  refine ⟨2 * P * k + P, (hfair (2 * P * k)).1, i, by omega, i0, ?_, hi⟩
  rw [mul_add]
  omega

/-- The same without a period: if everything is replayed again and again, the values get as close to the optimal ones as the randomness of what is seen
allows. -/
theorem table_eventually [Fintype S] {cfg : Cfg} {N : ℕ} {w₀ δ : ℝ} {V : S → ℝ} {Q : S → Fin m → ℝ} (hV : Iteration.Spec.Max Q V) (h0 : 0 ≤ cfg.gamma)
    (h1 : cfg.gamma < 1) (hlr : 0 < cfg.lr) (hN : cfg.lr * (if cfg.mean then 1 else (N : ℝ)) ≤ 1) (ht0 : 0 < cfg.tau) (ht1 : cfg.tau ≤ 1)
    (hw₀ : 0 < w₀) (hδ : 0 ≤ δ) {ev : ℕ → Event S m} (hev : Spec.Data cfg.gamma N w₀ δ V Q ev) (hag : Spec.Again ev) (st : Agent S m) :
    ∃ tr : ℕ → Agent S m, (∀ n, st.run cfg ev n = some (tr n)) ∧
      ∀ ε > 0, ∃ K, ∀ n ≥ K, ∀ s a, |(tr n).q s a - Q s a| ≤ δ / (1 - cfg.gamma) + ε := by
  choose tr htr using run_some cfg (fun i batch h => (hev i batch h).1) st
  refine ⟨tr, htr, fun ε hε => ?_⟩
  obtain ⟨d1, hd1, hq1⟩ := Iteration.exists_bound fun i : S × Fin m => st.q i.1 i.2 - Q i.1 i.2
  obtain ⟨d2, hd2, hq2⟩ := Iteration.exists_bound fun i : S × Fin m => st.target i.1 i.2 - Q i.1 i.2
  obtain ⟨t, t0, ht⟩ := windows hag
  have he : 0 ≤ δ / (1 - cfg.gamma) := div_nonneg hδ (by linarith)
  have key := core (d := d1 + d2) hV h0 h1 hlr.le hN ht0.le ht1 hw₀.le hδ (by linarith) hev (fun s a => by
    have := hq1 (s, a)
    have := hq2 (s, a)
    simp only at *
    constructor <;> linarith) htr t ht t0
  set κ := Spec.share cfg N w₀ (δ / (1 - cfg.gamma) + (d1 + d2)) with hκ
  by_cases hS : Nonempty S
  · obtain ⟨s⟩ := hS
    obtain ⟨k0, k1, k2⟩ := share_bounds (d := δ / (1 - cfg.gamma) + (d1 + d2)) hlr.le hN hw₀.le hev (by
      obtain ⟨i, _, batch, h, _⟩ := hag.1 s 0 0
      exact ⟨i, batch, h⟩)
    have k2 := k2 hlr hw₀
    obtain ⟨hr0, _⟩ := factor_bounds h0 h1 ht0.le ht1 k0 k1
    have hr1 : 1 - cfg.tau * κ * (1 - cfg.gamma) < 1 := by
      have := mul_pos (mul_pos ht0 k2) (by linarith : 0 < 1 - cfg.gamma)
      rw [hκ]
      linarith
    have hpow := (tendsto_pow_atTop_nhds_zero_of_lt_one hr0 hr1).mul_const (d1 + d2)
    rw [zero_mul] at hpow
    obtain ⟨k, hk⟩ := (hpow.eventually_lt_const hε).exists
    exact ⟨t k, fun n hn s a => (key k n hn s a).trans (by linarith)⟩
  · exact ⟨0, fun n _ s => absurd ⟨s⟩ hS⟩

/-- In a deterministic environment the values tend to the optimal ones, and from some moment on acting greedily is optimal. -/
theorem table_optimal {O : Type} [Fintype O] [Fintype S] {M : Env S (Fin m) O} {cfg : Cfg} {N : ℕ} {w₀ : ℝ} {V : S → ℝ} {Q : S → Fin m → ℝ}
    (hQ : Iteration.Spec.Optimal M cfg.gamma V Q) (hdet : ∀ s a o o', M.prob s a o ≠ 0 → M.prob s a o' ≠ 0 → M.out s a o = M.out s a o')
    (h0 : 0 ≤ cfg.gamma) (h1 : cfg.gamma < 1) (hlr : 0 < cfg.lr) (hN : cfg.lr * (if cfg.mean then 1 else (N : ℝ)) ≤ 1) (ht0 : 0 < cfg.tau)
    (ht1 : cfg.tau ≤ 1) (hw₀ : 0 < w₀) {ev : ℕ → Event S m} (hev : Spec.From M N w₀ ev) (hag : Spec.Again ev) (st : Agent S m) :
    ∃ tr : ℕ → Agent S m, (∀ n, st.run cfg ev n = some (tr n)) ∧ (∀ s a, Tendsto (fun n => (tr n).q s a) atTop (nhds (Q s a))) ∧
      ∃ K, ∀ k ≥ K, ∀ w, Returns.PG.Spec.Proper M w → Iteration.Spec.Greedy w (tr k).q →
        ∀ V' Q', Returns.PG.Spec.Values M w cfg.gamma V' Q' → V' = V ∧ Q' = Q := by
  have hdata : Spec.Data cfg.gamma N w₀ 0 V Q ev := by
    intro i batch hb
    obtain ⟨b1, b2, b3⟩ := hev i batch hb
    refine ⟨b1, b2, fun e he => ?_⟩
    obtain ⟨c1, c2, o, c3, c4⟩ := b3 e he
    refine ⟨c1, c2, ?_⟩
    have : Q e.1.s e.1.a = e.1.out.reward + cfg.gamma * (if e.1.out.done then 0 else V e.1.out.next) := by
      rw [hQ.q, c4]
      have : ∀ o', M.prob e.1.s e.1.a o' * ((M.out e.1.s e.1.a o').reward + cfg.gamma *
          if (M.out e.1.s e.1.a o').done then 0 else V (M.out e.1.s e.1.a o').next) =
          M.prob e.1.s e.1.a o' * ((M.out e.1.s e.1.a o).reward + cfg.gamma *
          if (M.out e.1.s e.1.a o).done then 0 else V (M.out e.1.s e.1.a o).next) := by
        intro o'
        by_cases h : M.prob e.1.s e.1.a o' = 0
        · rw [h]; ring
        · rw [hdet _ _ o' o h c3]
      rw [Finset.sum_congr rfl fun o' _ => this o', ← Finset.sum_mul, M.sum_prob, one_mul]
    rw [this, sub_self, abs_zero]
  obtain ⟨tr, htr, hb⟩ := table_eventually hQ.max h0 h1 hlr hN ht0 ht1 hw₀ le_rfl hdata hag st
  have hlim : ∀ s a, Tendsto (fun n => (tr n).q s a) atTop (nhds (Q s a)) := by
    intro s a
    rw [Metric.tendsto_atTop]
    intro ε hε
    obtain ⟨K, hK⟩ := hb (ε / 2) (by linarith)
    refine ⟨K, fun n hn => ?_⟩
    have := hK n hn s a
    rw [zero_div, zero_add] at this
    rw [Real.dist_eq]
    linarith
  refine ⟨tr, htr, hlim, Iteration.eventually_optimal h0 h1 hQ ?_⟩
  rw [eventually_all]
  intro s
  rw [eventually_all]
  intro a
  by_cases hlt : Q s a < V s
  · obtain ⟨b, hb⟩ := (hQ.max s).1
    rw [← hb] at hlt
    filter_upwards [(hlim s a).eventually_lt (hlim s b) hlt] with k hk _
    exact ⟨b, hk⟩
  · exact Eventually.of_forall fun k h => absurd h hlt

/-- With replay of minibatches that are drawn at random from a buffer with all states and actions, almost surely the values tend to the optimal ones, and
from some moment on acting greedily is optimal. -/
theorem table_replay {Ω : Type} [MeasurableSpace Ω] {μ : Measure Ω} {L B : ℕ} {p : ENNReal} {idx : ℕ → Ω → Fin B → Fin L}
    (hidx : Spec.Sampled μ p idx) (hp : p ≠ 0) (hB : 0 < B) {O : Type} [Fintype O] [Fintype S] {M : Env S (Fin m) O} {cfg : Cfg} {V : S → ℝ}
    {Q : S → Fin m → ℝ} (hQ : Iteration.Spec.Optimal M cfg.gamma V Q)
    (hdet : ∀ s a o o', M.prob s a o ≠ 0 → M.prob s a o' ≠ 0 → M.out s a o = M.out s a o') {data : Fin L → Step S (Fin m)}
    (hdata : ∀ j, ∃ o, M.prob (data j).s (data j).a o ≠ 0 ∧ (data j).out = M.out (data j).s (data j).a o)
    (hall : ∀ s a, ∃ j, (data j).s = s ∧ (data j).a = a) {c : ℕ} (hc : 0 < c) (h0 : 0 ≤ cfg.gamma) (h1 : cfg.gamma < 1) (hlr : 0 < cfg.lr)
    (hN : cfg.lr * (if cfg.mean then 1 else (B : ℝ)) ≤ 1) (ht0 : 0 < cfg.tau) (ht1 : cfg.tau ≤ 1) (st : Agent S m) :
    ∀ᵐ ω ∂μ, ∃ tr : ℕ → Agent S m, (∀ n, st.run cfg (replay data c fun n => idx n ω) n = some (tr n)) ∧
      (∀ s a, Tendsto (fun n => (tr n).q s a) atTop (nhds (Q s a))) ∧
      ∃ K, ∀ k ≥ K, ∀ w, Returns.PG.Spec.Proper M w → Iteration.Spec.Greedy w (tr k).q →
        ∀ V' Q', Returns.PG.Spec.Values M w cfg.gamma V' Q' → V' = V ∧ Q' = Q := by
  have hev : ∀ j, ∀ᵐ ω ∂μ, ∀ k, ∃ n ≥ k, ∃ b, idx n ω b = j := by
    intro j
    have hms : MeasurableSet {f : Fin B → Fin L | ∃ b, f b = j} := by
      have : {f : Fin B → Fin L | ∃ b, f b = j} = ⋃ b, (fun f : Fin B → Fin L => f b) ⁻¹' {j} := by ext f; simp
      rw [this]
      exact MeasurableSet.iUnion fun b => measurable_pi_apply b (measurableSet_singleton j)
    have hm : ∀ n, MeasurableSet {ω | ∃ b, idx n ω b = j} := fun n => hidx.measurable n hms
    have hi : iIndepSet (fun n => {ω | ∃ b, idx n ω b = j}) μ := by
      rw [iIndepSet_iff_meas_biInter hm]
      intro s
      exact hidx.independent.measure_inter_preimage_eq_mul s (sets := fun _ => {f | ∃ b, f b = j}) fun _ _ => hms
    have := hi.isProbabilityMeasure
    have hsum : (∑' n, μ {ω | ∃ b, idx n ω b = j}) = ⊤ := by
      refine top_le_iff.1 ?_
      rw [← ENNReal.tsum_const_eq_top_of_ne_zero (α := ℕ) hp]
      exact ENNReal.tsum_le_tsum fun n => hidx.likely n j
    have h := (mem_ae_iff_prob_eq_one (MeasurableSet.measurableSet_limsup hm)).2 (measure_limsup_eq_one hm hi hsum)
    filter_upwards [h] with ω hω k
    rw [mem_limsup_iff_frequently_mem, frequently_atTop] at hω
    exact hω k
  filter_upwards [ae_all_iff.2 hev] with ω hω
  refine table_optimal (N := B) (w₀ := 1) hQ hdet h0 h1 hlr hN ht0 ht1 one_pos ?_ ⟨fun s a k => ?_, fun k => ?_⟩ st
  · intro i batch h
    unfold replay at h
    split at h
    · cases h
    · cases h
      refine ⟨?_, by simp, ?_⟩
      · rw [← List.length_pos_iff]
        simpa using hB
      · intro e he
        obtain ⟨j, _, rfl⟩ := List.mem_map.1 he
        exact ⟨le_rfl, le_rfl, hdata j⟩
  · obtain ⟨j, hj⟩ := hall s a
    obtain ⟨n, hn, b, hb⟩ := hω j k
    have hlt : n % c < c + 1 := (Nat.mod_lt n hc).trans (Nat.lt_succ_self c)
    have e1 : (n / c * (c + 1) + n % c) % (c + 1) = n % c := by rw [Nat.mul_add_mod_self_right, Nat.mod_eq_of_lt hlt]
    have e2 : (n / c * (c + 1) + n % c) / (c + 1) = n / c := by
      rw [Nat.add_comm, Nat.add_mul_div_right _ _ (Nat.succ_pos c), Nat.div_eq_of_lt hlt, zero_add]
    have e3 : n / c * c + n % c = n := Nat.div_add_mod' n c
    refine ⟨n / c * (c + 1) + n % c, ?_, _, by rw [replay, e1, e2, e3, if_neg (Nat.mod_lt n hc).ne], (data j, 1), ?_, hj⟩
    · refine hn.trans ?_
      conv_lhs => rw [← e3]
      exact Nat.add_le_add_right (Nat.mul_le_mul_left _ (Nat.le_succ c)) _
    · rw [List.mem_map]
      exact ⟨j, by rw [List.mem_ofFn']; exact ⟨b, hb⟩, rfl⟩
  · refine ⟨k * (c + 1) + c, ?_, ?_⟩
    · have : k * (c + 1) = k * c + k := by ring
      omega
    · rw [replay, Nat.mul_add_mod_self_right, Nat.mod_eq_of_lt (Nat.lt_succ_self c), if_pos rfl]

/-- Values that are not replayed do not change. -/
theorem unseen_unchanged (cfg : Cfg) {ev : ℕ → Event S m} (st : Agent S m) {n : ℕ} {s : S} {a : Fin m}
    (hunseen : ∀ i < n, ∀ batch, ev i = .update batch → batch ≠ [] ∧ ∀ e ∈ batch, ¬ (e.1.s = s ∧ e.1.a = a)) :
    ∃ st', st.run cfg ev n = some st' ∧ st'.q s a = st.q s a := by
  induction n with
  | zero => exact ⟨st, rfl, rfl⟩
  | succ n ih =>
    obtain ⟨st', h, hq⟩ := ih fun i hi => hunseen i (by omega)
    simp only [Agent.run, h, Option.bind_some]
    cases he : ev n with
    | sync => exact ⟨_, rfl, hq⟩
    | update batch =>
      obtain ⟨hne, hb⟩ := hunseen n (by omega) batch he
      obtain ⟨Vt, hVt⟩ := Iteration.max_exists st'.target
      simp only [Agent.step, targets_eq hVt hne, Option.map_some]
      refine ⟨_, rfl, ?_⟩
      simp only
      rw [sgd_eq cfg batch (goal cfg.gamma Vt), ← hq]
      have : (batch.map fun e => weightOf cfg batch.length s a e * slope cfg.clipDelta (st'.q s a - goal cfg.gamma Vt e.1)).sum = 0 := by
        refine List.sum_eq_zero fun x hx => ?_
        obtain ⟨e, he, rfl⟩ := List.mem_map.1 hx
        rw [weightOf, if_neg (hb e he), zero_mul]
      rw [this, sub_zero]

end

/-! ## Limits -/

/-- One state and one action, with the rewards `r`, all of them terminal or none; the target model is updated after every update. -/
noncomputable def bandit (done : Bool) (r : ℕ → ℝ) (n : ℕ) : Event Unit 1 :=
  if n % 2 = 0 then .update [(⟨(), 0, ⟨r (n / 2), done, false, ()⟩⟩, 1)] else .sync

theorem bandit_fair (done : Bool) (r : ℕ → ℝ) : Spec.Fair 2 (bandit done r) := by
  intro k
  rcases Nat.mod_two_eq_zero_or_one k with h | h
  · refine ⟨fun s a => ⟨k, _, le_rfl, by omega, by rw [bandit, if_pos h], ?_⟩, k + 1, by omega, by omega, ?_⟩
    · exact ⟨_, List.mem_singleton.2 rfl, rfl, by omega⟩
    · simp only [bandit]
      rw [if_neg (by omega)]
  · refine ⟨fun s a => ⟨k + 1, _, by omega, by omega, by rw [bandit, if_pos (by omega)], ?_⟩, k, by omega, by omega, ?_⟩
    · exact ⟨_, List.mem_singleton.2 rfl, rfl, by omega⟩
    · simp only [bandit]
      rw [if_neg (by omega)]

theorem Spec.Fair.again {P : ℕ} {ev : ℕ → Event S m} (h : Spec.Fair P ev) : Spec.Again ev := by
  refine ⟨fun s a k => ?_, fun k => ?_⟩
  · obtain ⟨i, batch, i0, _, h⟩ := (h k).1 s a
    exact ⟨i, i0, batch, h⟩
  · obtain ⟨i, i0, _, h⟩ := (h k).2
    exact ⟨i, i0, h⟩

theorem bandit_run {cfg : Cfg} (hc : cfg.clipDelta = false) {r f : ℕ → ℝ} (hf : ∀ n, f (n + 1) = f n - cfg.lr * (f n - r n)) {st : Agent Unit 1}
    (hst : st.q () 0 = f 0) (n : ℕ) : ∃ st', st.run cfg (bandit true r) (2 * n) = some st' ∧ st'.q () 0 = f n := by
  induction n with
  | zero => exact ⟨st, rfl, hst⟩
  | succ n ih =>
    obtain ⟨st', h, hq⟩ := ih
    have e1 : bandit true r (2 * n) = .update [(⟨(), 0, ⟨r n, true, false, ()⟩⟩, 1)] := by
      rw [bandit, if_pos (by omega), Nat.mul_div_cancel_left _ (by norm_num)]
    have e2 : bandit true r (2 * n + 1) = .sync := by rw [bandit, if_neg (by omega)]
    obtain ⟨Vt, hVt⟩ := Iteration.max_exists st'.target
    have e3 : 2 * (n + 1) = 2 * n + 1 + 1 := by omega
    rw [e3]
    simp only [Agent.run, h, Option.bind_some, e1, e2, Agent.step, targets_eq hVt (List.cons_ne_nil _ _), Option.map_some]
    refine ⟨_, rfl, ?_⟩
    simp only
    rw [sgd_eq cfg _ (goal cfg.gamma Vt)]
    cases hm : cfg.mean <;> simp [weightOf, slope, hc, hm, goal, hq, hf n]

/-- With a learning rate above the bound the values may grow without bound, although the environment is deterministic and everything is replayed. -/
theorem large_learning_rate : ∃ (cfg : Cfg) (ev : ℕ → Event Unit 1) (st : Agent Unit 1), cfg.lr = 3 ∧ cfg.mean = true ∧ cfg.gamma = 0 ∧
    Spec.Fair 2 ev ∧ Spec.Data 0 1 1 0 (fun _ => 0) (fun _ _ => 0) ev ∧ ∀ n, ∃ st', st.run cfg ev (2 * n) = some st' ∧ |st'.q () 0| = 2 ^ n := by
  refine ⟨⟨0, 3, 1, false, true⟩, bandit true fun _ => 0, ⟨fun _ _ => 1, fun _ _ => 1⟩, rfl, rfl, rfl, bandit_fair _ _, ?_, fun n => ?_⟩
  · intro i batch h
    unfold bandit at h
    split at h
    · cases h
      simp
    · cases h
  · obtain ⟨st', h, hq⟩ := bandit_run (cfg := ⟨0, 3, 1, false, true⟩) rfl (r := fun _ => 0) (f := fun n => (-2) ^ n) (fun n => by rw [pow_succ]; ring)
      (st := ⟨fun _ _ => 1, fun _ _ => 1⟩) (by simp) n
    exact ⟨st', h, by rw [hq]; simp [abs_pow]⟩

/-- With random rewards and a constant learning rate the values need not converge: here the rewards are 1 and -1 in turn, and so is the value. -/
theorem noise_remains : ∃ (cfg : Cfg) (ev : ℕ → Event Unit 1) (st : Agent Unit 1), cfg.lr = 1 ∧ cfg.mean = true ∧ cfg.gamma = 0 ∧
    Spec.Fair 2 ev ∧ Spec.Data 0 1 1 1 (fun _ => 0) (fun _ _ => 0) ev ∧ ∀ n, ∃ st', st.run cfg ev (2 * (n + 1)) = some st' ∧ st'.q () 0 = (-1) ^ n := by
  refine ⟨⟨0, 1, 1, false, true⟩, bandit true fun n => (-1) ^ n, ⟨fun _ _ => 0, fun _ _ => 0⟩, rfl, rfl, rfl, bandit_fair _ _, ?_, fun n => ?_⟩
  · intro i batch h
    unfold bandit at h
    split at h
    · cases h
      simp [abs_pow]
    · cases h
  · exact bandit_run (cfg := ⟨0, 1, 1, false, true⟩) rfl (r := fun n => (-1) ^ n) (f := fun n => if n = 0 then 0 else (-1) ^ (n - 1))
      (fun n => by simp) (st := ⟨fun _ _ => 0, fun _ _ => 0⟩) (by simp) (n + 1)

/-! ## Non-vacuity -/

/-- Clipped losses, a learning rate of 1/2 and a reward of 1 forever: the hypotheses of the theorems can be met. -/
example : ∃ tr : ℕ → Agent Unit 1, (∀ n, Agent.run ⟨1 / 2, 1 / 2, 1 / 4, true, true⟩ (bandit false fun _ => 1) ⟨fun _ _ => 0, fun _ _ => 7⟩ n = some (tr n)) ∧
    Tendsto (fun n => (tr n).q () 0) atTop (nhds 2) := by
  obtain ⟨tr, h, hl, _⟩ := table_optimal (S := Unit) (m := 1) (O := Unit) (M := ⟨fun _ _ _ => 1, fun _ _ _ => ⟨1, false, false, ()⟩, by simp⟩)
    (cfg := ⟨1 / 2, 1 / 2, 1 / 4, true, true⟩) (N := 1) (w₀ := 1) (V := fun _ => 2) (Q := fun _ _ => 2)
    ⟨by intro s a; norm_num, fun s => by simp [IsGreatest, upperBounds]⟩ (by simp) (by norm_num) (by norm_num) (by norm_num) (by norm_num) (by norm_num) (by norm_num)
    one_pos (ev := bandit false fun _ => 1) (by
      intro i batch h
      unfold bandit at h
      split at h
      · cases h
        simp
      · cases h) (bandit_fair _ _).again ⟨fun _ _ => 0, fun _ _ => 7⟩
  exact ⟨tr, h, hl () 0⟩

/-- Indices of minibatches of one transition, drawn uniformly from two. -/
noncomputable def coins : Measure (ℕ → Fin 1 → Fin 2) := Measure.infinitePi fun _ => Measure.pi fun _ => (PMF.uniformOfFintype (Fin 2)).toMeasure

theorem coins_sampled : Spec.Sampled coins (1 / 2) fun n ω => ω n := by
  refine ⟨fun n => measurable_pi_apply n, iIndepFun_infinitePi (X := fun _ x => x) (fun _ => measurable_id), fun n j => ?_⟩
  have h : {ω : ℕ → Fin 1 → Fin 2 | ∃ b, ω n b = j} = (fun ω => ω n) ⁻¹' {fun _ => j} := by
    ext ω
    simp only [Set.mem_preimage, Set.mem_singleton_iff]
    constructor
    · rintro ⟨b, hb⟩
      funext b'
      rw [Subsingleton.elim b' b, hb]
    · intro hb
      exact ⟨0, by rw [hb]⟩
  rw [h, ← Measure.map_apply (measurable_pi_apply n) (measurableSet_singleton _), coins, Measure.infinitePi_map_eval, Measure.pi_singleton]
  simp

/-- Two actions with rewards 0 and 1, and a buffer with one transition of each. -/
example : ∀ᵐ ω ∂coins, ∃ tr : ℕ → Agent Unit 2,
    (∀ n, Agent.run ⟨1 / 2, 1 / 2, 1 / 4, true, true⟩
      (replay (fun j : Fin 2 => ⟨(), j, ⟨j.val, true, false, ()⟩⟩) 3 ω) ⟨fun _ _ => 5, fun _ _ => 7⟩ n = some (tr n)) ∧
    Tendsto (fun n => (tr n).q () 1) atTop (nhds 1) := by
  have h := table_replay coins_sampled (by norm_num) one_pos (S := Unit) (m := 2) (O := Unit)
    (M := ⟨fun _ _ _ => 1, fun _ j _ => ⟨j.val, true, false, ()⟩, by simp⟩) (cfg := ⟨1 / 2, 1 / 2, 1 / 4, true, true⟩) (V := fun _ => 1)
    (Q := fun _ j => j.val) ⟨by simp, fun s => ⟨⟨1, by simp⟩, by rintro _ ⟨j, rfl⟩; fin_cases j <;> simp⟩⟩ (by simp)
    (data := fun j : Fin 2 => ⟨(), j, ⟨j.val, true, false, ()⟩⟩) (by simp) (fun _ a => ⟨a, rfl, rfl⟩) (c := 3) (by norm_num) (by norm_num) (by norm_num)
    (by norm_num) (by norm_num) (by norm_num) (by norm_num) ⟨fun _ _ => 5, fun _ _ => 7⟩
  filter_upwards [h] with ω ⟨tr, h1, h2, _⟩
  exact ⟨tr, h1, by simpa using h2 () 1⟩

/-- An action that is never replayed keeps its value. -/
example (cfg : Cfg) : ∃ st', Agent.run (S := Bool) (m := 2) cfg (fun _ => .update [(⟨true, 0, ⟨1, false, false, false⟩⟩, 1)])
    ⟨fun _ _ => 5, fun _ _ => 0⟩ 100 = some st' ∧ st'.q true 1 = 5 :=
  unseen_unchanged cfg _ fun i _ batch h => by cases h; simp

end Pfrl.Value.Table
