import Verif.Value.Targets
import Mathlib.Analysis.SpecialFunctions.Log.Deriv
import Mathlib.Analysis.Calculus.Deriv.Pow
import Mathlib.Algebra.BigOperators.Group.List.Lemmas

/-!
# Losses of the Q-learning family (C85)

The predictions and targets of the networks for the experiences of a minibatch are given numbers.  Tensors are lists; a minibatch is a list of
rows, one per experience, each with the weight it got from the replay buffer.  Numbers are exact.
-/

namespace Pfrl.Value.Loss

/-! ## Model -/

/-- An experience of the minibatch: what is predicted, the target, and its weight. -/
structure Row (Y T : Type _) where
  y : Y
  t : T
  w : ℝ

/-- The reductions `"mean"` and `"sum"` of a vector. -/
noncomputable def reduce (mean : Bool) (xs : List ℝ) : ℝ := if mean then xs.sum / xs.length else xs.sum

/-- `compute_value_loss`, `pfrl/agents/dqn.py:43-67`. -/
noncomputable def valueLoss (clipDelta mean : Bool) (rows : List (Row ℝ ℝ)) : ℝ :=
  if clipDelta then reduce mean (rows.map fun r => smoothL1 r.y r.t)
  else reduce mean (rows.map fun r => (r.y - r.t) ^ 2) / 2

/-- `compute_weighted_value_loss`, `pfrl/agents/dqn.py:70-105`. -/
noncomputable def weightedValueLoss (clipDelta mean : Bool) (rows : List (Row ℝ ℝ)) : ℝ :=
  let losses := if clipDelta then rows.map fun r => smoothL1 r.y r.t else rows.map fun r => (r.y - r.t) ^ 2 / 2
  let lossSum := (List.zipWith (· * ·) losses (rows.map Row.w)).sum
  if mean then lossSum / rows.length else lossSum

/-- What `DQN._compute_loss` writes to `errors_out`, `pfrl/agents/dqn.py:447-454`. -/
noncomputable def errors (rows : List (Row ℝ ℝ)) : List ℝ := rows.map fun r => |r.y - r.t|

/-- `torch.clamp(y, 1e-10, 1.0)`. -/
noncomputable def clampProb (y : ℝ) : ℝ := min (max y (1 / 10 ^ 10)) 1

/-- A row of `eltwise_loss` of categorical DQN, `pfrl/agents/categorical_dqn.py:183`. -/
noncomputable def crossEntropy (r : Row (List ℝ) (List ℝ)) : List ℝ :=
  List.zipWith (fun y t => -t * Real.log (clampProb y)) r.y r.t

/-- `compute_value_loss`, `pfrl/agents/categorical_dqn.py:60-76`. -/
noncomputable def categoricalLoss (mean : Bool) (rows : List (Row (List ℝ) (List ℝ))) : ℝ :=
  if mean then ((rows.map fun r => (crossEntropy r).sum).sum) / rows.length
  else ((rows.map crossEntropy).flatten).sum

/-- `compute_weighted_value_loss`, `pfrl/agents/categorical_dqn.py:79-102`. -/
noncomputable def weightedCategoricalLoss (mean : Bool) (rows : List (Row (List ℝ) (List ℝ))) : ℝ :=
  let lossSum := (List.zipWith (· * ·) (rows.map fun r => (crossEntropy r).sum) (rows.map (·.w))).sum
  if mean then lossSum / rows.length else lossSum

/-- The errors of categorical DQN, `pfrl/agents/categorical_dqn.py:185-192`. -/
noncomputable def categoricalErrors (rows : List (Row (List ℝ) (List ℝ))) : List ℝ := rows.map fun r => (crossEntropy r).sum

/-- `compute_eltwise_huber_quantile_loss` for one example, `pfrl/agents/iqn.py:176-208`: the predictions are paired with their thresholds. -/
noncomputable def quantileLosses (r : Row (List (ℝ × ℝ)) (List ℝ)) : List (List ℝ) :=
  r.y.map fun y => r.t.map fun t => quantileHuber y.1 t y.2

/-- `mean` of a vector. -/
noncomputable def avg (xs : List ℝ) : ℝ := xs.sum / xs.length

/-- `eltwise_loss.mean(2).sum(1)` for one example. -/
noncomputable def quantileLoss (r : Row (List (ℝ × ℝ)) (List ℝ)) : ℝ := ((quantileLosses r).map avg).sum

/-- `compute_value_loss`, `pfrl/agents/iqn.py:211-231`.  With `"mean"`, `mean((0, 2)).sum()` divides the sum of each slice `[:, i, :]` by the
batch size times `N'`; written with `nPrime`, the common number of targets, and with the sum taken example by example. -/
noncomputable def iqnLoss (mean : Bool) (nPrime : Nat) (rows : List (Row (List (ℝ × ℝ)) (List ℝ))) : ℝ :=
  if mean then (rows.map fun r => ((quantileLosses r).map fun s => s.sum / ((rows.length : ℝ) * (nPrime : ℝ))).sum).sum
  else (rows.map quantileLoss).sum

/-- `compute_weighted_value_loss`, `pfrl/agents/iqn.py:234-255`. -/
noncomputable def weightedIqnLoss (mean : Bool) (rows : List (Row (List (ℝ × ℝ)) (List ℝ))) : ℝ :=
  let lossSum := (List.zipWith (· * ·) (rows.map quantileLoss) (rows.map (·.w))).sum
  if mean then lossSum / rows.length else lossSum

/-- The errors of IQN, `pfrl/agents/iqn.py:385-389`: `mean((1, 2))`. -/
noncomputable def iqnErrors (rows : List (Row (List (ℝ × ℝ)) (List ℝ))) : List ℝ := rows.map fun r => avg (quantileLosses r).flatten

/-! ## Specification -/

/-- A list of probabilities. -/
def Spec.IsDistribution (p : List ℝ) : Prop := (∀ x ∈ p, 0 ≤ x) ∧ p.sum = 1

/-! ## Lemmas -/

section Reduce
variable {R : Type _}

theorem zip_sum (F : R → ℝ) (w : R → ℝ) (rows : List R) :
    (List.zipWith (· * ·) (rows.map F) (rows.map w)).sum = (rows.map fun r => F r * w r).sum := by
  induction rows with
  | nil => rfl
  | cons r rows ih => simp only [List.map_cons, List.zipWith_cons_cons, List.sum_cons, ih]

theorem sum_ones (F : R → ℝ) (w : R → ℝ) (rows : List R) (h : ∀ r ∈ rows, w r = 1) :
    (rows.map fun r => F r * w r).sum = (rows.map F).sum := by
  congr 1
  apply List.map_congr_left
  intro r hr
  rw [h r hr, mul_one]

theorem sum_div_const (F : R → ℝ) (c : ℝ) (rows : List R) : (rows.map fun r => F r / c).sum = (rows.map F).sum / c := by
  induction rows with
  | nil => simp
  | cons r rows ih => rw [List.map_cons, List.sum_cons, ih, List.map_cons, List.sum_cons, add_div]

theorem sum_one_changes (F : R → ℝ) (pre post : List R) (g : ℝ → R) {f' x : ℝ} (h : HasDerivAt (fun y => F (g y)) f' x) :
    HasDerivAt (fun y => ((pre ++ g y :: post).map F).sum) f' x := by
  have e : (fun y => ((pre ++ g y :: post).map F).sum) = fun y => (pre.map F).sum + (F (g y) + (post.map F).sum) := by
    funext y
    rw [List.map_append, List.map_cons, List.sum_append, List.sum_cons]
  rw [e]
  exact (h.add_const _).const_add _

end Reduce

theorem smoothL1_deriv (y t : ℝ) : HasDerivAt (fun z => smoothL1 z t) (max (-1) (min 1 (y - t))) y := by
  rw [hasDerivAt_iff_isLittleO_nhds_zero]
  refine (Asymptotics.IsBigO.of_bound 1 (Filter.Eventually.of_forall fun h => ?_)).trans_isLittleO
    (Asymptotics.isLittleO_pow_id (one_lt_two))
  rw [Real.norm_eq_abs, Real.norm_eq_abs, abs_of_nonneg (sq_nonneg h), smul_eq_mul, one_mul]
  exact smoothL1_quadratic y h t

theorem halfSq_deriv (y t : ℝ) : HasDerivAt (fun z => (z - t) ^ 2 / 2) (y - t) y := by
  have h := (((hasDerivAt_id y).sub_const t).pow 2).div_const 2
  have e : ((2 : ℕ) : ℝ) * (id y - t) ^ (2 - 1) * 1 / 2 = y - t := by
    simp
  rw [e] at h
  exact h

/-- The loss of one row. -/
noncomputable def rowLoss (clipDelta : Bool) (r : Row ℝ ℝ) : ℝ := if clipDelta then smoothL1 r.y r.t else (r.y - r.t) ^ 2 / 2

theorem valueLoss_eq (clipDelta mean : Bool) (rows : List (Row ℝ ℝ)) :
    valueLoss clipDelta mean rows = (rows.map (rowLoss clipDelta)).sum / (if mean then (rows.length : ℝ) else 1) := by
  unfold valueLoss reduce
  cases clipDelta <;> cases mean <;> simp only [Bool.false_eq_true, if_false, if_true, List.length_map, div_one]
  · exact (sum_div_const _ _ _).symm
  · rw [div_right_comm]
    congr 1
    exact (sum_div_const _ _ _).symm
  · rfl
  · rfl

theorem weightedValueLoss_eq (clipDelta mean : Bool) (rows : List (Row ℝ ℝ)) :
    weightedValueLoss clipDelta mean rows =
      (rows.map fun r => rowLoss clipDelta r * r.w).sum / (if mean then (rows.length : ℝ) else 1) := by
  unfold weightedValueLoss
  have : (if clipDelta then rows.map fun r => smoothL1 r.y r.t else rows.map fun r => (r.y - r.t) ^ 2 / 2) =
      rows.map (rowLoss clipDelta) := by
    cases clipDelta <;> rfl
  rw [this]
  simp only [zip_sum]
  cases mean <;> simp only [Bool.false_eq_true, if_false, if_true, div_one]

theorem rowLoss_deriv (clipDelta : Bool) (r : Row ℝ ℝ) :
    HasDerivAt (fun x => rowLoss clipDelta { r with y := x })
      (if clipDelta then max (-1) (min 1 (r.y - r.t)) else r.y - r.t) r.y := by
  cases clipDelta
  · exact halfSq_deriv r.y r.t
  · exact smoothL1_deriv r.y r.t

theorem length_insert {R : Type _} (pre post : List R) (r : R) : ((pre ++ r :: post).length : ℝ) = pre.length + 1 + post.length := by
  rw [List.length_append, List.length_cons]
  push_cast
  ring

theorem clampProb_pos (y : ℝ) : 0 < clampProb y := lt_min (lt_of_lt_of_le (by positivity) (le_max_right _ _)) one_pos

theorem clampProb_le_one (y : ℝ) : clampProb y ≤ 1 := min_le_right _ _

theorem clampProb_le {y : ℝ} (h : 0 ≤ y) : clampProb y ≤ y + 1 / 10 ^ 10 := by
  refine le_trans (min_le_left _ _) (max_le ?_ ?_)
  · linarith [show (0 : ℝ) < 1 / 10 ^ 10 by positivity]
  · linarith

theorem le_clampProb {y : ℝ} (h : y ≤ 1) : y ≤ clampProb y := le_min (le_max_left _ _) h

/-- The term of an atom is never negative. -/
theorem term_nonneg {t : ℝ} (ht : 0 ≤ t) (y : ℝ) : 0 ≤ -t * Real.log (clampProb y) := by
  have := Real.log_nonpos (clampProb_pos y).le (clampProb_le_one y)
  nlinarith

/-- Gibbs' inequality for an atom: `t log (t / c) ≥ t - c`. -/
theorem gibbs_term {t c : ℝ} (ht : 0 ≤ t) (hc : 0 < c) : t - c ≤ t * Real.log t - t * Real.log c := by
  rcases ht.eq_or_lt with rfl | ht
  · simp only [zero_mul, sub_zero]
    linarith
  · have h := Real.log_le_sub_one_of_pos (div_pos hc ht)
    rw [Real.log_div hc.ne' ht.ne'] at h
    have h2 : t * (c / t) = c := by field_simp
    nlinarith

/-- Summed over the atoms: predicting the target itself is at least as good as any other prediction, up to the clamping. -/
theorem crossEntropy_gibbs : ∀ (y t : List ℝ), y.length = t.length → (∀ x ∈ y, 0 ≤ x) → (∀ x ∈ t, 0 ≤ x ∧ x ≤ 1) →
    (List.zipWith (fun y t => -t * Real.log (clampProb y)) t t).sum ≤
      (List.zipWith (fun y t => -t * Real.log (clampProb y)) y t).sum + (y.sum - t.sum) + t.length * (1 / 10 ^ 10) := by
  intro y
  induction y with
  | nil =>
    intro t hl _ _
    rw [List.length_nil] at hl
    rw [List.eq_nil_of_length_eq_zero hl.symm]
    simp
  | cons a y ih =>
    intro t hl hy ht
    cases t with
    | nil => simp at hl
    | cons b t =>
      have hb := ht b List.mem_cons_self
      have ha := hy a List.mem_cons_self
      have h1 := ih t (by simpa using hl) (fun x hx => hy x (List.mem_cons_of_mem _ hx)) (fun x hx => ht x (List.mem_cons_of_mem _ hx))
      have h2 : -b * Real.log (clampProb b) ≤ -(b * Real.log b) := by
        rcases hb.1.eq_or_lt with hb0 | hb0
        · rw [← hb0]; simp
        · have := Real.log_le_log hb0 (le_clampProb hb.2)
          nlinarith
      have h3 := gibbs_term hb.1 (clampProb_pos a)
      have h4 := clampProb_le ha
      simp only [List.zipWith_cons_cons, List.sum_cons, List.length_cons]
      push_cast
      nlinarith

theorem zipWith_sum_nonneg (y t : List ℝ) (ht : ∀ x ∈ t, 0 ≤ x) :
    0 ≤ (List.zipWith (fun y t => -t * Real.log (clampProb y)) y t).sum := by
  induction y generalizing t with
  | nil => simp
  | cons a y ih =>
    cases t with
    | nil => simp
    | cons b t =>
      rw [List.zipWith_cons_cons, List.sum_cons]
      have := ih t fun x hx => ht x (List.mem_cons_of_mem _ hx)
      have := term_nonneg (ht b List.mem_cons_self) a
      linarith

theorem sum_flatten (l : List (List ℝ)) : l.flatten.sum = (l.map List.sum).sum := by
  induction l with
  | nil => rfl
  | cons x l ih => rw [List.flatten_cons, List.sum_append, ih, List.map_cons, List.sum_cons]

/-! ## C85 -/

/-- **C85 (unit weights).** With all weights equal to one the weighted losses of DQN, categorical DQN and IQN are the unweighted ones, with both
reductions. -/
theorem unit_weights (mean : Bool) :
    (∀ (clipDelta : Bool) (rows : List (Row ℝ ℝ)), (∀ r ∈ rows, r.w = 1) →
      weightedValueLoss clipDelta mean rows = valueLoss clipDelta mean rows) ∧
    (∀ rows : List (Row (List ℝ) (List ℝ)), (∀ r ∈ rows, r.w = 1) → weightedCategoricalLoss mean rows = categoricalLoss mean rows) ∧
    (∀ (nPrime : Nat) (rows : List (Row (List (ℝ × ℝ)) (List ℝ))), (∀ r ∈ rows, r.w = 1 ∧ r.t.length = nPrime) →
      weightedIqnLoss mean rows = iqnLoss mean nPrime rows) := by
  refine ⟨fun clipDelta rows h => ?_, fun rows h => ?_, fun nPrime rows h => ?_⟩
  · rw [weightedValueLoss_eq, valueLoss_eq, sum_ones _ _ _ h]
  · unfold weightedCategoricalLoss categoricalLoss
    simp only [zip_sum, sum_ones (fun r => (crossEntropy r).sum) (fun r => r.w) rows h]
    cases mean
    · simp only [Bool.false_eq_true, if_false]
      rw [sum_flatten, List.map_map]
      rfl
    · rfl
  · unfold weightedIqnLoss iqnLoss
    simp only [zip_sum, sum_ones quantileLoss (fun r => r.w) rows fun r hr => (h r hr).1]
    cases mean
    · rfl
    · simp only [if_true]
      rw [← sum_div_const]
      congr 1
      apply List.map_congr_left
      intro r hr
      unfold quantileLoss
      rw [← sum_div_const]
      congr 1
      apply List.map_congr_left
      intro s hs
      obtain ⟨y, _, rfl⟩ := List.mem_map.mp hs
      unfold avg
      rw [List.length_map, (h r hr).2, div_div, mul_comm]

/-- Three different losses for one TD error of 3, and for no error. -/
example : weightedValueLoss true false [⟨5, 2, 1⟩, ⟨7, 7, 1⟩] = 5 / 2 ∧ weightedValueLoss false false [⟨5, 2, 1⟩, ⟨7, 7, 1⟩] = 9 / 2 := by
  rw [(unit_weights false).1 true _ (by simp), (unit_weights false).1 false _ (by simp)]
  unfold valueLoss reduce smoothL1
  constructor <;> norm_num

/-- **C85 (gradients of DQN's loss).** In any minibatch, the gradient of the weighted loss by the prediction for one experience is the weight of
that experience times its TD error, clipped to `[-1, 1]` if `clip_delta` is on, and divided by the size of the minibatch if the
reduction is `"mean"`: no experience is affected by the targets or weights of another. -/
theorem weighted_loss_gradient (clipDelta mean : Bool) (pre post : List (Row ℝ ℝ)) (r : Row ℝ ℝ) :
    HasDerivAt (fun x => weightedValueLoss clipDelta mean (pre ++ { r with y := x } :: post))
      (r.w * (if clipDelta then max (-1) (min 1 (r.y - r.t)) else r.y - r.t) /
        (if mean then (pre.length + 1 + post.length : ℝ) else 1)) r.y := by
  have e : (fun x => weightedValueLoss clipDelta mean (pre ++ { r with y := x } :: post)) = fun x =>
      ((pre ++ { r with y := x } :: post).map fun r => rowLoss clipDelta r * r.w).sum /
        (if mean then (pre.length + 1 + post.length : ℝ) else 1) := by
    funext x
    rw [weightedValueLoss_eq, length_insert]
  rw [e]
  apply HasDerivAt.div_const
  apply sum_one_changes (fun r => rowLoss clipDelta r * r.w) pre post (fun x => { r with y := x })
  rw [mul_comm]
  exact (rowLoss_deriv clipDelta r).mul_const r.w

/-- A TD error of 3 with weight 1/2 in a minibatch of two: clipped to 1, so the gradient is 1/4. -/
example : HasDerivAt (fun x => weightedValueLoss true true ([⟨0, 9, 7⟩] ++ ⟨x, 2, 1 / 2⟩ :: [])) (1 / 4) 5 := by
  have := weighted_loss_gradient true true [⟨0, 9, 7⟩] [] ⟨5, 2, 1 / 2⟩
  norm_num at this ⊢
  exact this

theorem sum_map_deriv {A : Type _} (f : A → ℝ → ℝ) (f' : A → ℝ) (x : ℝ) (l : List A) (h : ∀ a ∈ l, HasDerivAt (f a) (f' a) x) :
    HasDerivAt (fun y => (l.map fun a => f a y).sum) (l.map f').sum x := by
  induction l with
  | nil => exact hasDerivAt_const _ _
  | cons a l ih =>
    simp only [List.map_cons, List.sum_cons]
    exact (h a List.mem_cons_self).add (ih fun b hb => h b (List.mem_cons_of_mem _ hb))

/-- **C85 (gradients of IQN's loss).** The gradient of the weighted loss by the quantile predicted for one experience at threshold `tau` is the
weight times the average, over the target quantiles of the same experience, of the error clipped to `[-1, 1]` times `1 - tau` or `tau`,
divided by the size of the minibatch if the reduction is `"mean"`. -/
theorem iqn_loss_gradient (mean : Bool) (pre post : List (Row (List (ℝ × ℝ)) (List ℝ))) (preY postY : List (ℝ × ℝ)) (y tau : ℝ)
    (h0 : 0 < tau) (h1 : tau < 1) (t : List ℝ) (w : ℝ) :
    HasDerivAt (fun x => weightedIqnLoss mean (pre ++ ⟨preY ++ (x, tau) :: postY, t, w⟩ :: post))
      (w * ((t.map fun t => (if t < y then 1 - tau else tau) * max (-1) (min 1 (y - t))).sum / t.length) /
        (if mean then (pre.length + 1 + post.length : ℝ) else 1)) y := by
  have e : (fun x => weightedIqnLoss mean (pre ++ ⟨preY ++ (x, tau) :: postY, t, w⟩ :: post)) = fun x =>
      ((pre ++ ⟨preY ++ (x, tau) :: postY, t, w⟩ :: post).map fun r => quantileLoss r * r.w).sum /
        (if mean then (pre.length + 1 + post.length : ℝ) else 1) := by
    funext x
    unfold weightedIqnLoss
    simp only [zip_sum, length_insert]
    cases mean <;> simp only [Bool.false_eq_true, if_false, if_true, div_one]
  rw [e]
  apply HasDerivAt.div_const
  apply sum_one_changes (fun r => quantileLoss r * r.w) pre post (fun x => ⟨preY ++ (x, tau) :: postY, t, w⟩)
  rw [mul_comm]
  apply HasDerivAt.mul_const
  have e2 : (fun x => quantileLoss ⟨preY ++ (x, tau) :: postY, t, w⟩) = fun x =>
      ((preY ++ (x, tau) :: postY).map fun z => avg (t.map fun t => quantileHuber z.1 t z.2)).sum := by
    funext x
    unfold quantileLoss quantileLosses
    rw [List.map_map]
    rfl
  rw [e2]
  apply sum_one_changes (fun z : ℝ × ℝ => avg (t.map fun t => quantileHuber z.1 t z.2)) preY postY (fun x => (x, tau))
  unfold avg
  simp only [List.length_map]
  apply HasDerivAt.div_const
  exact sum_map_deriv (fun t x => quantileHuber x t tau) _ y t fun u _ => (quantile_huber tau h0 h1).2.2.2 y u

/-- **C85 (errors).** The errors written for the replay buffer are one per experience, in the order of the minibatch, and never
negative; DQN's are the sizes of the TD errors. -/
theorem errors_per_experience :
    (∀ rows : List (Row ℝ ℝ), (errors rows).length = rows.length ∧
      ∀ (i : Nat) r, rows[i]? = some r → ∃ e, (errors rows)[i]? = some e ∧ 0 ≤ e ∧ (e = 0 ↔ r.y = r.t) ∧ e = |r.y - r.t|) ∧
    (∀ rows : List (Row (List ℝ) (List ℝ)), (∀ r ∈ rows, Spec.IsDistribution r.t) → (categoricalErrors rows).length = rows.length ∧
      ∀ (i : Nat) r, rows[i]? = some r → ∃ e, (categoricalErrors rows)[i]? = some e ∧ 0 ≤ e ∧
        e = (List.zipWith (fun y t => t * -Real.log (clampProb y)) r.y r.t).sum) ∧
    (∀ rows : List (Row (List (ℝ × ℝ)) (List ℝ)), (iqnErrors rows).length = rows.length ∧
      ∀ (i : Nat) r, rows[i]? = some r → ∃ e, (iqnErrors rows)[i]? = some e ∧ 0 ≤ e ∧
        e = ((r.y.map fun y => (r.t.map fun t => quantileHuber y.1 t y.2).sum).sum) / (r.y.length * r.t.length)) := by
  refine ⟨fun rows => ⟨List.length_map _, fun i r hr => ?_⟩, fun rows hd => ⟨List.length_map _, fun i r hr => ?_⟩,
    fun rows => ⟨List.length_map _, fun i r hr => ?_⟩⟩
  · refine ⟨|r.y - r.t|, ?_, abs_nonneg _, ?_, rfl⟩
    · unfold errors
      rw [List.getElem?_map, hr]
      rfl
    · rw [abs_eq_zero, sub_eq_zero]
  · refine ⟨(crossEntropy r).sum, ?_, zipWith_sum_nonneg _ _ (hd r (List.mem_of_getElem? hr)).1, ?_⟩
    · unfold categoricalErrors
      rw [List.getElem?_map, hr]
      rfl
    · unfold crossEntropy
      congr 2
      funext y t
      ring
  · have e : avg (quantileLosses r).flatten =
        ((r.y.map fun y => (r.t.map fun t => quantileHuber y.1 t y.2).sum).sum) / (r.y.length * r.t.length) := by
      unfold avg
      rw [sum_flatten]
      congr 1
      · unfold quantileLosses
        rw [List.map_map]
        rfl
      · unfold quantileLosses
        rw [List.length_flatten, List.map_map]
        have : (List.map (List.length ∘ fun y : ℝ × ℝ => r.t.map fun t => quantileHuber y.1 t y.2) r.y) = r.y.map fun _ => r.t.length := by
          apply List.map_congr_left
          intro y _
          exact List.length_map _
        rw [this, List.map_const', List.sum_replicate, smul_eq_mul]
        push_cast
        rfl
    refine ⟨avg (quantileLosses r).flatten, ?_, ?_, e⟩
    · unfold iqnErrors
      rw [List.getElem?_map, hr]
      rfl
    · rw [e]
      refine div_nonneg (List.sum_nonneg ?_) (by positivity)
      intro x hx
      obtain ⟨y, _, rfl⟩ := List.mem_map.mp hx
      apply List.sum_nonneg
      intro x hx
      obtain ⟨t, _, rfl⟩ := List.mem_map.mp hx
      exact mul_nonneg (abs_nonneg _) (smoothL1_nonneg _ _)

/-- Two experiences, two errors. -/
example : errors [⟨5, 2, 1⟩, ⟨7, 8, 3⟩] = [3, 1] := by
  unfold errors
  norm_num

/-- **C85 (categorical DQN aims at its target).** For target probabilities `t`, no prediction `y` has a loss lower than that of predicting `t` itself by
more than `1e-10` per atom (the clamping of `y`). -/
theorem categorical_loss_optimal (y t : List ℝ) (w w' : ℝ) (hl : y.length = t.length) (hy : Spec.IsDistribution y)
    (ht : Spec.IsDistribution t) :
    categoricalLoss true [⟨t, t, w⟩] ≤ categoricalLoss true [⟨y, t, w'⟩] + t.length * (1 / 10 ^ 10) := by
  have hle : ∀ x ∈ t, 0 ≤ x ∧ x ≤ 1 := by
    intro x hx
    refine ⟨ht.1 x hx, ?_⟩
    rw [← ht.2]
    exact List.single_le_sum ht.1 x hx
  have h := crossEntropy_gibbs y t hl hy.1 hle
  rw [hy.2, ht.2, sub_self, add_zero] at h
  unfold categoricalLoss crossEntropy
  simp only [if_true, List.map_cons, List.map_nil, List.sum_cons, List.sum_nil, List.length_cons, List.length_nil]
  norm_num at h ⊢
  exact h

/-- A target that is not certain, and a different prediction. -/
example : Spec.IsDistribution [1 / 4, 3 / 4] ∧ Spec.IsDistribution [1, 0] := by
  constructor
  · constructor
    · intro x hx
      simp only [List.mem_cons, List.not_mem_nil, or_false] at hx
      rcases hx with rfl | rfl <;> norm_num
    · norm_num
  · constructor
    · intro x hx
      simp only [List.mem_cons, List.not_mem_nil, or_false] at hx
      rcases hx with rfl | rfl <;> norm_num
    · norm_num

end Pfrl.Value.Loss
