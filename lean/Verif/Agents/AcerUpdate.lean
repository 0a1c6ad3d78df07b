import Verif.Returns.Acer
import Mathlib.Analysis.SpecialFunctions.Log.Deriv
import Mathlib.Analysis.SpecialFunctions.ExpDeriv
import Mathlib.Analysis.Calculus.FDeriv.Add
import Mathlib.Analysis.Calculus.FDeriv.Mul
import Mathlib.Analysis.Calculus.FDeriv.Pi
import Mathlib.MeasureTheory.Integral.Pi
import Mathlib.MeasureTheory.Constructions.Pi

/-!
# The policy update of ACER

Model of `compute_policy_gradient_loss`, `compute_loss_with_kl_constraint` and
`ACER.compute_one_step_pi_loss` (`pfrl/agents/acer.py`) for categorical policies, as functions of the
parameters of the network, and of `ACERContinuousActionHead`.  Automatic differentiation is trusted to
compute derivatives; what the code computes under `no_grad` or passes as a float is a constant: the
argument `l0` below, as opposed to `l`.
-/

namespace Pfrl.Agents.AcerUpdate

open Finset
open Pfrl.Returns (trustRegionStep)

variable {n : ℕ} {E : Type _} [NormedAddCommGroup E] [NormedSpace ℝ E]

/-! ## Model -/

/-- `torch.distributions.Categorical(logits=x)`: its attribute `logits`, which is also what
`get_params_of_distribution` returns (`acer.py:172-181`): `x - logsumexp(x)`. -/
noncomputable def normalise (x : Fin n → ℝ) : Fin n → ℝ := fun b => x b - Real.log (∑ i, Real.exp (x i))

/-- `Categorical.probs`: the softmax of `logits`. -/
noncomputable def probs (l : Fin n → ℝ) : Fin n → ℝ := fun b => Real.exp (l b) / ∑ i, Real.exp (l i)

/-- `Categorical.entropy()`. -/
noncomputable def entropy (l : Fin n → ℝ) : ℝ := -∑ b, l b * probs l b

/-- `torch.distributions.kl_divergence(p, q)` of two categorical distributions. -/
noncomputable def kl (p q : Fin n → ℝ) : ℝ := ∑ b, probs p b * (p b - q b)

/-- `compute_importance`, `acer.py:16-18`, and `compute_full_importance`, `acer.py:21-27`, for one action. -/
noncomputable def importance (p m : Fin n → ℝ) (b : Fin n) : ℝ := Real.exp (p b - m b)

/-- `compute_policy_gradient_full_correction`, `acer.py:30-47`. -/
noncomputable def fullCorrection (m q : Fin n → ℝ) (v c : ℝ) (l0 l : Fin n → ℝ) : ℝ :=
  -∑ b, max (1 - c * importance m l0 b) 0 * probs l0 b * l b * (q b - v)

/-- `compute_policy_gradient_loss`, `acer.py:75-116`; `m` is the distribution of the behaviour policy, if
the update is off-policy. -/
noncomputable def policyLoss (a : Fin n) (advantage : ℝ) (m : Option (Fin n → ℝ)) (q : Fin n → ℝ) (v : ℝ)
    (threshold : Option ℝ) (l0 l : Fin n → ℝ) : ℝ :=
  match m with
  | none => -l a * advantage
  | some m =>
    match threshold with
    | none => -(importance l0 m a * l a * advantage)
    | some c => -(min c (importance l0 m a) * l a * advantage) + fullCorrection m q v c l0 l

/-- `torch.autograd.grad`. -/
noncomputable def grad (F : (Fin n → ℝ) → ℝ) (l0 : Fin n → ℝ) : Fin n → ℝ := fun b => fderiv ℝ F l0 (Pi.single b 1)

/-- `compute_loss_with_kl_constraint`, `acer.py:208-245`. -/
noncomputable def constrainedLoss (F : (Fin n → ℝ) → ℝ) (avg : Fin n → ℝ) (delta : ℝ) (l0 l : Fin n → ℝ) : ℝ :=
  ∑ b, l b * trustRegionStep (grad F l0) (grad (fun l => -kl avg l) l0) delta b

/-- The settings of `ACER` that matter here. -/
structure Cfg where
  threshold : Option ℝ
  useTrustRegion : Bool
  delta : ℝ
  beta : ℝ

/-- `compute_one_step_pi_loss`, `acer.py:423-459`. -/
noncomputable def piLoss (c : Cfg) (a : Fin n) (advantage : ℝ) (m : Option (Fin n → ℝ)) (q : Fin n → ℝ) (v : ℝ)
    (avg l0 l : Fin n → ℝ) : ℝ :=
  (if c.useTrustRegion then constrainedLoss (policyLoss a advantage m q v c.threshold l0) avg c.delta l0 l
    else policyLoss a advantage m q v c.threshold l0 l) - c.beta * entropy l

/-- `ACERContinuousActionHead.forward`, the evaluator, `acer.py:158-163`; `u` are the actions sampled. -/
noncomputable def sampledValue {A : Type _} (v : ℝ) (adv : A → ℝ) {k : ℕ} (u : Fin k → A) (a : A) : ℝ :=
  v + adv a - (∑ j, adv (u j)) / k

/-! ## Specification -/

/-- The policy of a network with outputs `x`. -/
noncomputable def Spec.softmax (x : Fin n → ℝ) (b : Fin n) : ℝ := Real.exp (x b) / ∑ i, Real.exp (x i)

/-- Entropy of a probability vector. -/
noncomputable def Spec.entropy (p : Fin n → ℝ) : ℝ := -∑ b, p b * Real.log (p b)

/-- Kullback-Leibler divergence of probability vectors. -/
noncomputable def Spec.kl (p q : Fin n → ℝ) : ℝ := ∑ b, p b * Real.log (p b / q b)

/-- How far a return of an action is believed rather than the critic: completely without truncation, and
with truncation at `c` in the proportion `min (1, c μ / π)`. -/
noncomputable def Spec.belief (threshold : Option ℝ) (p m : ℝ) : ℝ :=
  match threshold with
  | none => 1
  | some c => min 1 (c * (m / p))

/-! ## Lemmas -/

theorem sum_exp_pos [NeZero n] (x : Fin n → ℝ) : 0 < ∑ i, Real.exp (x i) :=
  sum_pos (fun _ _ => Real.exp_pos _) ⟨0, mem_univ _⟩

theorem exp_normalise [NeZero n] (x : Fin n → ℝ) (b : Fin n) : Real.exp (normalise x b) = Spec.softmax x b := by
  rw [normalise, Real.exp_sub, Real.exp_log (sum_exp_pos x), Spec.softmax]

theorem softmax_pos [NeZero n] (x : Fin n → ℝ) (b : Fin n) : 0 < Spec.softmax x b :=
  div_pos (Real.exp_pos _) (sum_exp_pos x)

theorem softmax_sum [NeZero n] (x : Fin n → ℝ) : ∑ b, Spec.softmax x b = 1 := by
  simp only [Spec.softmax]
  rw [← sum_div, div_self (sum_exp_pos x).ne']

theorem normalise_eq_log [NeZero n] (x : Fin n → ℝ) (b : Fin n) : normalise x b = Real.log (Spec.softmax x b) := by
  rw [← exp_normalise, Real.log_exp]

theorem probs_normalise [NeZero n] (x : Fin n → ℝ) : probs (normalise x) = Spec.softmax x := by
  funext b
  simp only [probs, exp_normalise, softmax_sum, div_one]

theorem entropy_normalise [NeZero n] (x : Fin n → ℝ) : entropy (normalise x) = Spec.entropy (Spec.softmax x) := by
  simp only [entropy, Spec.entropy, probs_normalise, normalise_eq_log, mul_comm]

theorem kl_normalise [NeZero n] (x y : Fin n → ℝ) : kl (normalise x) (normalise y) = Spec.kl (Spec.softmax x) (Spec.softmax y) := by
  simp only [kl, Spec.kl, probs_normalise, normalise_eq_log]
  exact sum_congr rfl fun b _ => by rw [Real.log_div (softmax_pos x b).ne' (softmax_pos y b).ne']

theorem hasFDerivAt_normalise [NeZero n] {x : E → Fin n → ℝ} {θ₀ : E} (hx : ∀ b, DifferentiableAt ℝ (fun θ => x θ b) θ₀) (b : Fin n) :
    HasFDerivAt (fun θ => normalise (x θ) b) (fderiv ℝ (fun θ => normalise (x θ) b) θ₀) θ₀ := by
  apply DifferentiableAt.hasFDerivAt
  simp only [normalise]
  refine (hx b).sub (DifferentiableAt.log ?_ (sum_exp_pos (x θ₀)).ne')
  exact DifferentiableAt.fun_sum fun i _ => (hx i).exp

/-- The derivative of a weighted sum of log-probabilities. -/
theorem hasFDerivAt_weighted {l : E → Fin n → ℝ} {θ₀ : E} {D : Fin n → E →L[ℝ] ℝ} (hD : ∀ b, HasFDerivAt (fun θ => l θ b) (D b) θ₀) (w : Fin n → ℝ) :
    HasFDerivAt (fun θ => ∑ b, l θ b * w b) (∑ b, w b • D b) θ₀ :=
  HasFDerivAt.fun_sum fun b _ => (hD b).mul_const (w b)

/-- The coefficients of the policy loss. -/
noncomputable def coef (a : Fin n) (advantage : ℝ) (m : Option (Fin n → ℝ)) (q : Fin n → ℝ) (v : ℝ) (threshold : Option ℝ) (l0 : Fin n → ℝ) (b : Fin n) : ℝ :=
  match m with
  | none => -(if b = a then advantage else 0)
  | some m =>
    match threshold with
    | none => -(if b = a then importance l0 m a * advantage else 0)
    | some c => -(if b = a then min c (importance l0 m a) * advantage else 0) - max (1 - c * importance m l0 b) 0 * probs l0 b * (q b - v)

theorem policyLoss_eq (a : Fin n) (advantage : ℝ) (m : Option (Fin n → ℝ)) (q : Fin n → ℝ) (v : ℝ) (threshold : Option ℝ) (l0 l : Fin n → ℝ) :
    policyLoss a advantage m q v threshold l0 l = ∑ b, l b * coef a advantage m q v threshold l0 b := by
  rcases m with _ | m
  · simp [policyLoss, coef]
  · rcases threshold with _ | c
    · simp only [policyLoss, coef, mul_neg, sum_neg_distrib, mul_ite, mul_zero, sum_ite_eq', mem_univ, if_true]
      ring
    · simp only [policyLoss, coef, fullCorrection, mul_sub, mul_neg, sum_sub_distrib, sum_neg_distrib, mul_ite, mul_zero, sum_ite_eq', mem_univ, if_true]
      rw [← sum_sub_distrib, sub_eq_add_neg]
      refine congrArg₂ (· + ·) (by ring) (congrArg Neg.neg ?_)
      rw [← sum_sub_distrib]
      exact sum_congr rfl fun b _ => by ring

theorem grad_linear (w l0 : Fin n → ℝ) (k : ℝ) : grad (fun l => (∑ b, l b * w b) + k) l0 = w := by
  funext b
  have h := (hasFDerivAt_weighted (l := fun l : Fin n → ℝ => l) (fun i => hasFDerivAt_apply (𝕜 := ℝ) i l0) w).add_const k
  rw [grad, h.fderiv]
  simp [Pi.single_apply]

theorem grad_policyLoss (a : Fin n) (advantage : ℝ) (m : Option (Fin n → ℝ)) (q : Fin n → ℝ) (v : ℝ) (threshold : Option ℝ) (l0 l1 : Fin n → ℝ) :
    grad (policyLoss a advantage m q v threshold l0) l1 = coef a advantage m q v threshold l0 := by
  have := grad_linear (coef a advantage m q v threshold l0) l1 0
  simp only [add_zero] at this
  rw [← this]
  congr 1
  funext l
  exact policyLoss_eq a advantage m q v threshold l0 l

theorem grad_kl (avg l1 : Fin n → ℝ) : grad (fun l => -kl avg l) l1 = probs avg := by
  have := grad_linear (probs avg) l1 (-∑ b, probs avg b * avg b)
  rw [← this]
  congr 1
  funext l
  simp only [kl, mul_sub, sum_sub_distrib]
  rw [sum_congr rfl fun b _ => mul_comm (probs avg b) (l b)]
  ring

theorem hasFDerivAt_entropy [NeZero n] {x : E → Fin n → ℝ} {θ₀ : E} (hx : ∀ b, DifferentiableAt ℝ (fun θ => x θ b) θ₀) :
    HasFDerivAt (fun θ => entropy (normalise (x θ))) (fderiv ℝ (fun θ => entropy (normalise (x θ))) θ₀) θ₀ := by
  apply DifferentiableAt.hasFDerivAt
  have h := fun b => (hasFDerivAt_normalise hx b).differentiableAt
  have e : (fun θ => entropy (normalise (x θ))) = fun θ => -∑ b, normalise (x θ) b * Real.exp (normalise (x θ) b) := by
    funext θ
    simp only [entropy, probs_normalise, exp_normalise]
  rw [e]
  exact (DifferentiableAt.fun_sum fun b _ => (h b).mul (h b).exp).neg

theorem importance_normalise [NeZero n] (x y : Fin n → ℝ) (b : Fin n) : importance (normalise x) (normalise y) b = Spec.softmax x b / Spec.softmax y b := by
  rw [importance, Real.exp_sub, exp_normalise, exp_normalise]

theorem mul_min_ratio (c p m : ℝ) (hp : 0 < p) (hm : 0 < m) : m * min c (p / m) = p * min 1 (c * (m / p)) := by
  rw [mul_min_of_nonneg _ _ hm.le, mul_min_of_nonneg _ _ hp.le, min_comm, mul_div_cancel₀ _ hm.ne', mul_one]
  congr 1
  field_simp

theorem max_ratio (r : ℝ) : max (1 - r) 0 = 1 - min 1 r := by
  rcases le_total r 1 with h | h
  · rw [max_eq_left (by linarith), min_eq_right h]
  · rw [max_eq_right (by linarith), min_eq_left h]; ring

theorem sum_ite_coef (w f : Fin n → ℝ) (b : Fin n) : ∑ a, w a * (if b = a then f a else 0) = w b * f b := by
  simp

/-- The coefficients of the policy loss, on average over the actions of the behaviour policy. -/
theorem mean_coef [NeZero n] (x y Q q : Fin n → ℝ) (v : ℝ) (threshold : Option ℝ) (b : Fin n) :
    ∑ a, Spec.softmax y a * coef a (Q a - v) (some (normalise y)) q v threshold (normalise x) b =
      -(Spec.softmax x b * (Spec.belief threshold (Spec.softmax x b) (Spec.softmax y b) * Q b +
        (1 - Spec.belief threshold (Spec.softmax x b) (Spec.softmax y b)) * q b - v)) := by
  have hp := softmax_pos x b
  have hm := softmax_pos y b
  rcases threshold with _ | c
  · simp only [coef, importance_normalise, Spec.belief, mul_neg, sum_neg_distrib]
    rw [sum_ite_coef (Spec.softmax y) (fun a => Spec.softmax x a / Spec.softmax y a * (Q a - v))]
    have : Spec.softmax y b * (Spec.softmax x b / Spec.softmax y b) = Spec.softmax x b := mul_div_cancel₀ _ hm.ne'
    rw [← mul_assoc, this]
    ring
  · simp only [coef, importance_normalise, Spec.belief, probs_normalise, mul_sub, mul_neg, sum_sub_distrib, sum_neg_distrib, ← sum_mul, softmax_sum, one_mul]
    rw [sum_ite_coef (Spec.softmax y) (fun a => min c (Spec.softmax x a / Spec.softmax y a) * Q a - min c (Spec.softmax x a / Spec.softmax y a) * v),
      max_ratio]
    have := mul_min_ratio c _ _ hp hm
    have e : Spec.softmax y b * (min c (Spec.softmax x b / Spec.softmax y b) * Q b - min c (Spec.softmax x b / Spec.softmax y b) * v) =
      Spec.softmax y b * min c (Spec.softmax x b / Spec.softmax y b) * (Q b - v) := by ring
    rw [e, this]
    ring

theorem mean_coef_on_policy [NeZero n] (x Q q : Fin n → ℝ) (v : ℝ) (threshold : Option ℝ) (b : Fin n) :
    ∑ a, Spec.softmax x a * coef a (Q a - v) none q v threshold (normalise x) b = -(Spec.softmax x b * (Q b - v)) := by
  simp only [coef, mul_neg, sum_neg_distrib]
  rw [sum_ite_coef (Spec.softmax x) (fun a => Q a - v)]

theorem hasFDerivAt_softmax [NeZero n] {x : E → Fin n → ℝ} {θ₀ : E} {D : Fin n → E →L[ℝ] ℝ} (hD : ∀ b, HasFDerivAt (fun θ => normalise (x θ) b) (D b) θ₀) (b : Fin n) :
    HasFDerivAt (fun θ => Spec.softmax (x θ) b) (Spec.softmax (x θ₀) b • D b) θ₀ := by
  have h := (hD b).exp
  simp only [exp_normalise] at h
  exact h

theorem score_mean_zero [NeZero n] {x : E → Fin n → ℝ} {θ₀ : E} {D : Fin n → E →L[ℝ] ℝ} (hD : ∀ b, HasFDerivAt (fun θ => normalise (x θ) b) (D b) θ₀) :
    ∑ b, Spec.softmax (x θ₀) b • D b = 0 := by
  have h := HasFDerivAt.fun_sum (u := univ) fun b _ => hasFDerivAt_softmax hD b
  simp only [softmax_sum] at h
  exact h.unique (hasFDerivAt_const (1 : ℝ) θ₀)

/-- The derivative of a loss with coefficients `-π_b (W_b - v)` is that of `-∑ π_b W_b`. -/
theorem ascends [NeZero n] {x : E → Fin n → ℝ} {θ₀ : E} (hx : ∀ b, DifferentiableAt ℝ (fun θ => x θ b) θ₀) (W : Fin n → ℝ) (v β : ℝ) :
    ∃ L : E →L[ℝ] ℝ,
      HasFDerivAt (fun θ => (∑ b, normalise (x θ) b * -(Spec.softmax (x θ₀) b * (W b - v))) - β * entropy (normalise (x θ))) L θ₀ ∧
      HasFDerivAt (fun θ => -(∑ b, Spec.softmax (x θ) b * W b) - β * Spec.entropy (Spec.softmax (x θ))) L θ₀ := by
  have hD := fun b => hasFDerivAt_normalise hx b
  have hH := (hasFDerivAt_entropy hx).const_mul β
  refine ⟨_, (hasFDerivAt_weighted hD fun b => -(Spec.softmax (x θ₀) b * (W b - v))).fun_sub hH, ?_⟩
  have h2 := (HasFDerivAt.fun_sum (u := univ) fun b _ => (hasFDerivAt_softmax hD b).mul_const (W b)).fun_neg.fun_sub hH
  simp only [entropy_normalise] at h2 ⊢
  have e : (∑ b, -(Spec.softmax (x θ₀) b * (W b - v)) • fderiv ℝ (fun θ => normalise (x θ) b) θ₀) =
      -∑ b, W b • Spec.softmax (x θ₀) b • fderiv ℝ (fun θ => normalise (x θ) b) θ₀ := by
    have h0 := score_mean_zero hD
    have h1 : ∀ b, -(Spec.softmax (x θ₀) b * (W b - v)) • fderiv ℝ (fun θ => normalise (x θ) b) θ₀ =
        v • (Spec.softmax (x θ₀) b • fderiv ℝ (fun θ => normalise (x θ) b) θ₀) - W b • Spec.softmax (x θ₀) b • fderiv ℝ (fun θ => normalise (x θ) b) θ₀ := by
      intro b
      rw [smul_smul, smul_smul, ← sub_smul]
      congr 1
      ring
    rw [sum_congr rfl fun b _ => h1 b, sum_sub_distrib, ← smul_sum, h0, smul_zero, zero_sub]
  rw [e]
  exact h2

/-! ## C124 -/

/-- **C124, what the update climbs.** Take a network whose outputs `x θ` are differentiable in its parameters, an
action `a` drawn from the behaviour policy with logits `y`, the return estimate `Q a` used for it, the
critic `q` and any baseline `v`.  Without a trust region the expected gradient of the policy loss is the
gradient of `-(∑ π_θ(b) W b) - β H(π_θ)`, where `W b` mixes return and critic in the proportion believed:
the baseline does not matter, and with `Q = q` neither does the truncation. -/
theorem acer_expected_update [NeZero n] (c : Cfg) (hc : c.useTrustRegion = false) (x : E → Fin n → ℝ) (θ₀ : E)
    (hx : ∀ b, DifferentiableAt ℝ (fun θ => x θ b) θ₀) (y avg Q q : Fin n → ℝ) (v : ℝ) :
    ∃ L : E →L[ℝ] ℝ,
      HasFDerivAt (fun θ => ∑ a, Spec.softmax y a * piLoss c a (Q a - v) (some (normalise y)) q v avg (normalise (x θ₀)) (normalise (x θ))) L θ₀ ∧
      HasFDerivAt (fun θ => -(∑ b, Spec.softmax (x θ) b *
          (Spec.belief c.threshold (Spec.softmax (x θ₀) b) (Spec.softmax y b) * Q b +
            (1 - Spec.belief c.threshold (Spec.softmax (x θ₀) b) (Spec.softmax y b)) * q b)) - c.beta * Spec.entropy (Spec.softmax (x θ))) L θ₀ := by
  obtain ⟨L, h1, h2⟩ := ascends hx (fun b => Spec.belief c.threshold (Spec.softmax (x θ₀) b) (Spec.softmax y b) * Q b +
    (1 - Spec.belief c.threshold (Spec.softmax (x θ₀) b) (Spec.softmax y b)) * q b) v c.beta
  refine ⟨L, ?_, h2⟩
  have e : (fun θ => ∑ a, Spec.softmax y a * piLoss c a (Q a - v) (some (normalise y)) q v avg (normalise (x θ₀)) (normalise (x θ))) =
      fun θ => (∑ b, normalise (x θ) b * -(Spec.softmax (x θ₀) b * (Spec.belief c.threshold (Spec.softmax (x θ₀) b) (Spec.softmax y b) * Q b +
    (1 - Spec.belief c.threshold (Spec.softmax (x θ₀) b) (Spec.softmax y b)) * q b - v))) - c.beta * entropy (normalise (x θ)) := by
    funext θ
    simp only [piLoss, hc, Bool.false_eq_true, if_false, policyLoss_eq, mul_sub (Spec.softmax y _), sum_sub_distrib, ← sum_mul, softmax_sum, one_mul]
    congr 1
    simp only [mul_sum]
    rw [sum_comm]
    refine sum_congr rfl fun b _ => ?_
    rw [← mean_coef, mul_sum]
    exact sum_congr rfl fun a _ => by ring
  rw [e]
  exact h1

/-- **C124, on-policy.** An action drawn from the policy itself: the expected gradient is that of
`-(∑ π_θ(b) Q b) - β H(π_θ)`. -/
theorem acer_expected_update_on_policy [NeZero n] (c : Cfg) (hc : c.useTrustRegion = false) (x : E → Fin n → ℝ) (θ₀ : E)
    (hx : ∀ b, DifferentiableAt ℝ (fun θ => x θ b) θ₀) (avg Q q : Fin n → ℝ) (v : ℝ) :
    ∃ L : E →L[ℝ] ℝ,
      HasFDerivAt (fun θ => ∑ a, Spec.softmax (x θ₀) a * piLoss c a (Q a - v) none q v avg (normalise (x θ₀)) (normalise (x θ))) L θ₀ ∧
      HasFDerivAt (fun θ => -(∑ b, Spec.softmax (x θ) b * Q b) - c.beta * Spec.entropy (Spec.softmax (x θ))) L θ₀ := by
  obtain ⟨L, h1, h2⟩ := ascends hx Q v c.beta
  refine ⟨L, ?_, h2⟩
  have e : (fun θ => ∑ a, Spec.softmax (x θ₀) a * piLoss c a (Q a - v) none q v avg (normalise (x θ₀)) (normalise (x θ))) =
      fun θ => (∑ b, normalise (x θ) b * -(Spec.softmax (x θ₀) b * (Q b - v))) - c.beta * entropy (normalise (x θ)) := by
    funext θ
    simp only [piLoss, hc, Bool.false_eq_true, if_false, policyLoss_eq, mul_sub (Spec.softmax (x θ₀) _), sum_sub_distrib, ← sum_mul, softmax_sum, one_mul]
    congr 1
    simp only [mul_sum]
    rw [sum_comm]
    refine sum_congr rfl fun b _ => ?_
    rw [← mul_sub, ← mean_coef_on_policy (x θ₀) Q q v c.threshold b, mul_sum]
    exact sum_congr rfl fun a _ => by ring
  rw [e]
  exact h1

/-- **C124, the trust region.** The loss without a trust region and the loss with it are both, as functions of the
outputs `x` of the network, a combination of log-probabilities minus the entropy bonus.  The coefficients
`z` of the second satisfy the linear constraint `∑ avg(b) z b ≤ δ`, are the closest to those of the first
among all that do, and are the same if those do already. -/
theorem acer_trust_region_partial [NeZero n] (c : Cfg) (hc : c.useTrustRegion = true) (a : Fin n) (advantage : ℝ) (m : Option (Fin n → ℝ))
    (q : Fin n → ℝ) (v : ℝ) (w x₀ : Fin n → ℝ) :
    ∃ g z : Fin n → ℝ,
      (∀ x, piLoss { c with useTrustRegion := false } a advantage m q v (normalise w) (normalise x₀) (normalise x) =
        ∑ b, Real.log (Spec.softmax x b) * g b - c.beta * Spec.entropy (Spec.softmax x)) ∧
      (∀ x, piLoss c a advantage m q v (normalise w) (normalise x₀) (normalise x) =
        ∑ b, Real.log (Spec.softmax x b) * z b - c.beta * Spec.entropy (Spec.softmax x)) ∧
      ∑ b, Spec.softmax w b * z b ≤ c.delta ∧
      (∀ z', ∑ b, Spec.softmax w b * z' b ≤ c.delta → z' ≠ z → ∑ b, (z b - g b) ^ 2 < ∑ b, (z' b - g b) ^ 2) ∧
      (∑ b, Spec.softmax w b * g b ≤ c.delta → z = g) := by
  have hp := Returns.trust_region_projection (coef a advantage m q v c.threshold (normalise x₀)) (Spec.softmax w) c.delta
    ⟨fun _ => c.delta, by rw [← sum_mul, softmax_sum, one_mul]⟩
  refine ⟨coef a advantage m q v c.threshold (normalise x₀),
    trustRegionStep (coef a advantage m q v c.threshold (normalise x₀)) (Spec.softmax w) c.delta, fun x => ?_, fun x => ?_, hp.1, hp.2.1, hp.2.2⟩
  · simp only [piLoss, Bool.false_eq_true, if_false, policyLoss_eq, entropy_normalise, normalise_eq_log x]
  · simp only [piLoss, hc, if_true, constrainedLoss, grad_policyLoss, grad_kl, probs_normalise, entropy_normalise, normalise_eq_log x]

/-- **C124, the trust region does not see good actions.** On-policy and with a non-negative advantage the loss is
the same with and without the trust region, whatever the average policy is. -/
theorem acer_trust_region_blind [NeZero n] (c : Cfg) (hδ : 0 ≤ c.delta) (a : Fin n) (advantage : ℝ) (hA : 0 ≤ advantage)
    (q : Fin n → ℝ) (v : ℝ) (w x₀ x : Fin n → ℝ) :
    piLoss c a advantage none q v (normalise w) (normalise x₀) (normalise x) =
      -(advantage * Real.log (Spec.softmax x a)) - c.beta * Spec.entropy (Spec.softmax x) := by
  have hp := (Returns.trust_region_projection (coef a advantage none q v c.threshold (normalise x₀)) (Spec.softmax w) c.delta
    ⟨fun _ => c.delta, by rw [← sum_mul, softmax_sum, one_mul]⟩).2.2 (by
      simp only [coef, mul_neg, sum_neg_distrib, mul_ite, mul_zero, sum_ite_eq', mem_univ, if_true]
      have := mul_nonneg (softmax_pos w a).le hA
      linarith)
  have e : piLoss c a advantage none q v (normalise w) (normalise x₀) (normalise x) =
      (∑ b, normalise x b * coef a advantage none q v c.threshold (normalise x₀) b) - c.beta * entropy (normalise x) := by
    rcases h : c.useTrustRegion
    · simp only [piLoss, h, Bool.false_eq_true, if_false, policyLoss_eq]
    · simp only [piLoss, h, if_true, constrainedLoss, grad_policyLoss, grad_kl, probs_normalise, hp]
  rw [e, ← policyLoss_eq, policyLoss, entropy_normalise, normalise_eq_log]
  ring

/-- **C124, the step can leave the trust region.** Whatever `δ ≥ 0`, there are a policy, an average policy and
an on-policy sample for which a step along the negative gradient of the loss with respect to the outputs of
the network increases `KL(avg ‖ π)` at the rate `δ + 1`, with the trust region in use. -/
theorem acer_trust_region_leaves (c : Cfg) (hβ : c.beta = 0) (hδ : 0 ≤ c.delta) (q : Fin 2 → ℝ) (v : ℝ) :
    ∃ (w x₀ u : Fin 2 → ℝ) (a : Fin 2) (advantage : ℝ),
      HasFDerivAt (fun x => piLoss c a advantage none q v (normalise w) (normalise x₀) (normalise x))
        (-∑ b, u b • ContinuousLinearMap.proj (R := ℝ) (φ := fun _ : Fin 2 => ℝ) b) x₀ ∧
      HasDerivAt (fun s : ℝ => Spec.kl (Spec.softmax w) (Spec.softmax fun b => x₀ b + s * u b)) (c.delta + 1) 0 := by
  refine ⟨fun _ => 0, ![Real.log 3, 0], ![2 * (c.delta + 1), -(2 * (c.delta + 1))], 0, 8 * (c.delta + 1), ?_, ?_⟩
  · have h1 : (fun x => piLoss c 0 (8 * (c.delta + 1)) none q v (normalise fun _ => 0) (normalise ![Real.log 3, 0]) (normalise x)) =
        fun x : Fin 2 → ℝ => -(8 * (c.delta + 1) * (x 0 - Real.log (Real.exp (x 0) + Real.exp (x 1)))) := by
      funext x
      rw [acer_trust_region_blind c hδ 0 _ (by linarith), hβ, ← normalise_eq_log, normalise, Fin.sum_univ_two]
      ring
    rw [h1]
    have p0 := hasFDerivAt_apply (𝕜 := ℝ) (0 : Fin 2) (![Real.log 3, 0] : Fin 2 → ℝ)
    have p1 := hasFDerivAt_apply (𝕜 := ℝ) (1 : Fin 2) (![Real.log 3, 0] : Fin 2 → ℝ)
    have h := ((p0.fun_sub ((p0.exp.fun_add p1.exp).log (by simp; positivity))).const_mul (8 * (c.delta + 1))).fun_neg
    refine h.congr_fderiv ?_
    ext y
    simp only [Matrix.cons_val_zero, Matrix.cons_val_one, Real.exp_log (show (0:ℝ) < 3 by norm_num), Real.exp_zero, Fin.sum_univ_two,
      neg_apply, smul_apply, sub_apply, add_apply, ContinuousLinearMap.proj_apply, smul_eq_mul]
    ring
  · have h1 : (fun s : ℝ => Spec.kl (Spec.softmax fun _ => 0) (Spec.softmax fun b => ![Real.log 3, 0] b + s * ![2 * (c.delta + 1), -(2 * (c.delta + 1))] b)) =
        fun s : ℝ => Real.log (1 / 2) - 1 / 2 * Real.log 3 + Real.log (3 * Real.exp (s * (2 * (c.delta + 1))) + Real.exp (s * -(2 * (c.delta + 1)))) := by
      funext s
      rw [← kl_normalise]
      simp only [kl, probs_normalise, Spec.softmax, normalise, Fin.sum_univ_two, Matrix.cons_val_zero, Matrix.cons_val_one, Real.exp_zero, zero_add, Real.exp_add,
        Real.exp_log (show (0:ℝ) < 3 by norm_num)]
      rw [show (1:ℝ) / 2 = (1 + 1)⁻¹ by norm_num, Real.log_inv]
      norm_num
      ring
    rw [h1]
    have e1 : HasDerivAt (fun s : ℝ => 3 * Real.exp (s * (2 * (c.delta + 1)))) (3 * (Real.exp (0 * (2 * (c.delta + 1))) * (1 * (2 * (c.delta + 1))))) 0 :=
      (((hasDerivAt_id (0:ℝ)).mul_const (2 * (c.delta + 1))).exp).const_mul 3
    have e2 : HasDerivAt (fun s : ℝ => Real.exp (s * -(2 * (c.delta + 1)))) (Real.exp (0 * -(2 * (c.delta + 1))) * (1 * -(2 * (c.delta + 1)))) 0 :=
      ((hasDerivAt_id (0:ℝ)).mul_const (-(2 * (c.delta + 1)))).exp
    have h := ((e1.fun_add e2).log (by simp; norm_num)).const_add (Real.log (1 / 2) - 1 / 2 * Real.log 3)
    refine h.congr_deriv ?_
    simp only [zero_mul, Real.exp_zero, mul_one, one_mul]
    ring

open MeasureTheory in
/-- **C124, the sampled advantage mean.** For actions sampled from the policy, the value `ACERContinuousActionHead`
gives to an action is on average the state value plus the advantage relative to its mean under the policy;
on average over actions of the policy it is the state value. -/
theorem acer_head_unbiased {A : Type _} [MeasurableSpace A] (π : Measure A) [IsProbabilityMeasure π] (v : ℝ) (adv : A → ℝ)
    (h : Integrable adv π) (k : ℕ) (hk : 0 < k) :
    (∀ a, ∫ u, sampledValue v adv u a ∂(Measure.pi fun _ : Fin k => π) = v + (adv a - ∫ b, adv b ∂π)) ∧
      ∫ a, ∫ u, sampledValue v adv u a ∂(Measure.pi fun _ : Fin k => π) ∂π = v := by
  have hi : ∀ j : Fin k, Integrable (fun u : Fin k → A => adv (u j)) (Measure.pi fun _ : Fin k => π) :=
    fun j => integrable_comp_eval (μ := fun _ : Fin k => π) h
  have he : ∀ j : Fin k, ∫ u, adv (u j) ∂(Measure.pi fun _ : Fin k => π) = ∫ b, adv b ∂π :=
    fun j => integral_comp_eval (μ := fun _ : Fin k => π) h.aestronglyMeasurable
  have h1 : ∀ a, ∫ u, sampledValue v adv u a ∂(Measure.pi fun _ : Fin k => π) = v + (adv a - ∫ b, adv b ∂π) := by
    intro a
    simp only [sampledValue]
    rw [integral_sub (integrable_const _) ((integrable_finsetSum _ fun j _ => hi j).div_const _), integral_div, integral_finsetSum _ fun j _ => hi j]
    simp only [he, sum_const, card_univ, Fintype.card_fin, nsmul_eq_mul, integral_const, probReal_univ, one_smul]
    have : (k : ℝ) ≠ 0 := by exact_mod_cast hk.ne'
    field_simp
    ring
  refine ⟨h1, ?_⟩
  simp only [h1]
  have h2 : Integrable (fun a => adv a - ∫ b, adv b ∂π) π := h.sub (integrable_const _)
  rw [integral_add (integrable_const _) h2, integral_sub h (integrable_const _)]
  simp

/-! ## Non-vacuity -/

/-- The table of logits is a network; with threshold 1 the return of an action of probability 3/4, taken with
probability 1/2, is believed for two thirds. -/
example : (∀ b : Fin 2, DifferentiableAt ℝ (fun θ : Fin 2 → ℝ => θ b) ![Real.log 3, 0]) ∧ Spec.belief (some 1) (3 / 4) (1 / 2) = 2 / 3 :=
  ⟨fun b => (hasFDerivAt_apply (𝕜 := ℝ) b _).differentiableAt, by norm_num [Spec.belief]⟩

/-- The trust region does change the loss of a bad action: advantage `-4`, uniform average policy, `δ = 1`. -/
example : trustRegionStep (coef (0 : Fin 2) (-4) none (fun _ => 0) 0 none fun _ => 0) (fun _ => 1 / 2) 1 = ![3, -1] := by
  funext b
  fin_cases b <;> norm_num [trustRegionStep, Returns.kFactor, Returns.vdot, coef, Fin.sum_univ_two]

/-- The settings of the default trust region satisfy the hypotheses. -/
example : ∃ c : Cfg, c.useTrustRegion = true ∧ c.beta = 0 ∧ 0 ≤ c.delta := ⟨⟨some 10, true, 1 / 10, 0⟩, rfl, rfl, by norm_num⟩

end Pfrl.Agents.AcerUpdate
