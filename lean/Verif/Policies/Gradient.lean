import Mathlib.InformationTheory.KullbackLeibler.Basic
import Mathlib.Analysis.Calculus.ParametricIntegral
import Mathlib.Analysis.SpecialFunctions.Gaussian.GaussianIntegral
import Mathlib.Analysis.SpecialFunctions.Log.Deriv
import Mathlib.Analysis.SpecialFunctions.Sqrt
import Verif.Policies.Mode

/-!
# Policy gradients of Gaussian policies (C135)

Continuous actions: the heads of `pfrl/policies/gaussian_policy.py`, the log probabilities, entropies and divergences the agents
compute with them, and the losses of A2C, A3C, REINFORCE, PPO and TRPO.  The action of row k of a batch is drawn from the Gaussian of
row k, independently of the others, and its advantage is a function of the action; where the advantage comes from is modelled in
`Returns/`.  The network is any function of the parameters with its derivative, and numbers are exact.
-/

namespace Pfrl.Policies.Gradient

open MeasureTheory ProbabilityTheory Set Filter Topology
open InformationTheory (klDiv)

set_option linter.unusedSectionVars false

variable {E : Type*} [NormedAddCommGroup E] [NormedSpace ℝ E] {n : ℕ}

/-! ## Model -/

/-- `Independent(Normal(loc, scale), 1).log_prob(action)` of torch, called in `pfrl/agents/a2c.py:179`, `a3c.py:179`,
`reinforce.py:115`, `ppo.py:520` and `trpo.py:454`. -/
noncomputable def logProb (mean scale a : Fin n → ℝ) : ℝ :=
  ∑ i, (-(a i - mean i) ^ 2 / (2 * scale i ^ 2) - Real.log (scale i) - Real.log √(2 * Real.pi))

/-- `Independent(Normal(loc, scale), 1).entropy()` of torch, called in `a2c.py:178`, `a3c.py:180`, `ppo.py:518` and `trpo.py:456`. -/
noncomputable def entropy (scale : Fin n → ℝ) : ℝ := ∑ i, (1 / 2 + 1 / 2 * Real.log (2 * Real.pi) + Real.log (scale i))

/-- `torch.distributions.kl.kl_divergence` of two such distributions, called in `trpo.py:557-561` and `666-670`. -/
noncomputable def kl (mean scale mean' scale' : Fin n → ℝ) : ℝ :=
  ∑ i, 1 / 2 * ((scale i / scale' i) ^ 2 + ((mean i - mean' i) / scale' i) ^ 2 - 1 - Real.log ((scale i / scale' i) ^ 2))

/-- What `backward` adds up for a log probability, given the derivatives of the mean and the scale. -/
noncomputable def logProbGrad (mean scale : Fin n → ℝ) (dmean dscale : Fin n → E →L[ℝ] ℝ) (a : Fin n → ℝ) : E →L[ℝ] ℝ :=
  ∑ i, (((a i - mean i) / scale i ^ 2) • dmean i + ((a i - mean i) ^ 2 / scale i ^ 3 - 1 / scale i) • dscale i)

/-- The same for an entropy. -/
noncomputable def entropyGrad (scale : Fin n → ℝ) (dscale : Fin n → E →L[ℝ] ℝ) : E →L[ℝ] ℝ := ∑ i, (1 / scale i) • dscale i

/-- One row of a batch: the mean and the scale of the policy at an observation as functions of the parameters, and their derivatives as
`backward` computes them. -/
structure Row (E : Type*) [NormedAddCommGroup E] [NormedSpace ℝ E] (n : ℕ) where
  mean : E → Fin n → ℝ
  scale : E → Fin n → ℝ
  dmean : E → Fin n → E →L[ℝ] ℝ
  dscale : E → Fin n → E →L[ℝ] ℝ

/-- The parts of the loss of `A2C.update` that reach the policy, `pfrl/agents/a2c.py:179-198`; the advantages are detached. -/
noncomputable def a2cLoss {B : ℕ} (piCoef entCoef : ℝ) (rows : Fin B → Row E n) (θ : E) (adv : Fin B → ℝ) (a : Fin B → Fin n → ℝ) : ℝ :=
  -((∑ k, adv k * logProb ((rows k).mean θ) ((rows k).scale θ) (a k)) / B) * piCoef - (∑ k, entropy ((rows k).scale θ)) / B * entCoef

/-- The same for `A3C.update`, `pfrl/agents/a3c.py:180-199`, and, with factor `1 / batchsize`, for `REINFORCE.accumulate_grad`,
`pfrl/agents/reinforce.py:181-191`. -/
noncomputable def a3cLoss {B : ℕ} (factor beta : ℝ) (rows : Fin B → Row E n) (θ : E) (adv : Fin B → ℝ) (a : Fin B → Fin n → ℝ) : ℝ :=
  (∑ k, (-adv k * logProb ((rows k).mean θ) ((rows k).scale θ) (a k) - beta * entropy ((rows k).scale θ))) * factor

/-- `TRPO._compute_gain`, `pfrl/agents/trpo.py:415-420`; `old` are the parameters `log_prob_old` was computed with. -/
noncomputable def trpoGain {B : ℕ} (entCoef : ℝ) (rows : Fin B → Row E n) (old θ : E) (adv : Fin B → ℝ) (a : Fin B → Fin n → ℝ) : ℝ :=
  (∑ k, Real.exp (logProb ((rows k).mean θ) ((rows k).scale θ) (a k) - logProb ((rows k).mean old) ((rows k).scale old) (a k)) * adv k) / B
    + entCoef * ((∑ k, entropy ((rows k).scale θ)) / B)

/-- What `loss.backward()` leaves in the gradients of the policy's parameters. -/
noncomputable def backward {B : ℕ} (piCoef entCoef : ℝ) (rows : Fin B → Row E n) (θ : E) (adv : Fin B → ℝ) (a : Fin B → Fin n → ℝ) :
    E →L[ℝ] ℝ :=
  (-(piCoef / B)) • ∑ k, adv k • logProbGrad ((rows k).mean θ) ((rows k).scale θ) ((rows k).dmean θ) ((rows k).dscale θ) (a k)
    - (entCoef / B) • ∑ k, entropyGrad ((rows k).scale θ) ((rows k).dscale θ)

/-- `prob_ratio`, `ppo.py:637`. -/
noncomputable def ratio (r : Row E n) (old θ : E) (a : Fin n → ℝ) : ℝ :=
  Real.exp (logProb (r.mean θ) (r.scale θ) a - logProb (r.mean old) (r.scale old) a)

/-- The parts of the loss of PPO that reach the policy, `PPO._lossfun`, `pfrl/agents/ppo.py:634-672`. -/
noncomputable def ppoLoss {B : ℕ} (clipEps entCoef : ℝ) (rows : Fin B → Row E n) (old θ : E) (adv : Fin B → ℝ) (a : Fin B → Fin n → ℝ) : ℝ :=
  (-((∑ k, min (ratio (rows k) old θ (a k) * adv k) (max (1 - clipEps) (min (ratio (rows k) old θ (a k)) (1 + clipEps)) * adv k)) / B))
    + entCoef * (-((∑ k, entropy ((rows k).scale θ)) / B))

/-- The derivative of `softplus` as torch computes it, with the same threshold. -/
noncomputable def softplusGrad (x : ℝ) : ℝ := if 20 < x then 1 else Real.exp x / (1 + Real.exp x)

/-- `GaussianHeadWithDiagonalCovariance.forward`, `pfrl/policies/gaussian_policy.py:76-92`, and
`GaussianHeadWithStateIndependentCovariance.forward`, lines 45-58, with the default `var_func`, after a network computing `mean` and,
for the second, with `pre` the parameter of the head (`spherical`: the same for all i). -/
noncomputable def softplusRow (mean pre : E → Fin n → ℝ) (dmean dpre : E → Fin n → E →L[ℝ] ℝ) : Row E n where
  mean := mean
  scale θ i := √(softplus (pre θ i))
  dmean := dmean
  dscale θ i := (1 / (2 * √(softplus (pre θ i))) * softplusGrad (pre θ i)) • dpre θ i

/-- `GaussianHeadWithFixedCovariance.forward`, `gaussian_policy.py:111-123`. -/
def fixedRow (scale : ℝ) (mean : E → Fin n → ℝ) (dmean : E → Fin n → E →L[ℝ] ℝ) : Row E n where
  mean := mean
  scale _ _ := scale
  dmean := dmean
  dscale _ _ := 0

/-! ## Specification -/

/-- The distribution actions are drawn from: independent Gaussians. -/
noncomputable def Spec.policy (mean scale : Fin n → ℝ) : Measure (Fin n → ℝ) := Policies.Spec.law (.independent (.normal mean scale))

/-- The entropy of a distribution of actions: minus the mean of the logarithm of its density. -/
noncomputable def Spec.entropy (μ : Measure (Fin n → ℝ)) : ℝ := -∫ a, Real.log (μ.rnDeriv volume a).toReal ∂μ

/-- The actions of a batch: each drawn from the policy at its own observation. -/
noncomputable def Spec.actions {B : ℕ} (rows : Fin B → Row E n) (θ : E) : Measure (Fin B → Fin n → ℝ) :=
  Measure.pi fun k => Spec.policy ((rows k).mean θ) ((rows k).scale θ)

/-- What the agent should climb: the mean advantage the policy gets, plus the mean entropy, each with its coefficient. -/
noncomputable def Spec.objective {B : ℕ} (piCoef entCoef : ℝ) (rows : Fin B → Row E n) (adv : Fin B → (Fin n → ℝ) → ℝ) (θ : E) : ℝ :=
  piCoef * ((∑ k, ∫ a, adv k a ∂Spec.policy ((rows k).mean θ) ((rows k).scale θ)) / B)
    + entCoef * ((∑ k, Spec.entropy (Spec.policy ((rows k).mean θ) ((rows k).scale θ))) / B)

/-- `backward` of the network is right, and the scale is a scale. -/
structure Spec.Right (r : Row E n) (θ : E) : Prop where
  mean : ∀ i, HasFDerivAt (fun θ => r.mean θ i) (r.dmean θ i) θ
  scale : ∀ i, HasFDerivAt (fun θ => r.scale θ i) (r.dscale θ i) θ
  pos : ∀ i, 0 < r.scale θ i

/-- An advantage that can be averaged: measurable, and not growing faster than an exponential in the size of the action. -/
structure Spec.Moderate (f : (Fin n → ℝ) → ℝ) : Prop where
  measurable : Measurable f
  growth : ∃ Bd, ∀ a, |f a| ≤ Bd * Real.exp (∑ i, |a i|)

/-! ## Lemmas -/

theorem exp_logProb (m s a : Fin n → ℝ) (hs : ∀ i, 0 < s i) :
    Real.exp (logProb m s a) = ∏ i, gaussianPDFReal (m i) (s i ^ 2).toNNReal (a i) := by
  rw [logProb, Real.exp_sum]
  refine Finset.prod_congr rfl fun i _ => ?_
  have hv : ((s i ^ 2).toNNReal : ℝ) = s i ^ 2 := Real.coe_toNNReal _ (sq_nonneg _)
  have hp := hs i
  rw [gaussianPDFReal, hv, sub_sub, Real.exp_sub, Real.exp_add, Real.exp_log hp, Real.exp_log (by positivity),
    Real.sqrt_mul (show (0 : ℝ) ≤ 2 * Real.pi by positivity) (s i ^ 2), Real.sqrt_sq hp.le, div_eq_inv_mul, mul_comm (s i)]

theorem continuous_logProb (m s : Fin n → ℝ) : Continuous (logProb m s) := by
  unfold logProb
  fun_prop

theorem policy_withDensity (m s : Fin n → ℝ) (hs : ∀ i, 0 < s i) :
    Spec.policy m s = volume.withDensity fun a => ENNReal.ofReal (Real.exp (logProb m s a)) := by
  have h := pi_density fun i => gaussian_density (m i) (hs i)
  ext t ht
  rw [withDensity_apply _ ht]
  have := h.density t (by simp [Set.subset_def]) ht
  simp only [exp_logProb m s _ hs]
  exact this

instance (m s : Fin n → ℝ) : IsProbabilityMeasure (Spec.policy m s) := by
  show IsProbabilityMeasure (Measure.pi _)
  infer_instance

theorem meas_dens (m s : Fin n → ℝ) : Measurable fun a => ENNReal.ofReal (Real.exp (logProb m s a)) :=
  (ENNReal.continuous_ofReal.comp (Real.continuous_exp.comp (continuous_logProb m s))).measurable

section
variable {F : Type*} [NormedAddCommGroup F] [NormedSpace ℝ F]

theorem int_policy (m s : Fin n → ℝ) (hs : ∀ i, 0 < s i) (g : (Fin n → ℝ) → F) :
    ∫ a, g a ∂Spec.policy m s = ∫ a, Real.exp (logProb m s a) • g a := by
  rw [policy_withDensity m s hs, integral_withDensity_eq_integral_toReal_smul (meas_dens m s) (by simp)]
  simp only [ENNReal.toReal_ofReal (Real.exp_pos _).le]

theorem integrable_policy (m s : Fin n → ℝ) (hs : ∀ i, 0 < s i) (g : (Fin n → ℝ) → F) :
    Integrable g (Spec.policy m s) ↔ Integrable fun a => Real.exp (logProb m s a) • g a := by
  rw [policy_withDensity m s hs, integrable_withDensity_iff_integrable_smul' (meas_dens m s) (by simp)]
  simp only [ENNReal.toReal_ofReal (Real.exp_pos _).le]

end

/-! ### Entropy and divergence -/

theorem int_coord (m s : Fin n → ℝ) (i : Fin n) {g : ℝ → ℝ} (hg : Integrable g (gaussianReal (m i) (s i ^ 2).toNNReal)) :
    Integrable (fun a : Fin n → ℝ => g (a i)) (Spec.policy m s) ∧
      ∫ a, g (a i) ∂Spec.policy m s = ∫ x, g x ∂gaussianReal (m i) (s i ^ 2).toNNReal := by
  have h := measurePreserving_eval (fun i => gaussianReal (m i) (s i ^ 2).toNNReal) i
  refine ⟨h.integrable_comp_of_integrable hg, ?_⟩
  have h2 := integral_map h.measurable.aemeasurable (f := g) (by rw [h.map_eq]; exact hg.aestronglyMeasurable)
  rw [h.map_eq] at h2
  exact h2.symm

theorem second_moment (m s c : ℝ) : Integrable (fun x => (x - c) ^ 2) (gaussianReal m (s ^ 2).toNNReal) ∧
    ∫ x, (x - c) ^ 2 ∂gaussianReal m (s ^ 2).toNNReal = s ^ 2 + (m - c) ^ 2 := by
  have h2 : MemLp (fun x : ℝ => x) 2 (gaussianReal m (s ^ 2).toNNReal) := memLp_id_gaussianReal 2
  have hi : Integrable (fun x : ℝ => x) (gaussianReal m (s ^ 2).toNNReal) := h2.integrable (by norm_num)
  have hsq : Integrable (fun x : ℝ => x ^ 2) (gaussianReal m (s ^ 2).toNNReal) := h2.integrable_sq
  have e : (fun x : ℝ => (x - c) ^ 2) = fun x => x ^ 2 - 2 * c * x + c ^ 2 := by funext x; ring
  have hint : Integrable (fun x : ℝ => x ^ 2 - 2 * c * x) (gaussianReal m (s ^ 2).toNNReal) := hsq.sub (hi.const_mul _)
  refine ⟨by rw [e]; exact hint.add (integrable_const _), ?_⟩
  have hv := variance_fun_id_gaussianReal (μ := m) (v := (s ^ 2).toNNReal)
  rw [variance_eq_sub h2, integral_id_gaussianReal, Real.coe_toNNReal _ (sq_nonneg s)] at hv
  have hv' : ∫ x, x ^ 2 ∂gaussianReal m (s ^ 2).toNNReal = s ^ 2 + m ^ 2 := by
    have : ∫ x, x ^ 2 ∂gaussianReal m (s ^ 2).toNNReal - m ^ 2 = s ^ 2 := hv
    linarith
  rw [e, integral_add hint (integrable_const _), integral_sub hsq (hi.const_mul _), integral_const_mul, integral_id_gaussianReal, hv']
  simp
  ring

/-- The expected log-probability under another Gaussian. -/
theorem int_logProb (m s m' s' : Fin n → ℝ) :
    Integrable (logProb m' s') (Spec.policy m s) ∧ ∫ a, logProb m' s' a ∂Spec.policy m s =
      ∑ i, (-(s i ^ 2 + (m i - m' i) ^ 2) / (2 * s' i ^ 2) - Real.log (s' i) - Real.log √(2 * Real.pi)) := by
  have h1 : ∀ i, Integrable (fun x : ℝ => -(x - m' i) ^ 2 / (2 * s' i ^ 2) - Real.log (s' i) - Real.log √(2 * Real.pi))
      (gaussianReal (m i) (s i ^ 2).toNNReal) := fun i =>
    ((((second_moment (m i) (s i) (m' i)).1.neg.div_const _).sub (integrable_const _)).sub (integrable_const _))
  refine ⟨integrable_finsetSum _ fun i _ => (int_coord m s i (h1 i)).1, ?_⟩
  simp only [logProb]
  rw [integral_finsetSum _ fun i _ => (int_coord m s i (h1 i)).1]
  refine Finset.sum_congr rfl fun i _ => ?_
  have h2 := second_moment (m i) (s i) (m' i)
  have h3 : Integrable (fun x : ℝ => -(x - m' i) ^ 2 / (2 * s' i ^ 2)) (gaussianReal (m i) (s i ^ 2).toNNReal) := h2.1.neg.div_const _
  have h4 : Integrable (fun x : ℝ => -(x - m' i) ^ 2 / (2 * s' i ^ 2) - Real.log (s' i)) (gaussianReal (m i) (s i ^ 2).toNNReal) :=
    h3.sub (integrable_const _)
  rw [(int_coord m s i (h1 i)).2, integral_sub h4 (integrable_const _), integral_sub h3 (integrable_const _),
    integral_div, integral_neg, h2.2]
  simp

theorem ac (m s m' s' : Fin n → ℝ) (hs : ∀ i, 0 < s i) (hs' : ∀ i, 0 < s' i) :
    Spec.policy m s = (Spec.policy m' s').withDensity fun a => ENNReal.ofReal (Real.exp (logProb m s a - logProb m' s' a)) := by
  rw [policy_withDensity m s hs, policy_withDensity m' s' hs']
  have hm : Measurable fun a => ENNReal.ofReal (Real.exp (logProb m s a - logProb m' s' a)) :=
    (ENNReal.continuous_ofReal.comp (Real.continuous_exp.comp ((continuous_logProb m s).sub (continuous_logProb m' s')))).measurable
  rw [← withDensity_mul _ (meas_dens m' s') hm]
  congr 1
  funext a
  rw [Pi.mul_apply, ← ENNReal.ofReal_mul (Real.exp_pos _).le, ← Real.exp_add, add_sub_cancel]

/-! ### The formulas -/

/-- The entropy the agents use is the entropy of the policy. -/
theorem gaussian_entropy (m s : Fin n → ℝ) (hs : ∀ i, 0 < s i) : entropy s = Spec.entropy (Spec.policy m s) := by
  have h : ∀ᵐ a ∂Spec.policy m s, Real.log ((Spec.policy m s).rnDeriv volume a).toReal = logProb m s a := by
    have h1 := Measure.rnDeriv_withDensity volume (meas_dens m s)
    rw [← policy_withDensity m s hs] at h1
    have h2 : Spec.policy m s ≪ volume := by
      rw [policy_withDensity m s hs]
      exact withDensity_absolutelyContinuous _ _
    filter_upwards [h2.ae_le h1] with a ha
    rw [ha, ENNReal.toReal_ofReal (Real.exp_pos _).le, Real.log_exp]
  rw [Spec.entropy, integral_congr_ae h, (int_logProb m s m s).2, entropy, ← Finset.sum_neg_distrib]
  refine Finset.sum_congr rfl fun i _ => ?_
  have hp := hs i
  rw [sub_self, Real.log_sqrt (by positivity)]
  field_simp
  ring

/-- The divergence TRPO uses is the Kullback-Leibler divergence of the two policies, and finite. -/
theorem gaussian_kl (m s m' s' : Fin n → ℝ) (hs : ∀ i, 0 < s i) (hs' : ∀ i, 0 < s' i) :
    klDiv (Spec.policy m s) (Spec.policy m' s') ≠ ⊤ ∧ kl m s m' s' = (klDiv (Spec.policy m s) (Spec.policy m' s')).toReal := by
  have hac : Spec.policy m s ≪ Spec.policy m' s' := by
    rw [ac m s m' s' hs hs']
    exact withDensity_absolutelyContinuous _ _
  have hm : Measurable fun a => ENNReal.ofReal (Real.exp (logProb m s a - logProb m' s' a)) :=
    (ENNReal.continuous_ofReal.comp (Real.continuous_exp.comp ((continuous_logProb m s).sub (continuous_logProb m' s')))).measurable
  have h : llr (Spec.policy m s) (Spec.policy m' s') =ᵐ[Spec.policy m s] fun a => logProb m s a - logProb m' s' a := by
    have h1 := Measure.rnDeriv_withDensity (Spec.policy m' s') hm
    rw [← ac m s m' s' hs hs'] at h1
    filter_upwards [hac.ae_le h1] with a ha
    rw [llr, ha, ENNReal.toReal_ofReal (Real.exp_pos _).le, Real.log_exp]
  have h1 := int_logProb m s m s
  have h2 := int_logProb m s m' s'
  have hi : Integrable (llr (Spec.policy m s) (Spec.policy m' s')) (Spec.policy m s) := (h1.1.sub h2.1).congr h.symm
  refine ⟨InformationTheory.klDiv_ne_top hac hi, ?_⟩
  rw [InformationTheory.toReal_klDiv_of_measure_eq hac (by simp), integral_congr_ae h, integral_sub h1.1 h2.1, h1.2, h2.2, kl,
    ← Finset.sum_sub_distrib]
  refine Finset.sum_congr rfl fun i _ => ?_
  have hp := hs i
  have hp' := hs' i
  rw [Real.log_pow, Real.log_div hp.ne' hp'.ne']
  push_cast
  field_simp
  ring

theorem logProb_deriv {mean scale : E → Fin n → ℝ} {dmean dscale : Fin n → E →L[ℝ] ℝ} {θ : E}
    (hm : ∀ i, HasFDerivAt (fun θ => mean θ i) (dmean i) θ) (hsc : ∀ i, HasFDerivAt (fun θ => scale θ i) (dscale i) θ)
    (hs : ∀ i, 0 < scale θ i) (a : Fin n → ℝ) :
    HasFDerivAt (fun θ => logProb (mean θ) (scale θ) a) (logProbGrad (mean θ) (scale θ) dmean dscale a) θ := by
  unfold logProb logProbGrad
  refine HasFDerivAt.fun_sum fun i _ => ?_
  have hp := hs i
  have h1 := ((hm i).const_sub (a i))
  have h2 := h1.fun_mul h1
  have h3 := (hsc i).fun_mul (hsc i)
  have h4 : HasFDerivAt (fun θ => (2 * (scale θ i * scale θ i))⁻¹) _ θ := (hasDerivAt_inv (x := 2 * (scale θ i * scale θ i)) (by positivity)).comp_hasFDerivAt θ (h3.const_mul 2)
  have h5 := ((h2.fun_mul h4).neg.fun_sub ((hsc i).log hp.ne')).sub_const (Real.log √(2 * Real.pi))
  refine (h5.congr_of_eventuallyEq (Eventually.of_forall fun θ => ?_)).congr_fderiv ?_
  · simp only [div_eq_mul_inv, sq, Pi.neg_apply]
    ring
  · ext v
    simp only [_root_.add_apply, _root_.sub_apply, _root_.neg_apply, _root_.smul_apply, smul_eq_mul]
    field_simp
    ring

theorem entropy_deriv {scale : E → Fin n → ℝ} {dscale : Fin n → E →L[ℝ] ℝ} {θ : E}
    (hsc : ∀ i, HasFDerivAt (fun θ => scale θ i) (dscale i) θ) (hs : ∀ i, 0 < scale θ i) :
    HasFDerivAt (fun θ => entropy (scale θ)) (entropyGrad (scale θ) dscale) θ := by
  unfold entropy entropyGrad
  refine HasFDerivAt.fun_sum fun i _ => ?_
  have := ((hsc i).log (hs i).ne').const_add (1 / 2 + 1 / 2 * Real.log (2 * Real.pi))
  refine this.congr_fderiv ?_
  rw [one_div]

/-! ### Domination -/

theorem bound_one (m0 : ℝ) {s0 : ℝ} (h0 : 0 < s0) : ∃ C c : ℝ, 0 < C ∧ 0 < c ∧ ∀ m s x : ℝ, |m - m0| ≤ 1 → s0 / 2 ≤ s → s ≤ 2 * s0 →
    (1 + (x - m) ^ 2) * Real.exp (-(x - m) ^ 2 / (2 * s ^ 2) - Real.log s - Real.log √(2 * Real.pi)) * Real.exp |x|
      ≤ C * Real.exp (-c * (x - m0) ^ 2) := by
  set k := 8 * s0 ^ 2 with hk
  have hkp : 0 < k := by positivity
  set c0 := Real.log √(2 * Real.pi)
  refine ⟨(1 + 4 * k) * Real.exp (1 / (2 * k) + k + |m0| + 1 - Real.log (s0 / 2) - c0), 1 / (4 * k), by positivity, by positivity, ?_⟩
  intro m s x hm h1 h2
  set u := (x - m) ^ 2 with hu
  have hu0 : 0 ≤ u := sq_nonneg _
  have hsp : 0 < s := lt_of_lt_of_le (by positivity) h1
  have a1 : 1 + u ≤ (1 + 4 * k) * Real.exp (u / (4 * k)) := by
    have := Real.add_one_le_exp (u / (4 * k))
    have e : u = 4 * k * (u / (4 * k)) := by field_simp
    have hq : 0 ≤ u / (4 * k) := by positivity
    nlinarith
  have a2 : -u / (2 * s ^ 2) ≤ -u / k := by
    rw [neg_div, neg_div, neg_le_neg_iff]
    refine div_le_div_of_nonneg_left hu0 (by positivity) ?_
    rw [hk]
    nlinarith
  have a3 : Real.log (s0 / 2) ≤ Real.log s := Real.log_le_log (by positivity) h1
  have a4 : |x| ≤ u / (4 * k) + k + |m0| + 1 := by
    have b1 : |x| ≤ |x - m| + (|m - m0| + |m0|) := by
      have e : x = (x - m) + ((m - m0) + m0) := by ring
      calc |x| = |(x - m) + ((m - m0) + m0)| := by rw [← e]
        _ ≤ _ := (abs_add_le _ _).trans (add_le_add_right (abs_add_le _ _) _)
    have b2 : |x - m| ≤ u / (4 * k) + k := by
      have e : u = |x - m| ^ 2 := (sq_abs _).symm
      rw [e, ← sub_nonneg]
      have : |x - m| ^ 2 / (4 * k) + k - |x - m| = (|x - m| - 2 * k) ^ 2 / (4 * k) := by field_simp; ring
      rw [this]
      positivity
    linarith
  have a5 : -(u / (2 * k)) ≤ 1 / (2 * k) - (x - m0) ^ 2 / (4 * k) := by
    have b1 : (x - m0) ^ 2 ≤ 2 * u + 2 := by
      have hb : (m - m0) ^ 2 ≤ 1 := by
        rw [← sq_abs]
        have := abs_nonneg (m - m0)
        nlinarith
      nlinarith [sq_nonneg ((x - m) - (m - m0))]
    have b2 : (x - m0) ^ 2 / (4 * k) ≤ (2 * u + 2) / (4 * k) := div_le_div_of_nonneg_right b1 (by positivity)
    have e : (2 * u + 2) / (4 * k) = u / (2 * k) + 1 / (2 * k) := by field_simp; ring
    linarith
  have e1 : u / (4 * k) + u / (4 * k) + -u / k = -(u / (2 * k)) := by field_simp; ring
  calc (1 + u) * Real.exp (-u / (2 * s ^ 2) - Real.log s - c0) * Real.exp |x|
      ≤ ((1 + 4 * k) * Real.exp (u / (4 * k))) * Real.exp (-u / (2 * s ^ 2) - Real.log s - c0) * Real.exp |x| := by gcongr
    _ = (1 + 4 * k) * Real.exp (u / (4 * k) + (-u / (2 * s ^ 2) - Real.log s - c0) + |x|) := by
        rw [Real.exp_add, Real.exp_add]; ring
    _ ≤ (1 + 4 * k) * Real.exp (1 / (2 * k) + k + |m0| + 1 - Real.log (s0 / 2) - c0 + -(1 / (4 * k)) * (x - m0) ^ 2) := by
        refine mul_le_mul_of_nonneg_left (Real.exp_le_exp.2 ?_) (by positivity)
        have e2 : -(1 / (4 * k)) * (x - m0) ^ 2 = -((x - m0) ^ 2 / (4 * k)) := by ring
        linarith
    _ = _ := by rw [Real.exp_add]; ring


/-- The parameters of a Gaussian. -/
abbrev P (n : ℕ) := (Fin n → ℝ) × (Fin n → ℝ)

noncomputable def pm (i : Fin n) : P n →L[ℝ] ℝ := (ContinuousLinearMap.proj i).comp (ContinuousLinearMap.fst ℝ _ _)

noncomputable def ps (i : Fin n) : P n →L[ℝ] ℝ := (ContinuousLinearMap.proj i).comp (ContinuousLinearMap.snd ℝ _ _)

theorem pm_norm (i : Fin n) : ‖pm i‖ ≤ 1 :=
  ContinuousLinearMap.opNorm_le_bound _ zero_le_one fun x => by
    rw [one_mul]
    exact (norm_le_pi_norm x.1 i).trans (norm_fst_le x)

theorem ps_norm (i : Fin n) : ‖ps i‖ ≤ 1 :=
  ContinuousLinearMap.opNorm_le_bound _ zero_le_one fun x => by
    rw [one_mul]
    exact (norm_le_pi_norm x.2 i).trans (norm_snd_le x)

theorem one_le_prods (a m : Fin n → ℝ) (t : Finset (Fin n)) : 1 ≤ ∏ i ∈ t, (1 + (a i - m i) ^ 2) := by
  have h : ∏ _i ∈ t, (1 : ℝ) ≤ ∏ i ∈ t, (1 + (a i - m i) ^ 2) :=
    Finset.prod_le_prod (fun _ _ => zero_le_one) fun i _ => by linarith [sq_nonneg (a i - m i)]
  simpa using h

theorem score_norm (m s : Fin n → ℝ) {s0 : Fin n → ℝ} (h0 : ∀ i, 0 < s0 i) (hs : ∀ i, s0 i / 2 ≤ s i) (a : Fin n → ℝ) :
    ‖logProbGrad m s pm ps a‖ ≤ (∑ i, (4 / s0 i ^ 2 + 8 / s0 i ^ 3 + 2 / s0 i)) * ∏ i, (1 + (a i - m i) ^ 2) := by
  unfold logProbGrad
  refine (norm_sum_le _ _).trans ?_
  rw [Finset.sum_mul]
  refine Finset.sum_le_sum fun i _ => ?_
  have hp := h0 i
  have hsi : 0 < s i := lt_of_lt_of_le (by positivity) (hs i)
  have h1 : 1 + (a i - m i) ^ 2 ≤ ∏ j, (1 + (a j - m j) ^ 2) := by
    rw [← Finset.mul_prod_erase _ _ (Finset.mem_univ i)]
    exact le_mul_of_one_le_right (by positivity) (one_le_prods a m _)
  have i1 : 1 / s i ≤ 2 / s0 i := by
    rw [div_le_div_iff₀ hsi hp]
    linarith [hs i]
  have i0 : 0 ≤ 1 / s i := by positivity
  have i2 : 1 / s i ^ 2 ≤ 4 / s0 i ^ 2 := by
    have := pow_le_pow_left₀ i0 i1 2
    rw [div_pow, div_pow] at this
    norm_num at this ⊢
    exact this
  have i3 : 1 / s i ^ 3 ≤ 8 / s0 i ^ 3 := by
    have := pow_le_pow_left₀ i0 i1 3
    rw [div_pow, div_pow] at this
    norm_num at this ⊢
    exact this
  have hx : |a i - m i| ≤ 1 + (a i - m i) ^ 2 := by
    rw [← sq_abs]
    nlinarith [sq_nonneg (|a i - m i| - 1), abs_nonneg (a i - m i)]
  have hx2 : (a i - m i) ^ 2 ≤ 1 + (a i - m i) ^ 2 := by linarith
  have hx0 : 1 ≤ 1 + (a i - m i) ^ 2 := by linarith [sq_nonneg (a i - m i)]
  have t1 : ‖((a i - m i) / s i ^ 2) • pm i‖ ≤ (1 + (a i - m i) ^ 2) * (4 / s0 i ^ 2) := by
    rw [norm_smul, Real.norm_eq_abs, abs_div, abs_of_pos (pow_pos hsi 2)]
    refine (mul_le_of_le_one_right (by positivity) (pm_norm i)).trans ?_
    rw [div_eq_mul_one_div]
    exact mul_le_mul hx i2 (by positivity) (by positivity)
  have t2 : ‖((a i - m i) ^ 2 / s i ^ 3 - 1 / s i) • ps i‖ ≤ (1 + (a i - m i) ^ 2) * (8 / s0 i ^ 3 + 2 / s0 i) := by
    rw [norm_smul, Real.norm_eq_abs]
    refine (mul_le_of_le_one_right (abs_nonneg _) (ps_norm i)).trans ((abs_sub _ _).trans ?_)
    rw [abs_of_nonneg (by positivity), abs_of_nonneg i0, mul_add, div_eq_mul_one_div ((a i - m i) ^ 2)]
    refine add_le_add (mul_le_mul hx2 i3 (by positivity) (by positivity)) ?_
    calc 1 / s i = 1 * (1 / s i) := (one_mul _).symm
      _ ≤ _ := mul_le_mul hx0 i1 i0 (by positivity)
  calc _ ≤ (1 + (a i - m i) ^ 2) * (4 / s0 i ^ 2) + (1 + (a i - m i) ^ 2) * (8 / s0 i ^ 3 + 2 / s0 i) :=
        (norm_add_le _ _).trans (add_le_add t1 t2)
    _ = (4 / s0 i ^ 2 + 8 / s0 i ^ 3 + 2 / s0 i) * (1 + (a i - m i) ^ 2) := by ring
    _ ≤ _ := mul_le_mul_of_nonneg_left h1 (by positivity)

theorem continuous_grad (m s : Fin n → ℝ) (dm ds : Fin n → E →L[ℝ] ℝ) : Continuous (logProbGrad m s dm ds) := by
  unfold logProbGrad
  fun_prop

/-- Mean values under a Gaussian can be differentiated under the integral. -/
theorem moment_deriv {f : (Fin n → ℝ) → ℝ} (hf : Measurable f) {Bd : ℝ} (hB : ∀ a, |f a| ≤ Bd * Real.exp (∑ i, |a i|))
    (m0 s0 : Fin n → ℝ) (h0 : ∀ i, 0 < s0 i) :
    Integrable (fun a => Real.exp (logProb m0 s0 a) * f a) ∧
    Integrable (fun a => (Real.exp (logProb m0 s0 a) * f a) • logProbGrad m0 s0 pm ps a) ∧
    HasFDerivAt (fun p : P n => ∫ a, Real.exp (logProb p.1 p.2 a) * f a)
      (∫ a, (Real.exp (logProb m0 s0 a) * f a) • logProbGrad m0 s0 pm ps a) (m0, s0) := by
  choose C c hC hc hb using fun i => bound_one (m0 i) (h0 i)
  have hBd : 0 ≤ Bd := by
    have := (abs_nonneg _).trans (hB 0)
    simpa using this
  let t : Set (P n) := {p | (∀ i, |p.1 i - m0 i| ≤ 1) ∧ ∀ i, s0 i / 2 ≤ p.2 i ∧ p.2 i ≤ 2 * s0 i}
  have ht : t ∈ 𝓝 (m0, s0) := by
    have e1 : ∀ᶠ p : P n in 𝓝 (m0, s0), ∀ i, |p.1 i - m0 i| < 1 := by
      rw [eventually_all]
      intro i
      have hcont : ContinuousAt (fun p : P n => |p.1 i - m0 i|) (m0, s0) := by fun_prop
      exact hcont.eventually (gt_mem_nhds (by simp))
    have e2 : ∀ᶠ p : P n in 𝓝 (m0, s0), ∀ i, s0 i / 2 < p.2 i ∧ p.2 i < 2 * s0 i := by
      rw [eventually_all]
      intro i
      have hcont : ContinuousAt (fun p : P n => p.2 i) (m0, s0) := by fun_prop
      have := h0 i
      exact (hcont.eventually (lt_mem_nhds (show s0 i / 2 < s0 i by linarith))).and
        (hcont.eventually (gt_mem_nhds (show s0 i < 2 * s0 i by linarith)))
    filter_upwards [e1, e2] with p h1 h2
    exact ⟨fun i => (h1 i).le, fun i => ⟨(h2 i).1.le, (h2 i).2.le⟩⟩
  have hmem : (m0, s0) ∈ t := mem_of_mem_nhds ht
  let dom : (Fin n → ℝ) → ℝ := fun a => ∏ i, (C i * Real.exp (-c i * (a i - m0 i) ^ 2))
  have hdom : Integrable dom := Integrable.fintype_prod fun i =>
    ((integrable_exp_neg_mul_sq (hc i)).comp_sub_right (m0 i)).const_mul (C i)
  have hpt : ∀ p ∈ t, ∀ a, |Real.exp (logProb p.1 p.2 a) * f a| * ∏ i, (1 + (a i - p.1 i) ^ 2) ≤ Bd * dom a := by
    intro p hp a
    have hprod : (∏ i, (1 + (a i - p.1 i) ^ 2)) * Real.exp (logProb p.1 p.2 a) * Real.exp (∑ i, |a i|) ≤ dom a := by
      rw [logProb, Real.exp_sum, Real.exp_sum, ← Finset.prod_mul_distrib, ← Finset.prod_mul_distrib]
      refine Finset.prod_le_prod (fun i _ => by positivity) fun i _ => ?_
      exact hb i (p.1 i) (p.2 i) (a i) (hp.1 i) (hp.2 i).1 (hp.2 i).2
    have h1 : 0 ≤ ∏ i, (1 + (a i - p.1 i) ^ 2) := Finset.prod_nonneg fun i _ => by positivity
    rw [abs_mul, abs_of_pos (Real.exp_pos _)]
    have h2 := mul_le_mul_of_nonneg_left (hB a) (mul_nonneg h1 (Real.exp_pos (logProb p.1 p.2 a)).le)
    have h3 := mul_le_mul_of_nonneg_left hprod hBd
    calc _ = (∏ i, (1 + (a i - p.1 i) ^ 2)) * Real.exp (logProb p.1 p.2 a) * |f a| := by ring
      _ ≤ _ := h2
      _ = Bd * ((∏ i, (1 + (a i - p.1 i) ^ 2)) * Real.exp (logProb p.1 p.2 a) * Real.exp (∑ i, |a i|)) := by ring
      _ ≤ _ := h3
  have hmeas : ∀ p : P n, AEStronglyMeasurable (fun a => Real.exp (logProb p.1 p.2 a) * f a) volume := fun p =>
    ((Real.continuous_exp.comp (continuous_logProb p.1 p.2)).measurable.mul hf).aestronglyMeasurable
  have hone : ∀ (p : P n) (a : Fin n → ℝ), 1 ≤ ∏ i, (1 + (a i - p.1 i) ^ 2) := fun p a => one_le_prods a p.1 _
  have hint : Integrable (fun a => Real.exp (logProb m0 s0 a) * f a) := (hdom.const_mul Bd).mono' (hmeas (m0, s0))
    (Eventually.of_forall fun a => by
      rw [Real.norm_eq_abs]
      refine le_trans ?_ (hpt (m0, s0) hmem a)
      exact le_mul_of_one_le_right (abs_nonneg _) (hone (m0, s0) a))
  set K := ∑ i, (4 / s0 i ^ 2 + 8 / s0 i ^ 3 + 2 / s0 i) with hK
  have hK0 : 0 ≤ K := Finset.sum_nonneg fun i _ => by have := h0 i; positivity
  have hbound : ∀ p ∈ t, ∀ a, ‖(Real.exp (logProb p.1 p.2 a) * f a) • logProbGrad p.1 p.2 pm ps a‖ ≤ K * (Bd * dom a) := by
    intro p hp a
    rw [norm_smul, Real.norm_eq_abs]
    have h1 := mul_le_mul_of_nonneg_left (score_norm p.1 p.2 h0 (fun i => (hp.2 i).1) a)
      (abs_nonneg (Real.exp (logProb p.1 p.2 a) * f a))
    have h2 := mul_le_mul_of_nonneg_left (hpt p hp a) hK0
    refine h1.trans (le_trans (le_of_eq ?_) h2)
    ring
  have hgm : AEStronglyMeasurable (fun a => (Real.exp (logProb m0 s0 a) * f a) • logProbGrad m0 s0 pm ps a) volume :=
    (hmeas (m0, s0)).smul (continuous_grad m0 s0 pm ps).aestronglyMeasurable
  have hbi : Integrable fun a => K * (Bd * dom a) := (hdom.const_mul Bd).const_mul K
  refine ⟨hint, hbi.mono' hgm (Eventually.of_forall fun a => hbound (m0, s0) hmem a), ?_⟩
  have hderiv : ∀ a, ∀ p ∈ t, HasFDerivAt (fun p : P n => Real.exp (logProb p.1 p.2 a) * f a)
      ((Real.exp (logProb p.1 p.2 a) * f a) • logProbGrad p.1 p.2 pm ps a) p := by
    intro a p hp
    have hl := logProb_deriv (E := P n) (mean := fun p => p.1) (scale := fun p => p.2) (dmean := pm) (dscale := ps) (θ := p)
      (fun i => (pm i).hasFDerivAt) (fun i => (ps i).hasFDerivAt)
      (fun i => lt_of_lt_of_le (by have := h0 i; positivity) (hp.2 i).1) a
    refine (hl.exp.mul_const (f a)).congr_fderiv ?_
    rw [smul_smul, mul_comm]
  have hb1 : ∀ᵐ a : Fin n → ℝ, ∀ p ∈ t, ‖(Real.exp (logProb p.1 p.2 a) * f a) • logProbGrad p.1 p.2 pm ps a‖ ≤ K * (Bd * dom a) :=
    Eventually.of_forall fun a p hp => hbound p hp a
  have hb2 : ∀ᵐ a : Fin n → ℝ, ∀ p ∈ t, HasFDerivAt (fun p : P n => Real.exp (logProb p.1 p.2 a) * f a)
      ((Real.exp (logProb p.1 p.2 a) * f a) • logProbGrad p.1 p.2 pm ps a) p := Eventually.of_forall hderiv
  have hb3 : ∀ᶠ p : P n in 𝓝 (m0, s0), AEStronglyMeasurable (fun a => Real.exp (logProb p.1 p.2 a) * f a) volume :=
    Eventually.of_forall hmeas
  clear_value t dom K
  exact hasFDerivAt_integral_of_dominated_of_fderiv_le (𝕜 := ℝ) (μ := volume) (x₀ := (m0, s0)) (s := t)
    (F := fun (p : P n) a => Real.exp (logProb p.1 p.2 a) * f a)
    (F' := fun (p : P n) a => (Real.exp (logProb p.1 p.2 a) * f a) • logProbGrad p.1 p.2 pm ps a)
    (bound := fun a => K * (Bd * dom a)) ht hb3 hint hgm hb1 hbi hb2

/-- The same for functions of other parameters. -/
theorem mean_deriv {f : (Fin n → ℝ) → ℝ} (hf : Measurable f) {Bd : ℝ} (hB : ∀ a, |f a| ≤ Bd * Real.exp (∑ i, |a i|))
    {mean scale : E → Fin n → ℝ} {dmean dscale : Fin n → E →L[ℝ] ℝ} {θ : E}
    (hm : ∀ i, HasFDerivAt (fun θ => mean θ i) (dmean i) θ) (hsc : ∀ i, HasFDerivAt (fun θ => scale θ i) (dscale i) θ)
    (hs : ∀ i, 0 < scale θ i) :
    Integrable f (Spec.policy (mean θ) (scale θ)) ∧
    Integrable (fun a => f a • logProbGrad (mean θ) (scale θ) dmean dscale a) (Spec.policy (mean θ) (scale θ)) ∧
    HasFDerivAt (fun θ => ∫ a, f a ∂Spec.policy (mean θ) (scale θ))
      (∫ a, f a • logProbGrad (mean θ) (scale θ) dmean dscale a ∂Spec.policy (mean θ) (scale θ)) θ := by
  obtain ⟨h1, h2, h3⟩ := moment_deriv hf hB (mean θ) (scale θ) hs
  let D : E →L[ℝ] P n := (ContinuousLinearMap.pi dmean).prod (ContinuousLinearMap.pi dscale)
  have hD : HasFDerivAt (fun θ => (mean θ, scale θ)) D θ := (hasFDerivAt_pi.2 hm).prodMk (hasFDerivAt_pi.2 hsc)
  let T : (P n →L[ℝ] ℝ) →L[ℝ] E →L[ℝ] ℝ := (ContinuousLinearMap.compL ℝ E (P n) ℝ).flip D
  have hT : ∀ a, T ((Real.exp (logProb (mean θ) (scale θ) a) * f a) • logProbGrad (mean θ) (scale θ) pm ps a)
      = Real.exp (logProb (mean θ) (scale θ) a) • (f a • logProbGrad (mean θ) (scale θ) dmean dscale a) := by
    intro a
    have hpm : ∀ i, (pm i).comp D = dmean i := fun i => by ext v; rfl
    have hps : ∀ i, (ps i).comp D = dscale i := fun i => by ext v; rfl
    have hTi : ∀ L : P n →L[ℝ] ℝ, T L = L.comp D := fun L => rfl
    have e : T (logProbGrad (mean θ) (scale θ) pm ps a) = logProbGrad (mean θ) (scale θ) dmean dscale a := by
      unfold logProbGrad
      rw [map_sum]
      refine Finset.sum_congr rfl fun i _ => ?_
      rw [map_add, map_smul, map_smul, hTi, hTi, hpm, hps]
    rw [map_smul, e, smul_smul]
  have h4 := T.integrable_comp h2
  refine ⟨(integrable_policy _ _ hs f).2 h1, (integrable_policy _ _ hs _).2 (by simpa only [hT] using h4), ?_⟩
  have h5 := h3.comp θ hD
  have hpos : ∀ᶠ θ' in 𝓝 θ, ∀ i, 0 < scale θ' i := by
    rw [eventually_all]
    exact fun i => (hsc i).continuousAt.eventually (lt_mem_nhds (hs i))
  rw [int_policy _ _ hs]
  refine (h5.congr_of_eventuallyEq ?_).congr_fderiv ?_
  · filter_upwards [hpos] with θ' hp
    rw [int_policy _ _ hp]
    rfl
  · have := T.integral_comp_comm h2
    simp only [hT] at this
    exact this.symm

theorem eval_batch {B : ℕ} (rows : Fin B → Row E n) (θ : E) (k : Fin B) {F : Type*} [NormedAddCommGroup F] [NormedSpace ℝ F]
    {f : (Fin n → ℝ) → F} (hf : Integrable f (Spec.policy ((rows k).mean θ) ((rows k).scale θ))) :
    Integrable (fun a : Fin B → Fin n → ℝ => f (a k)) (Spec.actions rows θ) ∧
      ∫ a, f (a k) ∂Spec.actions rows θ = ∫ a, f a ∂Spec.policy ((rows k).mean θ) ((rows k).scale θ) := by
  have h := measurePreserving_eval (fun k => Spec.policy ((rows k).mean θ) ((rows k).scale θ)) k
  refine ⟨h.integrable_comp_of_integrable hf, ?_⟩
  have h2 := integral_map h.measurable.aemeasurable (f := f) (by rw [h.map_eq]; exact hf.aestronglyMeasurable)
  rw [h.map_eq] at h2
  exact h2.symm

instance {B : ℕ} (rows : Fin B → Row E n) (θ : E) : IsProbabilityMeasure (Spec.actions rows θ) := by
  unfold Spec.actions
  infer_instance

theorem ratio_mean (r : Row E n) {f : (Fin n → ℝ) → ℝ} {old θ : E} (ha : Spec.Moderate f) (h0 : ∀ i, 0 < r.scale old i)
    (h : ∀ i, 0 < r.scale θ i) :
    Integrable (fun a => Real.exp (logProb (r.mean θ) (r.scale θ) a - logProb (r.mean old) (r.scale old) a) * f a)
      (Spec.policy (r.mean old) (r.scale old)) ∧
    ∫ a, Real.exp (logProb (r.mean θ) (r.scale θ) a - logProb (r.mean old) (r.scale old) a) * f a ∂Spec.policy (r.mean old) (r.scale old)
      = ∫ a, f a ∂Spec.policy (r.mean θ) (r.scale θ) := by
  obtain ⟨Bd, hBd⟩ := ha.growth
  have hi : Integrable f (Spec.policy (r.mean θ) (r.scale θ)) :=
    (integrable_policy _ _ h _).2 (moment_deriv ha.measurable hBd _ _ h).1
  have hm : Measurable fun a => ENNReal.ofReal (Real.exp (logProb (r.mean θ) (r.scale θ) a - logProb (r.mean old) (r.scale old) a)) :=
    (ENNReal.continuous_ofReal.comp (Real.continuous_exp.comp ((continuous_logProb _ _).sub (continuous_logProb _ _)))).measurable
  have e := ac (r.mean θ) (r.scale θ) (r.mean old) (r.scale old) h h0
  constructor
  · rw [e, integrable_withDensity_iff_integrable_smul' hm (by simp)] at hi
    simpa only [ENNReal.toReal_ofReal (Real.exp_pos _).le, smul_eq_mul] using hi
  · rw [e, integral_withDensity_eq_integral_toReal_smul hm (by simp)]
    simp only [ENNReal.toReal_ofReal (Real.exp_pos _).le, smul_eq_mul]

/-! ## C135 -/

/-- The log probabilities the agents use are logarithms of the density of the policy. -/
theorem gaussian_log_prob (m s : Fin n → ℝ) (hs : ∀ i, 0 < s i) :
    Policies.Spec.Density (Spec.policy m s) univ fun a => Real.exp (logProb m s a) := by
  have h := pi_density fun i => gaussian_density (m i) (hs i)
  have e : (univ.pi fun _ : Fin n => (univ : Set ℝ)) = univ := by simp
  rw [e] at h
  have e2 : (fun a => Real.exp (logProb m s a)) = fun a => ∏ i, gaussianPDFReal (m i) (s i ^ 2).toNNReal (a i) :=
    funext fun a => exp_logProb m s a hs
  rw [e2]
  exact h

/-- The gradients of the losses of A2C and A3C, of the gain of TRPO where it is differentiated, and of the loss of PPO at the
parameters the actions were chosen with. -/
theorem gaussian_backward {B : ℕ} (piCoef entCoef : ℝ) (rows : Fin B → Row E n) (θ : E) (hr : ∀ k, Spec.Right (rows k) θ)
    (adv : Fin B → ℝ) (a : Fin B → Fin n → ℝ) :
    HasFDerivAt (fun θ => a2cLoss piCoef entCoef rows θ adv a) (backward piCoef entCoef rows θ adv a) θ ∧
    HasFDerivAt (fun θ => a3cLoss piCoef entCoef rows θ adv a) (backward (B * piCoef) (B * piCoef * entCoef) rows θ adv a) θ ∧
    HasFDerivAt (fun θ' => trpoGain entCoef rows θ θ' adv a) (-backward 1 entCoef rows θ adv a) θ ∧
    ∀ clipEps, 0 < clipEps → HasFDerivAt (fun θ' => ppoLoss clipEps entCoef rows θ θ' adv a) (backward 1 entCoef rows θ adv a) θ := by
  have h1 : ∀ k, HasFDerivAt (fun θ => logProb ((rows k).mean θ) ((rows k).scale θ) (a k))
      (logProbGrad ((rows k).mean θ) ((rows k).scale θ) ((rows k).dmean θ) ((rows k).dscale θ) (a k)) θ := fun k =>
    logProb_deriv (hr k).mean (hr k).scale (hr k).pos (a k)
  have h2 : ∀ k, HasFDerivAt (fun θ => entropy ((rows k).scale θ)) (entropyGrad ((rows k).scale θ) ((rows k).dscale θ)) θ := fun k =>
    entropy_deriv (hr k).scale (hr k).pos
  have h3 := HasFDerivAt.fun_sum (u := Finset.univ) fun k _ => (h1 k).const_mul (adv k)
  have h4 := HasFDerivAt.fun_sum (u := Finset.univ) fun k _ => h2 k
  have htrpo : HasFDerivAt (fun θ' => trpoGain entCoef rows θ θ' adv a) (-backward 1 entCoef rows θ adv a) θ := by
    have h5 := HasFDerivAt.fun_sum (u := Finset.univ) fun k _ =>
      ((h1 k).sub_const (logProb ((rows k).mean θ) ((rows k).scale θ) (a k))).exp.mul_const (adv k)
    refine (((h5.const_mul (1 / B : ℝ)).fun_add (h4.const_mul (entCoef / B))).congr_of_eventuallyEq
      (Eventually.of_forall fun θ => ?_)).congr_fderiv ?_
    · simp only [trpoGain]
      ring
    · simp only [backward, sub_self, Real.exp_zero, one_smul]
      module
  refine ⟨?_, ?_, htrpo, fun clipEps he => ?_⟩
  · refine ((h3.const_mul (-(piCoef / B))).fun_sub (h4.const_mul (entCoef / B))).congr_of_eventuallyEq
      (Eventually.of_forall fun θ => ?_)
    simp only [a2cLoss]
    ring
  · by_cases hB : B = 0
    · subst hB
      simp [a3cLoss, backward, hasFDerivAt_const]
    have hB' : (B : ℝ) ≠ 0 := Nat.cast_ne_zero.2 hB
    refine (((h3.const_mul (-piCoef)).fun_sub (h4.const_mul (piCoef * entCoef))).congr_of_eventuallyEq
      (Eventually.of_forall fun θ => ?_)).congr_fderiv ?_
    · simp only [a3cLoss, Finset.sum_sub_distrib, neg_mul, Finset.sum_neg_distrib, ← Finset.mul_sum]
      ring
    · simp only [backward]
      have e1 : B * piCoef / B = piCoef := by field_simp
      have e2 : B * piCoef * entCoef / B = piCoef * entCoef := by field_simp
      rw [e1, e2]
  · have hev : ∀ᶠ θ' in 𝓝 θ, ∀ k, Real.exp (logProb ((rows k).mean θ') ((rows k).scale θ') (a k)
        - logProb ((rows k).mean θ) ((rows k).scale θ) (a k)) ∈ Ioo (1 - clipEps) (1 + clipEps) := by
      rw [eventually_all]
      intro k
      have hc := ((h1 k).sub_const (logProb ((rows k).mean θ) ((rows k).scale θ) (a k))).exp.continuousAt
      refine hc.eventually (Ioo_mem_nhds ?_ ?_) <;> simp [he]
    have h6 := htrpo.fun_neg
    rw [neg_neg] at h6
    refine h6.congr_of_eventuallyEq ?_
    filter_upwards [hev] with θ' hk
    have : ∀ k, max (1 - clipEps) (min (Real.exp (logProb ((rows k).mean θ') ((rows k).scale θ') (a k)
        - logProb ((rows k).mean θ) ((rows k).scale θ) (a k))) (1 + clipEps)) = Real.exp (logProb ((rows k).mean θ') ((rows k).scale θ') (a k)
        - logProb ((rows k).mean θ) ((rows k).scale θ) (a k)) := fun k => by
      rw [min_eq_left (hk k).2.le, max_eq_right (hk k).1.le]
    simp only [ppoLoss, ratio, trpoGain, this, min_self]
    ring

/-- The policy gradient theorem for Gaussian policies: on average over the actions drawn, what `backward` computes is the gradient of
the objective, with the opposite sign. -/
theorem gaussian_policy_gradient {B : ℕ} (piCoef entCoef : ℝ) (rows : Fin B → Row E n) (adv : Fin B → (Fin n → ℝ) → ℝ) (θ : E)
    (hr : ∀ k, Spec.Right (rows k) θ) (ha : ∀ k, Spec.Moderate (adv k)) :
    Integrable (fun a => backward piCoef entCoef rows θ (fun k => adv k (a k)) a) (Spec.actions rows θ) ∧
    HasFDerivAt (Spec.objective piCoef entCoef rows adv)
      (-∫ a, backward piCoef entCoef rows θ (fun k => adv k (a k)) a ∂Spec.actions rows θ) θ := by
  choose Bd hBd using fun k => (ha k).growth
  have hrow := fun k => mean_deriv (ha k).measurable (hBd k) (hr k).mean (hr k).scale (hr k).pos
  have hi := fun k => eval_batch rows θ k (hrow k).2.1
  have hsum : Integrable (fun a : Fin B → Fin n → ℝ => ∑ k, adv k (a k) • logProbGrad ((rows k).mean θ) ((rows k).scale θ)
      ((rows k).dmean θ) ((rows k).dscale θ) (a k)) (Spec.actions rows θ) := integrable_finsetSum _ fun k _ => (hi k).1
  have hsm : Integrable (fun a : Fin B → Fin n → ℝ => (-(piCoef / B)) • ∑ k, adv k (a k) • logProbGrad ((rows k).mean θ)
      ((rows k).scale θ) ((rows k).dmean θ) ((rows k).dscale θ) (a k)) (Spec.actions rows θ) := hsum.smul (-(piCoef / B))
  refine ⟨hsm.sub (integrable_const _), ?_⟩
  have e : ∫ a, backward piCoef entCoef rows θ (fun k => adv k (a k)) a ∂Spec.actions rows θ
      = (-(piCoef / B)) • ∑ k, (∫ a, adv k a • logProbGrad ((rows k).mean θ) ((rows k).scale θ) ((rows k).dmean θ) ((rows k).dscale θ) a
          ∂Spec.policy ((rows k).mean θ) ((rows k).scale θ))
        - (entCoef / B) • ∑ k, entropyGrad ((rows k).scale θ) ((rows k).dscale θ) := by
    simp only [backward]
    rw [integral_sub hsm (integrable_const _), integral_smul, integral_finsetSum _ fun k _ => (hi k).1]
    simp only [integral_const, probReal_univ, one_smul, (hi _).2]
  have hpos : ∀ᶠ θ' in 𝓝 θ, ∀ k i, 0 < (rows k).scale θ' i := by
    rw [eventually_all]
    intro k
    rw [eventually_all]
    exact fun i => ((hr k).scale i).continuousAt.eventually (lt_mem_nhds ((hr k).pos i))
  have h3 := HasFDerivAt.fun_sum (u := Finset.univ) fun k _ => (hrow k).2.2
  have h4 := HasFDerivAt.fun_sum (u := Finset.univ) fun k _ => entropy_deriv (hr k).scale (hr k).pos
  refine (((h3.const_mul (piCoef / B)).fun_add (h4.const_mul (entCoef / B))).congr_of_eventuallyEq ?_).congr_fderiv ?_
  · filter_upwards [hpos] with θ' hp
    simp only [Spec.objective]
    have : ∀ k, Spec.entropy (Spec.policy ((rows k).mean θ') ((rows k).scale θ')) = entropy ((rows k).scale θ') := fun k =>
      (gaussian_entropy _ _ (hp k)).symm
    simp only [this]
    ring
  · rw [e]
    module

/-- Subtracting from the advantages anything that does not depend on the action leaves the mean gradient as it is. -/
theorem gaussian_baseline {B : ℕ} (piCoef entCoef : ℝ) (rows : Fin B → Row E n) (adv : Fin B → (Fin n → ℝ) → ℝ) (b : Fin B → ℝ) (θ : E)
    (hr : ∀ k, Spec.Right (rows k) θ) (ha : ∀ k, Spec.Moderate (adv k)) :
    ∫ a, backward piCoef entCoef rows θ (fun k => adv k (a k) - b k) a ∂Spec.actions rows θ
      = ∫ a, backward piCoef entCoef rows θ (fun k => adv k (a k)) a ∂Spec.actions rows θ := by
  have hb : ∀ k, Spec.Moderate fun a => adv k a - b k := fun k => by
    obtain ⟨Bd, hBd⟩ := (ha k).growth
    refine ⟨(ha k).measurable.sub_const _, Bd + |b k|, fun a => (abs_sub _ _).trans ?_⟩
    have h1 : 1 ≤ Real.exp (∑ i, |a i|) := Real.one_le_exp (Finset.sum_nonneg fun i _ => abs_nonneg _)
    have := mul_le_mul_of_nonneg_left h1 (abs_nonneg (b k))
    have := hBd a
    linarith
  have h1 := (gaussian_policy_gradient piCoef entCoef rows adv θ hr ha).2
  have h2 := (gaussian_policy_gradient piCoef entCoef rows (fun k a => adv k a - b k) θ hr hb).2
  have hpos : ∀ᶠ θ' in 𝓝 θ, ∀ k, Integrable (adv k) (Spec.policy ((rows k).mean θ') ((rows k).scale θ')) := by
    rw [eventually_all]
    intro k
    have : ∀ᶠ θ' in 𝓝 θ, ∀ i, 0 < (rows k).scale θ' i := by
      rw [eventually_all]
      exact fun i => ((hr k).scale i).continuousAt.eventually (lt_mem_nhds ((hr k).pos i))
    filter_upwards [this] with θ' hp
    obtain ⟨Bd, hBd⟩ := (ha k).growth
    exact (integrable_policy _ _ hp _).2 (moment_deriv (ha k).measurable hBd _ _ hp).1
  have h3 := (h1.sub_const (piCoef * ((∑ k, b k) / B))).congr_of_eventuallyEq
    (f₁ := Spec.objective piCoef entCoef rows fun k a => adv k a - b k) (by
      filter_upwards [hpos] with θ' hp
      simp only [Spec.objective]
      have : ∀ k, ∫ a, (adv k a - b k) ∂Spec.policy ((rows k).mean θ') ((rows k).scale θ')
          = ∫ a, adv k a ∂Spec.policy ((rows k).mean θ') ((rows k).scale θ') - b k := fun k => by
        rw [integral_sub (hp k) (integrable_const _)]
        simp
      simp only [this, Finset.sum_sub_distrib]
      ring)
  exact neg_injective (h2.unique h3)

/-- The gain TRPO maximises is, on average over actions drawn with the old parameters, the objective at the new ones, however far apart
they are. -/
theorem gaussian_surrogate {B : ℕ} (entCoef : ℝ) (rows : Fin B → Row E n) (adv : Fin B → (Fin n → ℝ) → ℝ) (old θ : E)
    (ha : ∀ k, Spec.Moderate (adv k)) (h0 : ∀ k i, 0 < (rows k).scale old i) (h : ∀ k i, 0 < (rows k).scale θ i) :
    Integrable (fun a => trpoGain entCoef rows old θ (fun k => adv k (a k)) a) (Spec.actions rows old) ∧
    ∫ a, trpoGain entCoef rows old θ (fun k => adv k (a k)) a ∂Spec.actions rows old = Spec.objective 1 entCoef rows adv θ := by
  have hk := fun k => ratio_mean (rows k) (ha k) (h0 k) (h k)
  have hi := fun k => eval_batch rows old k (hk k).1
  have hsum := integrable_finsetSum Finset.univ fun k _ => (hi k).1
  refine ⟨(hsum.div_const _).add (integrable_const _), ?_⟩
  simp only [trpoGain, Spec.objective]
  rw [integral_add (hsum.div_const _) (integrable_const _), integral_div, integral_finsetSum _ fun k _ => (hi k).1]
  have : ∀ k, Spec.entropy (Spec.policy ((rows k).mean θ) ((rows k).scale θ)) = entropy ((rows k).scale θ) := fun k =>
    (gaussian_entropy _ _ (h k)).symm
  simp only [this, (hi _).2, (hk _).2, integral_const, probReal_univ, one_smul, one_mul]

/-- A small enough step of gradient descent along the mean gradient raises the objective, unless the gradient is zero. -/
theorem gaussian_policy_ascends {F : Type*} [NormedAddCommGroup F] [InnerProductSpace ℝ F] [CompleteSpace F] {B : ℕ}
    (piCoef entCoef : ℝ) (rows : Fin B → Row F n) (adv : Fin B → (Fin n → ℝ) → ℝ) (θ : F)
    (hr : ∀ k, Spec.Right (rows k) θ) (ha : ∀ k, Spec.Moderate (adv k)) :
    let g := (InnerProductSpace.toDual ℝ F).symm
      (∫ a, backward piCoef entCoef rows θ (fun k => adv k (a k)) a ∂Spec.actions rows θ)
    g ≠ 0 → ∀ᶠ lr : ℝ in 𝓝[>] 0,
      Spec.objective piCoef entCoef rows adv θ < Spec.objective piCoef entCoef rows adv (θ - lr • g) := by
  intro g hg
  have h := (gaussian_policy_gradient piCoef entCoef rows adv θ hr ha).2
  set I := ∫ a, backward piCoef entCoef rows θ (fun k => adv k (a k)) a ∂Spec.actions rows θ with hI
  have hl : HasDerivAt (fun lr : ℝ => θ - lr • g) (-g) 0 := by
    have := ((hasDerivAt_id (0 : ℝ)).smul_const g).const_sub θ
    simpa using this
  have h0 : HasFDerivAt (Spec.objective piCoef entCoef rows adv) (-I) (θ - (0 : ℝ) • g) := by simpa using h
  have hd := h0.comp_hasDerivAt (0 : ℝ) hl
  have e : (-I) (-g) = ‖g‖ ^ 2 := by
    have : I = InnerProductSpace.toDual ℝ F g := by simp [g, I]
    rw [_root_.neg_apply, map_neg, neg_neg, this, InnerProductSpace.toDual_apply_apply, real_inner_self_eq_norm_sq]
  rw [e] at hd
  have hpos : 0 < ‖g‖ ^ 2 := pow_pos (norm_pos_iff.2 hg) 2
  have hev := ((hasDerivAt_iff_tendsto_slope.1 hd).mono_left (nhdsWithin_mono 0 fun x (hx : 0 < x) => hx.ne')).eventually
    (lt_mem_nhds hpos)
  filter_upwards [hev, self_mem_nhdsWithin] with lr hlr hp
  rw [slope_def_field, lt_div_iff₀ (by simpa using hp)] at hlr
  simp only [Function.comp, zero_smul, sub_zero, zero_mul] at hlr
  linarith

/-- What PPO maximises, minus its loss, is on average over actions drawn with the old parameters at most the objective at the new
ones, however far apart they are and however often the actions are used. -/
theorem gaussian_ppo_pessimistic {B : ℕ} (clipEps entCoef : ℝ) (rows : Fin B → Row E n) (adv : Fin B → (Fin n → ℝ) → ℝ) (old θ : E)
    (ha : ∀ k, Spec.Moderate (adv k)) (h0 : ∀ k i, 0 < (rows k).scale old i) (h : ∀ k i, 0 < (rows k).scale θ i) :
    Integrable (fun a => ppoLoss clipEps entCoef rows old θ (fun k => adv k (a k)) a) (Spec.actions rows old) ∧
    -∫ a, ppoLoss clipEps entCoef rows old θ (fun k => adv k (a k)) a ∂Spec.actions rows old ≤ Spec.objective 1 entCoef rows adv θ := by
  have hk : ∀ k, Integrable (fun a => min (ratio (rows k) old θ a * adv k a)
      (max (1 - clipEps) (min (ratio (rows k) old θ a) (1 + clipEps)) * adv k a)) (Spec.policy ((rows k).mean old) ((rows k).scale old)) := by
    intro k
    obtain ⟨Bd, hBd⟩ := (ha k).growth
    have hi : Integrable (adv k) (Spec.policy ((rows k).mean old) ((rows k).scale old)) :=
      (integrable_policy _ _ (h0 k) _).2 (moment_deriv (ha k).measurable hBd _ _ (h0 k)).1
    have h1 := (ratio_mean (rows k) (ha k) (h0 k) (h k)).1
    have hc : Continuous fun a => max (1 - clipEps) (min (ratio (rows k) old θ a) (1 + clipEps)) :=
      continuous_const.max ((Real.continuous_exp.comp ((continuous_logProb _ _).sub (continuous_logProb _ _))).min continuous_const)
    refine h1.inf (hi.bdd_mul (c := max |1 - clipEps| |1 + clipEps|) hc.aestronglyMeasurable (Eventually.of_forall fun a => ?_))
    rw [Real.norm_eq_abs]
    rcases le_total (min (ratio (rows k) old θ a) (1 + clipEps)) (1 - clipEps) with hm | hm
    · rw [max_eq_left hm]
      exact le_max_left _ _
    · rw [max_eq_right hm]
      exact abs_le_max_abs_abs hm (min_le_right _ _)
  have hi := fun k => (eval_batch rows old k (hk k)).1
  have hsum := integrable_finsetSum Finset.univ fun k _ => hi k
  have hint : Integrable (fun a => ppoLoss clipEps entCoef rows old θ (fun k => adv k (a k)) a) (Spec.actions rows old) :=
    (hsum.div_const _).neg.add (integrable_const _)
  refine ⟨hint, ?_⟩
  obtain ⟨hg, e⟩ := gaussian_surrogate entCoef rows adv old θ ha h0 h
  rw [← e, ← integral_neg]
  refine integral_mono hint.neg hg fun a => ?_
  simp only [ppoLoss, trpoGain, ratio]
  have : ∀ x y z : ℝ, x ≤ y → -(-(x / B) + entCoef * -z) ≤ y / B + entCoef * z := fun x y z hxy => by
    have := div_le_div_of_nonneg_right hxy (Nat.cast_nonneg (α := ℝ) B)
    linarith
  exact this _ _ _ (Finset.sum_le_sum fun k _ => min_le_left _ _)

/-- With the heads of the library the gradients are right and the scales positive, if those of the network are: away from the
threshold of `softplus`, where torch switches from one formula to another that is not equal to it. -/
theorem gaussian_heads (mean pre : E → Fin n → ℝ) (dmean dpre : E → Fin n → E →L[ℝ] ℝ) (θ : E)
    (hm : ∀ i, HasFDerivAt (fun θ => mean θ i) (dmean θ i) θ) (hp : ∀ i, HasFDerivAt (fun θ => pre θ i) (dpre θ i) θ) :
    ((∀ i, pre θ i ≠ 20) → Spec.Right (softplusRow mean pre dmean dpre) θ) ∧
    ∀ scale : ℝ, 0 < scale → Spec.Right (fixedRow scale mean dmean) θ := by
  refine ⟨fun hne => ⟨hm, fun i => ?_, fun i => Real.sqrt_pos.2 (softplus_pos _)⟩,
    fun scale hs => ⟨hm, fun i => hasFDerivAt_const scale θ, fun _ => hs⟩⟩
  have hsp : HasDerivAt softplus (softplusGrad (pre θ i)) (pre θ i) := by
    rcases lt_or_gt_of_ne (hne i) with h | h
    · have h1 : HasDerivAt (fun x => Real.log (1 + Real.exp x)) (Real.exp (pre θ i) / (1 + Real.exp (pre θ i))) (pre θ i) :=
        ((Real.hasDerivAt_exp _).const_add 1).log (by positivity)
      rw [softplusGrad, if_neg (not_lt.2 h.le)]
      refine h1.congr_of_eventuallyEq ?_
      filter_upwards [gt_mem_nhds h] with x hx
      rw [softplus, if_neg (not_lt.2 hx.le)]
    · rw [softplusGrad, if_pos h]
      refine (hasDerivAt_id _).congr_of_eventuallyEq ?_
      filter_upwards [lt_mem_nhds h] with x hx
      rw [softplus, if_pos hx, id]
  have h2 := (hsp.sqrt (softplus_pos _).ne').comp_hasFDerivAt θ (hp i)
  refine h2.congr_fderiv ?_
  simp only [softplusRow]
  congr 1
  ring

/-! ## Non-vacuity -/

/-- One row of one dimension, with the parameter as mean and scale 1, and the advantage -a²: the objective is -(θ² + 1), and what
`backward` computes is, on average, 2 θ. -/
noncomputable def exRow : Fin 1 → Row ℝ 1 := fun _ => fixedRow 1 (fun θ _ => θ) fun _ _ => ContinuousLinearMap.id ℝ ℝ

theorem exRow_right (θ : ℝ) : ∀ k, Spec.Right (exRow k) θ := fun _ =>
  (gaussian_heads (fun θ _ => θ) (fun θ _ => θ) (fun _ _ => ContinuousLinearMap.id ℝ ℝ) (fun _ _ => ContinuousLinearMap.id ℝ ℝ) θ
    (fun _ => hasFDerivAt_id θ)
    fun _ => hasFDerivAt_id θ).2 1 one_pos

theorem exAdv_moderate : ∀ _ : Fin 1, Spec.Moderate fun a : Fin 1 → ℝ => -a 0 ^ 2 := fun _ => by
  refine ⟨((measurable_pi_apply 0).pow_const 2).neg, 2, fun a => ?_⟩
  have h := Real.quadratic_le_exp_of_nonneg (abs_nonneg (a 0))
  have h2 := abs_nonneg (a 0)
  rw [abs_neg, abs_pow, Fin.sum_univ_one]
  linarith

theorem exObjective (θ : ℝ) : Spec.objective 1 0 exRow (fun _ a => -a 0 ^ 2) θ = -(θ ^ 2 + 1) := by
  have h := second_moment θ 1 0
  have h2 := (int_coord (n := 1) (fun _ => θ) (fun _ => 1) 0 (g := fun x => (x - 0) ^ 2) h.1).2
  rw [h.2] at h2
  simp only [sub_zero] at h2
  simp only [Spec.objective, exRow, fixedRow, Fin.sum_univ_one, integral_neg, h2]
  norm_num
  ring

example (θ : ℝ) : -∫ a, backward 1 0 exRow θ (fun k => -(a k) 0 ^ 2) a ∂Spec.actions exRow θ
    = (-2 * θ) • ContinuousLinearMap.id ℝ ℝ := by
  refine (gaussian_policy_gradient 1 0 exRow (fun _ a => -a 0 ^ 2) θ (exRow_right θ) exAdv_moderate).2.unique ?_
  have h : HasFDerivAt (fun θ : ℝ => -(θ ^ 2 + 1)) ((-2 * θ) • ContinuousLinearMap.id ℝ ℝ) θ := by
    have h0 : HasFDerivAt (fun x : ℝ => x) (ContinuousLinearMap.id ℝ ℝ) θ := hasFDerivAt_id θ
    have h1 := ((h0.fun_mul h0).add_const 1).fun_neg
    refine (h1.congr_of_eventuallyEq (Eventually.of_forall fun x => ?_)).congr_fderiv ?_
    · simp only [sq]
    · module
  exact h.congr_of_eventuallyEq (Eventually.of_forall exObjective)

/-- At θ = 1 the mean gradient is not zero, so a small enough step raises the objective. -/
example : ∀ᶠ lr : ℝ in 𝓝[>] 0, ∃ θ : ℝ, θ = 1 - lr * 2 ∧
    Spec.objective 1 0 exRow (fun _ a => -a 0 ^ 2) 1 < Spec.objective 1 0 exRow (fun _ a => -a 0 ^ 2) θ := by
  have h : Ioo (0 : ℝ) 1 ∈ 𝓝[>] (0 : ℝ) := Ioo_mem_nhdsGT one_pos
  filter_upwards [h] with lr hlr
  refine ⟨_, rfl, ?_⟩
  rw [exObjective, exObjective]
  nlinarith [hlr.1, hlr.2]

/-- The Kullback-Leibler divergence of N(0, 1) from N(1, 1) is one half. -/
example : (klDiv (Spec.policy (n := 1) (fun _ => 0) fun _ => 1) (Spec.policy (fun _ => 1) fun _ => 1)).toReal = 1 / 2 := by
  rw [← (gaussian_kl (n := 1) _ _ _ _ (fun _ => one_pos) fun _ => one_pos).2]
  simp [kl]

end Pfrl.Policies.Gradient
