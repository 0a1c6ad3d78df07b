import Mathlib.InformationTheory.KullbackLeibler.Basic
import Mathlib.Analysis.Calculus.Rademacher
import Mathlib.Analysis.Calculus.ParametricIntegral
import Mathlib.Probability.Distributions.Gaussian.Basic
import Mathlib.Analysis.SpecialFunctions.Log.Deriv
import Verif.Policies.Mode

/-!
# The policy update of Soft Actor-Critic (C133)

`SoftActorCritic.update_policy_and_temperature` with the policy it is used with: a Gaussian squashed by `tanh`.  The actions are
vectors of any length, the parameters live in any normed space, and the networks are any functions of them.  Backpropagation is
modelled operation by operation.  Numbers are exact; the optimiser's step and the clipping of the gradient are not modelled here
(`Agents/Gradients.lean`), and neither is the threshold 20 of `softplus`, below the precision of a float.
-/

namespace Pfrl.Sac.Actor

open MeasureTheory ProbabilityTheory Set Filter Topology
open Pfrl.Policies (squashed)
open InformationTheory (klDiv)

set_option linter.unusedSectionVars false

variable {E : Type*} [NormedAddCommGroup E] [NormedSpace ℝ E] {n : ℕ}

/-! ## Model -/

/-- The scale that `squashed_diagonal_gaussian_head` makes of one output of the network,
`examples/mujoco/reproduction/soft_actor_critic/train_soft_actor_critic.py:159-170`. -/
noncomputable def headScale (out : ℝ) : ℝ := √(Real.exp (min (max out (-20)) 2 * 2))

/-- What the policy network computes for one state of the batch, as a function of its parameters: the arguments of `Normal`,
`train_soft_actor_critic.py:164-166`. -/
structure Head (E : Type*) (n : ℕ) where
  mean : E → Fin n → ℝ
  scale : E → Fin n → ℝ

/-- `Normal.rsample`: what is drawn before it is squashed; `z` is standard normal noise.  `soft_actor_critic.py:279`. -/
def preTanh (h : Head E n) (θ : E) (z : Fin n → ℝ) (i : Fin n) : ℝ := h.mean θ i + z i * h.scale θ i

/-- `rsample` of the squashed distribution, `pfrl/agents/soft_actor_critic.py:279`. -/
noncomputable def rsample (h : Head E n) (θ : E) (z : Fin n → ℝ) (i : Fin n) : ℝ := Real.tanh (preTanh h θ z i)

/-- `log_prob(actions)`, `soft_actor_critic.py:280`.  The transform remembers what it squashed (`cache_size=1`), so that the density
is computed from `x`, not from the action: the density of `Normal` minus the `log_abs_det_jacobian` of `TanhTransform`. -/
noncomputable def logProb (h : Head E n) (θ : E) (x : Fin n → ℝ) : ℝ :=
  (∑ i, (-(x i - h.mean θ i) ^ 2 / (2 * h.scale θ i ^ 2) - Real.log (h.scale θ i) - Real.log √(2 * Real.pi)))
    - ∑ i, 2 * (Real.log 2 - x i - Real.log (1 + Real.exp (-2 * x i)))

/-- One row of `entropy_term - q`, `soft_actor_critic.py:281-287`; `q1` and `q2` are the critics in this state. -/
noncomputable def rowLoss (temperature : ℝ) (q1 q2 : (Fin n → ℝ) → ℝ) (h : Head E n) (θ : E) (z : Fin n → ℝ) : ℝ :=
  temperature * logProb h θ (preTanh h θ z) - min (q1 (rsample h θ z)) (q2 (rsample h θ z))

/-- What `torch.min(q1, q2)`, `soft_actor_critic.py:283`, passes back to the action, if the critics pass back `g1` and `g2`: half of
each if they agree. -/
noncomputable def minGrad (q1 q2 : (Fin n → ℝ) → ℝ) (g1 g2 : (Fin n → ℝ) → (Fin n → ℝ) →L[ℝ] ℝ) (a : Fin n → ℝ) :
    (Fin n → ℝ) →L[ℝ] ℝ :=
  if q1 a < q2 a then g1 a else if q2 a < q1 a then g2 a else (1 / 2 : ℝ) • g1 a + (1 / 2 : ℝ) • g2 a

/-- What `Normal.rsample` passes back, from component `i`. -/
noncomputable def preTanhGrad (dmean dscale : Fin n → E →L[ℝ] ℝ) (z : Fin n → ℝ) (i : Fin n) : E →L[ℝ] ℝ :=
  dmean i + z i • dscale i

/-- What component `i` of `log_prob` passes back: through the action and through the parameters of `Normal`, and through the
correction for squashing. -/
noncomputable def logProbGrad (h : Head E n) (dmean dscale : Fin n → E →L[ℝ] ℝ) (θ : E) (z : Fin n → ℝ) (i : Fin n) : E →L[ℝ] ℝ :=
  (-(preTanh h θ z i - h.mean θ i) / h.scale θ i ^ 2) • (preTanhGrad dmean dscale z i - dmean i)
    + ((preTanh h θ z i - h.mean θ i) ^ 2 / h.scale θ i ^ 3) • dscale i - (1 / h.scale θ i) • dscale i
    - (2 * (-1 + 2 * (Real.exp (-2 * preTanh h θ z i) / (1 + Real.exp (-2 * preTanh h θ z i))))) • preTanhGrad dmean dscale z i

/-- What one row of the loss passes back; `1 - a ^ 2` is the derivative of `tanh`. -/
noncomputable def rowGrad (temperature : ℝ) (q1 q2 : (Fin n → ℝ) → ℝ) (g1 g2 : (Fin n → ℝ) → (Fin n → ℝ) →L[ℝ] ℝ) (h : Head E n)
    (dmean dscale : Fin n → E →L[ℝ] ℝ) (θ : E) (z : Fin n → ℝ) : E →L[ℝ] ℝ :=
  temperature • ∑ i, logProbGrad h dmean dscale θ z i
    - (minGrad q1 q2 g1 g2 (rsample h θ z)).comp
        (ContinuousLinearMap.pi fun i => (1 - rsample h θ z i ^ 2) • preTanhGrad dmean dscale z i)

/-- One row of the batch: what the networks compute in one state, and what backpropagation through them computes. -/
structure Row (E : Type*) [NormedAddCommGroup E] [NormedSpace ℝ E] (n : ℕ) where
  head : Head E n
  dmean : E → Fin n → E →L[ℝ] ℝ
  dscale : E → Fin n → E →L[ℝ] ℝ
  q1 : (Fin n → ℝ) → ℝ
  q2 : (Fin n → ℝ) → ℝ
  g1 : (Fin n → ℝ) → (Fin n → ℝ) →L[ℝ] ℝ
  g2 : (Fin n → ℝ) → (Fin n → ℝ) →L[ℝ] ℝ

/-- `loss`, `soft_actor_critic.py:287`, for a batch of `B` states; `self.temperature` is a plain number (lines 192-197). -/
noncomputable def loss {B : ℕ} (temperature : ℝ) (rows : Fin B → Row E n) (θ : E) (z : Fin B → Fin n → ℝ) : ℝ :=
  (∑ k, rowLoss temperature (rows k).q1 (rows k).q2 (rows k).head θ (z k)) / B

/-- The gradient that `loss.backward()` computes, `soft_actor_critic.py:290`. -/
noncomputable def backward {B : ℕ} (temperature : ℝ) (rows : Fin B → Row E n) (θ : E) (z : Fin B → Fin n → ℝ) : E →L[ℝ] ℝ :=
  (1 / B : ℝ) • ∑ k, rowGrad temperature (rows k).q1 (rows k).q2 (rows k).g1 (rows k).g2 (rows k).head ((rows k).dmean θ)
    ((rows k).dscale θ) θ (z k)

/-! ## Specification -/

/-- The noise behind one action: independent standard normal numbers. -/
noncomputable def Spec.noise (n : ℕ) : Measure (Fin n → ℝ) := Measure.pi fun _ => gaussianReal 0 1

/-- The noise behind the actions of a batch. -/
noncomputable def Spec.batchNoise (B n : ℕ) : Measure (Fin B → Fin n → ℝ) := Measure.pi fun _ => Spec.noise n

/-- The possible actions: vectors of numbers between -1 and 1. -/
def Spec.box (n : ℕ) : Set (Fin n → ℝ) := univ.pi fun _ => Ioo (-1) 1

/-- The law of the action taken in a state, with the parameters `θ`: `Policies.Spec.law`, the same as in C108. -/
noncomputable def Spec.policy (h : Head E n) (θ : E) : Measure (Fin n → ℝ) :=
  Policies.Spec.law (Policies.Spec.squashedGaussian (h.mean θ) (h.scale θ))

/-- The Boltzmann policy: its density on the actions is proportional to `exp (q / temperature)`. -/
noncomputable def Spec.boltzmann (temperature : ℝ) (q : (Fin n → ℝ) → ℝ) : Measure (Fin n → ℝ) :=
  (volume.restrict (Spec.box n)).tilted fun a => q a / temperature

/-- A critic that is Lipschitz, such as a network, and a gradient that is right almost everywhere: backpropagation may be wrong
at kinks. -/
structure Spec.Critic (q : (Fin n → ℝ) → ℝ) (g : (Fin n → ℝ) → (Fin n → ℝ) →L[ℝ] ℝ) : Prop where
  lipschitz : ∃ K, LipschitzOnWith K q (Spec.box n)
  gradient : ∀ᵐ a ∂volume.restrict (Spec.box n), HasFDerivAt q (g a) a

/-- Backpropagation through the networks is right for the parameters `θ`, and the scales are positive. -/
structure Spec.Right (r : Row E n) (θ : E) : Prop where
  mean : ∀ i, HasFDerivAt (fun θ => r.head.mean θ i) (r.dmean θ i) θ
  scale : ∀ i, HasFDerivAt (fun θ => r.head.scale θ i) (r.dscale θ i) θ
  pos : ∀ i, 0 < r.head.scale θ i
  q1 : Spec.Critic r.q1 r.g1
  q2 : Spec.Critic r.q2 r.g2

/-- The temperature times the Kullback-Leibler divergence from the policy to the Boltzmann policy, averaged over the batch. -/
noncomputable def Spec.objective {B : ℕ} (temperature : ℝ) (rows : Fin B → Row E n) (θ : E) : ℝ :=
  (∑ k, temperature * (klDiv (Spec.policy (rows k).head θ)
    (Spec.boltzmann temperature fun a => min ((rows k).q1 a) ((rows k).q2 a))).toReal) / B

/-! ## Lemmas -/

theorem tanh_mem (x : ℝ) : Real.tanh x ∈ Ioo (-1 : ℝ) 1 := Real.tanh_bijOn.mapsTo (mem_univ x)

theorem rsample_mem (h : Head E n) (θ : E) (z : Fin n → ℝ) : rsample h θ z ∈ Spec.box n := fun _ _ => tanh_mem _

theorem continuous_tanh : Continuous Real.tanh := continuous_iff_continuousAt.2 fun t => (Policies.tanh_deriv t).continuousAt

theorem continuous_preTanh (h : Head E n) (θ : E) : Continuous (preTanh h θ) := by
  unfold preTanh
  fun_prop

theorem continuous_rsample (h : Head E n) (θ : E) : Continuous (rsample h θ) :=
  continuous_pi fun i => continuous_tanh.comp ((continuous_apply i).comp (continuous_preTanh h θ))

theorem isOpen_box : IsOpen (Spec.box n) := isOpen_set_pi finite_univ fun _ _ => isOpen_Ioo

/-- The correction for squashing. -/
noncomputable def corr (x : ℝ) : ℝ := 2 * (Real.log 2 - x - Real.log (1 + Real.exp (-2 * x)))

theorem corr_eq (x : ℝ) : corr x = Real.log (1 - Real.tanh x ^ 2) := by
  have h1 : (0 : ℝ) < 1 + Real.exp (-2 * x) := by positivity
  have h2 : 1 - Real.tanh x ^ 2 = (2 * Real.exp (-x) / (1 + Real.exp (-2 * x))) ^ 2 := by
    have hc := Real.cosh_pos x
    have e : 1 - Real.tanh x ^ 2 = 1 / Real.cosh x ^ 2 := by
      rw [Real.tanh_eq_sinh_div_cosh, eq_div_iff (by positivity), sub_mul, div_pow, div_mul_cancel₀ _ (by positivity)]
      linarith [Real.cosh_sq x]
    have e2 : Real.cosh x = (1 + Real.exp (-2 * x)) / (2 * Real.exp (-x)) := by
      rw [Real.cosh_eq, eq_div_iff (by positivity)]
      have : Real.exp (-2 * x) = Real.exp (-x) * Real.exp (-x) := by rw [← Real.exp_add]; ring_nf
      have h3 : Real.exp x * Real.exp (-x) = 1 := by rw [← Real.exp_add]; simp
      rw [this]
      linear_combination h3
    rw [e, e2, div_pow, div_pow, one_div_div]
  rw [h2, Real.log_pow, Real.log_div (by positivity) h1.ne', Real.log_mul (by norm_num) (Real.exp_pos _).ne', Real.log_exp, corr]
  push_cast
  ring

theorem corr_deriv (x : ℝ) : HasDerivAt corr (2 * (-1 + 2 * (Real.exp (-2 * x) / (1 + Real.exp (-2 * x))))) x := by
  have h1 : (0 : ℝ) < 1 + Real.exp (-2 * x) := by positivity
  have he : HasDerivAt (fun x : ℝ => Real.exp (-2 * x)) (Real.exp (-2 * x) * -2) x := by
    have := ((hasDerivAt_id x).const_mul (-2)).exp
    simpa using this
  have hl : HasDerivAt (fun x : ℝ => Real.log (1 + Real.exp (-2 * x))) (Real.exp (-2 * x) * -2 / (1 + Real.exp (-2 * x))) x :=
    (he.const_add 1).log h1.ne'
  have := (((hasDerivAt_const x (Real.log 2)).fun_sub (hasDerivAt_id' x)).fun_sub hl).const_mul 2
  unfold corr
  refine this.congr_deriv ?_
  ring

theorem corr_lip (x y : ℝ) : |corr x - corr y| ≤ 2 * |x - y| := by
  have h : LipschitzWith 2 corr := by
    refine lipschitzWith_of_nnnorm_deriv_le (fun x => (corr_deriv x).differentiableAt) fun x => ?_
    rw [(corr_deriv x).deriv, ← NNReal.coe_le_coe, coe_nnnorm, Real.norm_eq_abs, NNReal.coe_ofNat, abs_le]
    have h1 : (0 : ℝ) < 1 + Real.exp (-2 * x) := by positivity
    have h2 : Real.exp (-2 * x) / (1 + Real.exp (-2 * x)) ≤ 1 := by
      rw [div_le_one h1]; linarith
    have h3 : 0 ≤ Real.exp (-2 * x) / (1 + Real.exp (-2 * x)) := by positivity
    constructor <;> linarith
  have := h.dist_le_mul x y
  rwa [Real.dist_eq, Real.dist_eq] at this

theorem tanh_lip (x y : ℝ) : |Real.tanh x - Real.tanh y| ≤ |x - y| := by
  have h : LipschitzWith 1 Real.tanh := by
    refine lipschitzWith_of_nnnorm_deriv_le (fun x => (Policies.tanh_deriv x).differentiableAt) fun x => ?_
    rw [(Policies.tanh_deriv x).deriv, ← NNReal.coe_le_coe, coe_nnnorm, Real.norm_eq_abs, NNReal.coe_one, abs_le]
    have := tanh_mem x
    constructor <;> nlinarith [this.1, this.2, sq_nonneg (Real.tanh x)]
  have := h.dist_le_mul x y
  rw [Real.dist_eq, Real.dist_eq] at this
  simpa using this

/-- The loss of one row, simplified. -/
theorem logProb_eq (h : Head E n) (θ : E) (z : Fin n → ℝ) (hs : ∀ i, h.scale θ i ≠ 0) :
    logProb h θ (preTanh h θ z) =
      ∑ i, (-(z i) ^ 2 / 2 - Real.log (h.scale θ i) - Real.log √(2 * Real.pi) - corr (preTanh h θ z i)) := by
  rw [logProb, ← Finset.sum_sub_distrib]
  refine Finset.sum_congr rfl fun i _ => ?_
  have : -(preTanh h θ z i - h.mean θ i) ^ 2 / (2 * h.scale θ i ^ 2) = -(z i) ^ 2 / 2 := by
    have := hs i
    rw [preTanh]
    field_simp
    ring
  rw [this]
  rfl

/-! ### Density -/

/-- The density of the policy. -/
noncomputable def dens (m s : Fin n → ℝ) (a : Fin n → ℝ) : ℝ := ∏ i, squashed (m i) (s i) (a i)

theorem policy_pi (h : Head E n) (θ : E) : Spec.policy h θ =
    Measure.pi fun i => (gaussianReal (h.mean θ i) (h.scale θ i ^ 2).toNNReal).map Real.tanh := by
  have := Measure.pi_map_pi (μ := fun i => gaussianReal (h.mean θ i) (h.scale θ i ^ 2).toNNReal) (f := fun _ => Real.tanh)
    (fun i => continuous_tanh.measurable.aemeasurable)
  rw [← this]
  rfl

theorem policy_law (h : Head E n) (θ : E) : (Spec.noise n).map (rsample h θ) = Spec.policy h θ := by
  rw [policy_pi]
  have e : ∀ i, (gaussianReal (h.mean θ i) (h.scale θ i ^ 2).toNNReal).map Real.tanh
      = (gaussianReal 0 1).map fun z => Real.tanh (h.mean θ i + z * h.scale θ i) := fun i => by
    have e1 : (gaussianReal 0 1).map (fun z : ℝ => h.mean θ i + z * h.scale θ i)
        = gaussianReal (h.mean θ i) (h.scale θ i ^ 2).toNNReal := by
      have := gaussianReal_map_mul_const (μ := 0) (v := 1) (h.scale θ i)
      have h2 := gaussianReal_map_const_add (μ := h.scale θ i * 0) (v := NNReal.mk (h.scale θ i ^ 2) (sq_nonneg _) * 1) (h.mean θ i)
      rw [← this, Measure.map_map (by fun_prop) (by fun_prop)] at h2
      rw [show (fun z : ℝ => h.mean θ i + z * h.scale θ i) = (fun x => h.mean θ i + x) ∘ fun x => x * h.scale θ i from rfl, h2]
      congr 1
      · ring
      · rw [mul_one]
        exact NNReal.eq (by simp [Real.coe_toNNReal _ (sq_nonneg (h.scale θ i))])
    rw [← e1, Measure.map_map continuous_tanh.measurable (by fun_prop)]
    rfl
  simp only [e]
  rw [← Measure.pi_map_pi (μ := fun _ => gaussianReal 0 1) (f := fun i z => Real.tanh (h.mean θ i + z * h.scale θ i))
    (fun i => (continuous_tanh.comp (by fun_prop)).measurable.aemeasurable)]
  rfl

instance (h : Head E n) (θ : E) : IsProbabilityMeasure (Spec.policy h θ) := by
  rw [← policy_law]
  have : IsProbabilityMeasure (Spec.noise n) := by unfold Spec.noise; infer_instance
  exact Measure.isProbabilityMeasure_map (continuous_rsample h θ).measurable.aemeasurable

instance : IsProbabilityMeasure (Spec.noise n) := by unfold Spec.noise; infer_instance

theorem dens_density (h : Head E n) (θ : E) (hs : ∀ i, 0 < h.scale θ i) :
    Policies.Spec.Density (Spec.policy h θ) (Spec.box n) (dens (h.mean θ) (h.scale θ)) := by
  rw [policy_pi]
  exact (Policies.mostProbable_squashed (h.mean θ) (h.scale θ) hs).1

theorem dens_pos (h : Head E n) (θ : E) (hs : ∀ i, 0 < h.scale θ i) (z : Fin n → ℝ) :
    0 < dens (h.mean θ) (h.scale θ) (rsample h θ z) :=
  Finset.prod_pos fun i _ => Policies.squashed_pos _ (hs i) _

theorem log_dens (h : Head E n) (θ : E) (hs : ∀ i, 0 < h.scale θ i) (z : Fin n → ℝ) :
    Real.log (dens (h.mean θ) (h.scale θ) (rsample h θ z)) = logProb h θ (preTanh h θ z) := by
  rw [dens, Real.log_prod (s := Finset.univ) (f := fun i => squashed (h.mean θ i) (h.scale θ i) (rsample h θ z i))
    (fun i _ => (Policies.squashed_pos _ (hs i) _).ne'), logProb, ← Finset.sum_sub_distrib]
  refine Finset.sum_congr rfl fun i _ => ?_
  have hm := tanh_mem (preTanh h θ z i)
  have hp : 0 < 1 - Real.tanh (preTanh h θ z i) ^ 2 := by nlinarith [hm.1, hm.2]
  have hsi := hs i
  have hv : ((h.scale θ i ^ 2).toNNReal : ℝ) = h.scale θ i ^ 2 := Real.coe_toNNReal _ (sq_nonneg _)
  rw [rsample, squashed, if_pos hm, Real.artanh_tanh, Real.log_div _ hp.ne', ← corr_eq, corr, gaussianPDFReal, hv,
    Real.log_mul (by positivity) (Real.exp_pos _).ne', Real.log_exp, Real.log_inv, Real.sqrt_mul (by positivity),
    Real.sqrt_sq hsi.le, Real.log_mul (by positivity) hsi.ne']
  · ring
  · rw [gaussianPDFReal, hv]; positivity

theorem policy_withDensity (h : Head E n) (θ : E) (hs : ∀ i, 0 < h.scale θ i) :
    Spec.policy h θ = (volume.restrict (Spec.box n)).withDensity fun a => ENNReal.ofReal (dens (h.mean θ) (h.scale θ) a) := by
  have hD := dens_density h θ hs
  ext s hm
  rw [withDensity_apply _ hm, Measure.restrict_restrict hm]
  rw [← hD.density (s ∩ Spec.box n) inter_subset_right (hm.inter isOpen_box.measurableSet)]
  refine le_antisymm ?_ (measure_mono inter_subset_left)
  calc Spec.policy h θ s ≤ Spec.policy h θ ((s ∩ Spec.box n) ∪ (Spec.box n)ᶜ) := measure_mono fun a ha => by
        by_cases hb : a ∈ Spec.box n
        · exact Or.inl ⟨ha, hb⟩
        · exact Or.inr hb
    _ ≤ _ := measure_union_le _ _
    _ = _ := by rw [hD.all, add_zero]

/-! ### The smaller critic -/

theorem min_lip {q1 q2 : (Fin n → ℝ) → ℝ} {g1 g2 : (Fin n → ℝ) → (Fin n → ℝ) →L[ℝ] ℝ} (h1 : Spec.Critic q1 g1)
    (h2 : Spec.Critic q2 g2) : ∃ K : NNReal, LipschitzOnWith K (fun a => min (q1 a) (q2 a)) (Spec.box n) := by
  obtain ⟨K1, hK1⟩ := h1.lipschitz
  obtain ⟨K2, hK2⟩ := h2.lipschitz
  refine ⟨max K1 K2, LipschitzOnWith.of_dist_le_mul fun a ha b hb => ?_⟩
  have e1 := hK1.dist_le_mul a ha b hb
  have e2 := hK2.dist_le_mul a ha b hb
  rw [Real.dist_eq] at *
  refine (abs_min_sub_min_le_max _ _ _ _).trans (max_le (e1.trans ?_) (e2.trans ?_))
  · exact mul_le_mul_of_nonneg_right (NNReal.coe_le_coe.2 (le_max_left _ _)) dist_nonneg
  · exact mul_le_mul_of_nonneg_right (NNReal.coe_le_coe.2 (le_max_right _ _)) dist_nonneg

theorem min_grad {q1 q2 : (Fin n → ℝ) → ℝ} {g1 g2 : (Fin n → ℝ) → (Fin n → ℝ) →L[ℝ] ℝ} (h1 : Spec.Critic q1 g1)
    (h2 : Spec.Critic q2 g2) : ∀ᵐ a ∂volume.restrict (Spec.box n),
      HasFDerivAt (fun a => min (q1 a) (q2 a)) (minGrad q1 q2 g1 g2 a) a := by
  obtain ⟨K, hK⟩ := min_lip h1 h2
  have hR := hK.ae_differentiableWithinAt (μ := volume) isOpen_box.measurableSet
  have hm : ∀ᵐ a ∂volume.restrict (Spec.box n), a ∈ Spec.box n := ae_restrict_mem isOpen_box.measurableSet
  filter_upwards [hR, hm, h1.gradient, h2.gradient] with a hd ha hg1 hg2
  have hd := (hd.differentiableAt (isOpen_box.mem_nhds ha)).hasFDerivAt
  rw [minGrad]
  split_ifs with c1 c2
  · refine hg1.congr_of_eventuallyEq ?_
    filter_upwards [hg1.continuousAt.eventually_lt hg2.continuousAt c1] with b hb
    exact min_eq_left hb.le
  · refine hg2.congr_of_eventuallyEq ?_
    filter_upwards [hg2.continuousAt.eventually_lt hg1.continuousAt c2] with b hb
    exact min_eq_right hb.le
  · have he : q1 a = q2 a := le_antisymm (not_lt.1 c2) (not_lt.1 c1)
    have e1 := IsLocalMin.hasFDerivAt_eq_zero (f := fun b => q1 b - min (q1 b) (q2 b)) (a := a)
      (Eventually.of_forall fun b => by simp [he]) (hg1.sub hd)
    have e2 := IsLocalMin.hasFDerivAt_eq_zero (f := fun b => q2 b - min (q1 b) (q2 b)) (a := a)
      (Eventually.of_forall fun b => by simp [he]) (hg2.sub hd)
    rw [sub_eq_zero] at e1 e2
    rw [e1, e2, ← add_smul]
    norm_num
    exact hd

theorem box_norm {a : Fin n → ℝ} (ha : a ∈ Spec.box n) : ‖a‖ ≤ 1 := by
  refine (pi_norm_le_iff_of_nonneg zero_le_one).2 fun i => ?_
  rw [Real.norm_eq_abs, abs_le]
  exact ⟨(ha i (mem_univ i)).1.le, (ha i (mem_univ i)).2.le⟩

theorem zero_box : (0 : Fin n → ℝ) ∈ Spec.box n := fun _ _ => by simp

theorem box_bound {q : (Fin n → ℝ) → ℝ} {K : NNReal} (h : LipschitzOnWith K q (Spec.box n)) {a : Fin n → ℝ} (ha : a ∈ Spec.box n) :
    |q a| ≤ |q 0| + K := by
  have := h.dist_le_mul a ha 0 zero_box
  rw [Real.dist_eq, dist_zero_right] at this
  have h2 : (K : ℝ) * ‖a‖ ≤ K := mul_le_of_le_one_right K.2 (box_norm ha)
  have h3 : |q a| ≤ |q 0| + |q a - q 0| := by
    have := abs_add_le (q 0) (q a - q 0)
    rwa [add_sub_cancel] at this
  linarith

/-! ### Integrals over the noise -/

theorem int_coord (i : Fin n) : Integrable (fun z : Fin n → ℝ => z i) (Spec.noise n) := by
  have h : Integrable (fun x : ℝ => x) (gaussianReal 0 1) := (memLp_id_gaussianReal 1).integrable le_rfl
  exact (measurePreserving_eval (fun _ : Fin n => gaussianReal 0 1) i).integrable_comp_of_integrable h

theorem int_coord_sq (i : Fin n) : Integrable (fun z : Fin n → ℝ => z i ^ 2) (Spec.noise n) := by
  have h : Integrable (fun x : ℝ => x ^ 2) (gaussianReal 0 1) := (memLp_id_gaussianReal 2).integrable_sq
  exact (measurePreserving_eval (fun _ : Fin n => gaussianReal 0 1) i).integrable_comp_of_integrable h

theorem continuous_corr : Continuous corr := continuous_iff_continuousAt.2 fun x => (corr_deriv x).continuousAt

theorem int_corr (h : Head E n) (θ : E) (i : Fin n) : Integrable (fun z => corr (preTanh h θ z i)) (Spec.noise n) := by
  have hb : Integrable (fun z : Fin n → ℝ => 2 * (|h.mean θ i| + |z i| * |h.scale θ i|)) (Spec.noise n) :=
    ((integrable_const _).add ((int_coord i).abs.mul_const _)).const_mul 2
  refine hb.mono' ((continuous_corr.comp ((continuous_apply i).comp (continuous_preTanh h θ))).aestronglyMeasurable) ?_
  refine Eventually.of_forall fun z => ?_
  have h0 : corr 0 = 0 := by rw [corr_eq, Real.tanh_zero]; simp
  have := corr_lip (preTanh h θ z i) 0
  rw [h0, sub_zero, sub_zero] at this
  rw [Real.norm_eq_abs]
  refine this.trans (mul_le_mul_of_nonneg_left ?_ (by norm_num))
  rw [preTanh, ← abs_mul]
  exact abs_add_le _ _

theorem int_logProb (h : Head E n) (θ : E) (hs : ∀ i, h.scale θ i ≠ 0) :
    Integrable (fun z => logProb h θ (preTanh h θ z)) (Spec.noise n) := by
  simp only [logProb_eq h θ _ hs]
  refine integrable_finsetSum _ fun i _ => ?_
  exact ((((int_coord_sq i).neg.div_const 2).sub (integrable_const _)).sub (integrable_const _)).sub (int_corr h θ i)

theorem cont_q {q : (Fin n → ℝ) → ℝ} {K : NNReal} (hq : LipschitzOnWith K q (Spec.box n)) (h : Head E n) (θ : E) :
    Continuous fun z => q (rsample h θ z) :=
  hq.continuousOn.comp_continuous (continuous_rsample h θ) (rsample_mem h θ)

theorem int_q {q : (Fin n → ℝ) → ℝ} {K : NNReal} (hq : LipschitzOnWith K q (Spec.box n)) (h : Head E n) (θ : E) :
    Integrable (fun z => q (rsample h θ z)) (Spec.noise n) := by
  refine (integrable_const (|q 0| + K)).mono' (cont_q hq h θ).aestronglyMeasurable (Eventually.of_forall fun z => ?_)
  exact box_bound hq (rsample_mem h θ z)

/-! ### The divergence -/

theorem measurable_dens (m s : Fin n → ℝ) (hs : ∀ i, 0 < s i) : Measurable (dens m s) :=
  Finset.measurable_prod _ fun i _ => (Policies.squashed_density (m i) (hs i)).meas.comp (measurable_pi_apply i)

instance : IsFiniteMeasure (volume.restrict (Spec.box n)) := by
  refine ⟨?_⟩
  rw [Measure.restrict_apply_univ, Spec.box, volume_pi_pi]
  exact ENNReal.prod_lt_top fun i _ => by simp

theorem volume_box : volume (Spec.box n) ≠ 0 := by
  rw [Spec.box, volume_pi_pi, Finset.prod_ne_zero_iff]
  intro i _
  simp

theorem row_kl {temperature : ℝ} (ht : temperature ≠ 0) {q : (Fin n → ℝ) → ℝ} {K : NNReal} (hq : LipschitzOnWith K q (Spec.box n))
    (h : Head E n) (θ : E) (hs : ∀ i, 0 < h.scale θ i) :
    klDiv (Spec.policy h θ) (Spec.boltzmann temperature q) ≠ ⊤ ∧
    temperature * (klDiv (Spec.policy h θ) (Spec.boltzmann temperature q)).toReal =
      ∫ z, (temperature * logProb h θ (preTanh h θ z) - q (rsample h θ z)) ∂Spec.noise n
      + temperature * Real.log (∫ a in Spec.box n, Real.exp (q a / temperature)) := by
  have hP := policy_withDensity h θ hs
  have hmap := policy_law h θ
  have hmr := (continuous_rsample h θ).measurable.aemeasurable (μ := Spec.noise n)
  have hac : Spec.policy h θ ≪ volume.restrict (Spec.box n) := by
    rw [hP]; exact withDensity_absolutelyContinuous _ _
  have hmd := measurable_dens (h.mean θ) (h.scale θ) hs
  have hlm : AEStronglyMeasurable (fun a => Real.log (dens (h.mean θ) (h.scale θ) a)) ((Spec.noise n).map (rsample h θ)) :=
    (Real.measurable_log.comp hmd).aestronglyMeasurable
  have hllr : llr (Spec.policy h θ) (volume.restrict (Spec.box n)) =ᵐ[Spec.policy h θ]
      fun a => Real.log (dens (h.mean θ) (h.scale θ) a) := by
    refine hac.ae_le ?_
    have hrn := Measure.rnDeriv_withDensity (volume.restrict (Spec.box n)) (f := fun a => ENNReal.ofReal (dens (h.mean θ) (h.scale θ) a))
      hmd.ennreal_ofReal
    rw [← hP] at hrn
    filter_upwards [hrn, ae_restrict_mem isOpen_box.measurableSet] with a ha hb
    rw [llr, ha, ENNReal.toReal_ofReal ((dens_density h θ hs).nonneg a hb)]
  have hld : Integrable (fun a => Real.log (dens (h.mean θ) (h.scale θ) a)) (Spec.policy h θ) := by
    rw [← hmap, integrable_map_measure hlm hmr]
    have : ((fun a => Real.log (dens (h.mean θ) (h.scale θ) a)) ∘ rsample h θ) = fun z => logProb h θ (preTanh h θ z) :=
      funext fun z => log_dens h θ hs z
    rw [this]
    exact int_logProb h θ fun i => (hs i).ne'
  have hlld : Integrable (llr (Spec.policy h θ) (volume.restrict (Spec.box n))) (Spec.policy h θ) := hld.congr hllr.symm
  have hqm : AEStronglyMeasurable q (volume.restrict (Spec.box n)) := hq.continuousOn.aestronglyMeasurable isOpen_box.measurableSet
  have hqP : AEStronglyMeasurable q (Spec.policy h θ) := hqm.mono_ac hac
  have hqi : Integrable q (Spec.policy h θ) := by
    rw [← hmap] at hqP ⊢
    rw [integrable_map_measure hqP hmr]
    exact int_q hq h θ
  have hfi : Integrable (fun a => q a / temperature) (Spec.policy h θ) := hqi.div_const _
  have hexp : Integrable (fun a => Real.exp (q a / temperature)) (volume.restrict (Spec.box n)) := by
    refine (integrable_const (Real.exp ((|q 0| + K) / |temperature|))).mono'
      (by simpa only [div_eq_mul_inv] using Real.continuous_exp.comp_aestronglyMeasurable (hqm.mul_const temperature⁻¹)) ?_
    filter_upwards [ae_restrict_mem isOpen_box.measurableSet] with a ha
    rw [Real.norm_eq_abs, abs_of_pos (Real.exp_pos _)]
    refine Real.exp_le_exp.2 ((le_abs_self _).trans ?_)
    rw [abs_div]
    exact div_le_div_of_nonneg_right (box_bound hq ha) (abs_nonneg _)
  have hne : NeZero (volume.restrict (Spec.box n)) := ⟨by rw [ne_eq, Measure.restrict_eq_zero]; exact volume_box⟩
  have hprob : IsProbabilityMeasure (Spec.boltzmann temperature q) := isProbabilityMeasure_tilted hexp
  have hact : Spec.policy h θ ≪ Spec.boltzmann temperature q := hac.trans (absolutelyContinuous_tilted hexp)
  have hint := integrable_llr_tilted_right hac hfi hlld hexp
  refine ⟨InformationTheory.klDiv_ne_top hact hint, ?_⟩
  rw [InformationTheory.toReal_klDiv_of_measure_eq hact (by rw [measure_univ, measure_univ]), Spec.boltzmann,
    integral_llr_tilted_right hac hfi hexp hlld, integral_congr_ae hllr, integral_div,
    integral_sub ((int_logProb h θ fun i => (hs i).ne').const_mul _) (int_q hq h θ), integral_const_mul]
  have e1 : ∫ a, Real.log (dens (h.mean θ) (h.scale θ) a) ∂Spec.policy h θ = ∫ z, logProb h θ (preTanh h θ z) ∂Spec.noise n := by
    rw [← hmap, integral_map hmr hlm]
    exact integral_congr_ae (Eventually.of_forall fun z => log_dens h θ hs z)
  have e2 : ∫ a, q a ∂Spec.policy h θ = ∫ z, q (rsample h θ z) ∂Spec.noise n := by
    rw [← hmap] at hqP ⊢
    rw [integral_map hmr hqP]
  rw [e1, e2]
  field_simp

/-! ### The gradient -/

section Grad

variable {h : Head E n} {dmean dscale : Fin n → E →L[ℝ] ℝ} {θ₀ : E}

theorem preTanh_deriv (hm : ∀ i, HasFDerivAt (fun θ => h.mean θ i) (dmean i) θ₀)
    (hsc : ∀ i, HasFDerivAt (fun θ => h.scale θ i) (dscale i) θ₀) (z : Fin n → ℝ) (i : Fin n) :
    HasFDerivAt (fun θ => preTanh h θ z i) (preTanhGrad dmean dscale z i) θ₀ :=
  (hm i).add ((hsc i).const_mul (z i))

theorem rsample_deriv (hm : ∀ i, HasFDerivAt (fun θ => h.mean θ i) (dmean i) θ₀)
    (hsc : ∀ i, HasFDerivAt (fun θ => h.scale θ i) (dscale i) θ₀) (z : Fin n → ℝ) :
    HasFDerivAt (fun θ => rsample h θ z)
      (ContinuousLinearMap.pi fun i => (1 - rsample h θ₀ z i ^ 2) • preTanhGrad dmean dscale z i) θ₀ := by
  rw [hasFDerivAt_pi]
  intro i
  exact (Policies.tanh_deriv _).comp_hasFDerivAt θ₀ (preTanh_deriv hm hsc z i)

theorem logProb_deriv (hm : ∀ i, HasFDerivAt (fun θ => h.mean θ i) (dmean i) θ₀)
    (hsc : ∀ i, HasFDerivAt (fun θ => h.scale θ i) (dscale i) θ₀) (hs : ∀ i, 0 < h.scale θ₀ i) (z : Fin n → ℝ) :
    HasFDerivAt (fun θ => logProb h θ (preTanh h θ z)) (∑ i, logProbGrad h dmean dscale θ₀ z i) θ₀ := by
  have e : (fun θ => logProb h θ (preTanh h θ z)) = fun θ => ∑ i, (-(preTanh h θ z i - h.mean θ i) ^ 2 / (2 * h.scale θ i ^ 2)
      - Real.log (h.scale θ i) - Real.log √(2 * Real.pi) - corr (preTanh h θ z i)) := by
    funext θ
    rw [logProb, ← Finset.sum_sub_distrib]
    rfl
  rw [e]
  refine HasFDerivAt.fun_sum fun i _ => ?_
  have hp := preTanh_deriv hm hsc z i
  have hsi := (hs i).ne'
  have hd := hp.fun_sub (hm i)
  have h1 : HasFDerivAt (fun θ => -(preTanh h θ z i - h.mean θ i) ^ 2 / (2 * h.scale θ i ^ 2))
      ((-(preTanh h θ₀ z i - h.mean θ₀ i) / h.scale θ₀ i ^ 2) • (preTanhGrad dmean dscale z i - dmean i)
        + ((preTanh h θ₀ z i - h.mean θ₀ i) ^ 2 / h.scale θ₀ i ^ 3) • dscale i) θ₀ := by
    have hi : HasFDerivAt (fun θ => (h.scale θ i)⁻¹) (-(h.scale θ₀ i ^ 2)⁻¹ • dscale i) θ₀ :=
      (hasDerivAt_inv hsi).comp_hasFDerivAt θ₀ (hsc i)
    have hu := hd.fun_mul hi
    have hx := (hu.fun_mul hu).const_mul (-1 / 2)
    have e1 : (fun θ => -(preTanh h θ z i - h.mean θ i) ^ 2 / (2 * h.scale θ i ^ 2))
        = fun θ => -1 / 2 * ((preTanh h θ z i - h.mean θ i) * (h.scale θ i)⁻¹ * ((preTanh h θ z i - h.mean θ i) * (h.scale θ i)⁻¹)) := by
      funext θ
      rw [div_eq_mul_inv, mul_inv, ← inv_pow]
      ring
    rw [e1]
    refine hx.congr_fderiv ?_
    ext v
    simp only [_root_.add_apply, _root_.smul_apply, _root_.sub_apply, smul_eq_mul]
    field_simp
    ring
  have h2 : HasFDerivAt (fun θ => Real.log (h.scale θ i)) ((1 / h.scale θ₀ i) • dscale i) θ₀ := by
    rw [one_div]
    exact (hsc i).log hsi
  have h3 := (corr_deriv (preTanh h θ₀ z i)).comp_hasFDerivAt θ₀ hp
  have h4 := ((h1.fun_sub h2).sub_const (Real.log √(2 * Real.pi))).fun_sub h3
  exact h4

theorem row_deriv (temperature : ℝ) {q : (Fin n → ℝ) → ℝ} {z : Fin n → ℝ} {L : (Fin n → ℝ) →L[ℝ] ℝ}
    (hm : ∀ i, HasFDerivAt (fun θ => h.mean θ i) (dmean i) θ₀)
    (hsc : ∀ i, HasFDerivAt (fun θ => h.scale θ i) (dscale i) θ₀) (hs : ∀ i, 0 < h.scale θ₀ i)
    (hq : HasFDerivAt q L (rsample h θ₀ z)) :
    HasFDerivAt (fun θ => temperature * logProb h θ (preTanh h θ z) - q (rsample h θ z))
      (temperature • ∑ i, logProbGrad h dmean dscale θ₀ z i
        - L.comp (ContinuousLinearMap.pi fun i => (1 - rsample h θ₀ z i ^ 2) • preTanhGrad dmean dscale z i)) θ₀ :=
  ((logProb_deriv hm hsc hs z).const_mul temperature).fun_sub (hq.comp θ₀ (rsample_deriv hm hsc z))

/-- What happens almost everywhere on the box happens for almost every noise. -/
theorem ae_noise (hs : ∀ i, 0 < h.scale θ₀ i) {p : (Fin n → ℝ) → Prop} (hp : ∀ᵐ a ∂volume.restrict (Spec.box n), p a) :
    ∀ᵐ z ∂Spec.noise n, p (rsample h θ₀ z) := by
  refine ae_of_ae_map (continuous_rsample h θ₀).measurable.aemeasurable ?_
  rw [policy_law, policy_withDensity h θ₀ hs]
  exact (withDensity_absolutelyContinuous _ _).ae_le hp

theorem grad_measurable (temperature : ℝ) {q : (Fin n → ℝ) → ℝ} {g : (Fin n → ℝ) → (Fin n → ℝ) →L[ℝ] ℝ}
    (hs : ∀ i, 0 < h.scale θ₀ i) (hg : ∀ᵐ a ∂volume.restrict (Spec.box n), HasFDerivAt q (g a) a) :
    AEStronglyMeasurable (fun z => temperature • ∑ i, logProbGrad h dmean dscale θ₀ z i
        - (g (rsample h θ₀ z)).comp (ContinuousLinearMap.pi fun i => (1 - rsample h θ₀ z i ^ 2) • preTanhGrad dmean dscale z i))
      (Spec.noise n) := by
  have hx : ∀ i, Continuous fun z => preTanh h θ₀ z i := fun i => (continuous_apply i).comp (continuous_preTanh h θ₀)
  have ha : ∀ i, Continuous fun z => rsample h θ₀ z i := fun i => (continuous_apply i).comp (continuous_rsample h θ₀)
  have hd : ∀ i, Continuous fun z => preTanhGrad dmean dscale z i := fun i => by
    unfold preTanhGrad; fun_prop
  have h1 : Continuous fun z => temperature • ∑ i, logProbGrad h dmean dscale θ₀ z i := by
    refine Continuous.const_smul (continuous_finsetSum _ fun i _ => ?_) temperature
    unfold logProbGrad
    have := hx i
    have := hd i
    have he : ∀ z, 1 + Real.exp (-2 * preTanh h θ₀ z i) ≠ 0 := fun z => by positivity
    have h5 : Continuous fun z => Real.exp (-2 * preTanh h θ₀ z i) / (1 + Real.exp (-2 * preTanh h θ₀ z i)) :=
      Continuous.div (by fun_prop) (by fun_prop) he
    fun_prop
  have h2 : Continuous fun z => (ContinuousLinearMap.pi fun i => (1 - rsample h θ₀ z i ^ 2) • preTanhGrad dmean dscale z i
      : E →L[ℝ] (Fin n → ℝ)) := by
    have e : (fun z => (ContinuousLinearMap.pi fun i => (1 - rsample h θ₀ z i ^ 2) • preTanhGrad dmean dscale z i
      : E →L[ℝ] (Fin n → ℝ))) = fun z => ∑ i, (1 - rsample h θ₀ z i ^ 2) •
        (ContinuousLinearMap.single ℝ (fun _ : Fin n => ℝ) i).comp (preTanhGrad dmean dscale z i) := by
      funext z
      ext v j
      simp [Finset.sum_apply, Pi.single_apply]
    rw [e]
    refine continuous_finsetSum _ fun i _ => ?_
    have := ha i
    have h3 : Continuous fun z => (ContinuousLinearMap.single ℝ (fun _ : Fin n => ℝ) i).comp (preTanhGrad dmean dscale z i) :=
      continuous_const.clm_comp (hd i)
    fun_prop
  refine h1.aestronglyMeasurable.sub ?_
  have h4 : AEStronglyMeasurable (fun z => g (rsample h θ₀ z)) (Spec.noise n) := by
    have hmq : Measurable fun z => fderiv ℝ q (rsample h θ₀ z) := (measurable_fderiv ℝ q).comp (continuous_rsample h θ₀).measurable
    refine hmq.stronglyMeasurable.aestronglyMeasurable.congr ?_
    filter_upwards [ae_noise hs hg] with z hz
    exact hz.fderiv
  have h6 : Continuous fun p : ((Fin n → ℝ) →L[ℝ] ℝ) × (E →L[ℝ] (Fin n → ℝ)) => p.1.comp p.2 :=
    continuous_fst.clm_comp continuous_snd
  exact h6.comp_aestronglyMeasurable (h4.prodMk h2.aestronglyMeasurable)

/-- A function with a derivative moves at most linearly. -/
theorem near {f : E → ℝ} {f' : E →L[ℝ] ℝ} (hf : HasFDerivAt f f' θ₀) : ∀ᶠ θ in 𝓝 θ₀, |f θ - f θ₀| ≤ (‖f'‖ + 1) * ‖θ - θ₀‖ := by
  have h1 := hf.isLittleO.bound (c := 1) one_pos
  filter_upwards [h1] with θ hθ
  have h2 := f'.le_opNorm (θ - θ₀)
  rw [one_mul] at hθ
  rw [← Real.norm_eq_abs]
  calc ‖f θ - f θ₀‖ = ‖(f θ - f θ₀ - f' (θ - θ₀)) + f' (θ - θ₀)‖ := by rw [sub_add_cancel]
    _ ≤ _ := norm_add_le _ _
    _ ≤ ‖θ - θ₀‖ + ‖f'‖ * ‖θ - θ₀‖ := add_le_add hθ h2
    _ = _ := by ring

theorem near_all {f : E → Fin n → ℝ} {f' : Fin n → E →L[ℝ] ℝ} (hf : ∀ i, HasFDerivAt (fun θ => f θ i) (f' i) θ₀) :
    ∃ K, 0 ≤ K ∧ ∀ᶠ θ in 𝓝 θ₀, ∀ i, |f θ i - f θ₀ i| ≤ K * ‖θ - θ₀‖ := by
  refine ⟨∑ i, (‖f' i‖ + 1), Finset.sum_nonneg fun i _ => by positivity, ?_⟩
  rw [eventually_all]
  intro i
  filter_upwards [near (hf i)] with θ hθ
  refine hθ.trans (mul_le_mul_of_nonneg_right ?_ (norm_nonneg _))
  exact Finset.single_le_sum (f := fun i => ‖f' i‖ + 1) (fun i _ => by positivity) (Finset.mem_univ i)

theorem row_integral (temperature : ℝ) {q : (Fin n → ℝ) → ℝ} {g : (Fin n → ℝ) → (Fin n → ℝ) →L[ℝ] ℝ} {Kq : NNReal}
    (hq : LipschitzOnWith Kq q (Spec.box n)) (hg : ∀ᵐ a ∂volume.restrict (Spec.box n), HasFDerivAt q (g a) a)
    (hm : ∀ i, HasFDerivAt (fun θ => h.mean θ i) (dmean i) θ₀)
    (hsc : ∀ i, HasFDerivAt (fun θ => h.scale θ i) (dscale i) θ₀) (hs : ∀ i, 0 < h.scale θ₀ i) :
    Integrable (fun z => temperature • ∑ i, logProbGrad h dmean dscale θ₀ z i
        - (g (rsample h θ₀ z)).comp (ContinuousLinearMap.pi fun i => (1 - rsample h θ₀ z i ^ 2) • preTanhGrad dmean dscale z i))
      (Spec.noise n) ∧
    HasFDerivAt (fun θ => ∫ z, (temperature * logProb h θ (preTanh h θ z) - q (rsample h θ z)) ∂Spec.noise n)
      (∫ z, (temperature • ∑ i, logProbGrad h dmean dscale θ₀ z i
        - (g (rsample h θ₀ z)).comp (ContinuousLinearMap.pi fun i => (1 - rsample h θ₀ z i ^ 2) • preTanhGrad dmean dscale z i))
        ∂Spec.noise n) θ₀ := by
  obtain ⟨K1, hK1, hn1⟩ := near_all hm
  obtain ⟨K2, hK2, hn2⟩ := near_all hsc
  obtain ⟨K3, hK3, hn3⟩ := near_all (f := fun θ i => Real.log (h.scale θ i)) fun i => (hsc i).log (hs i).ne'
  have hpos : ∀ᶠ θ in 𝓝 θ₀, ∀ i, 0 < h.scale θ i := by
    rw [eventually_all]
    exact fun i => (hsc i).continuousAt.eventually (lt_mem_nhds (hs i))
  have hne : ∀ i, h.scale θ₀ i ≠ 0 := fun i => (hs i).ne'
  set K := K1 + K2 + K3 with hK
  let s : Set E := {θ | (∀ i, |h.mean θ i - h.mean θ₀ i| ≤ K1 * ‖θ - θ₀‖) ∧ (∀ i, |h.scale θ i - h.scale θ₀ i| ≤ K2 * ‖θ - θ₀‖)
    ∧ (∀ i, |Real.log (h.scale θ i) - Real.log (h.scale θ₀ i)| ≤ K3 * ‖θ - θ₀‖) ∧ ∀ i, 0 < h.scale θ i}
  have hsn : s ∈ 𝓝 θ₀ := by
    filter_upwards [hn1, hn2, hn3, hpos] with θ a b c d
    exact ⟨a, b, c, d⟩
  let bound : (Fin n → ℝ) → ℝ := fun z => (|temperature| * (3 * K) + Kq * K) * ∑ i, (1 + |z i|)
  refine hasFDerivAt_integral_of_dominated_loc_of_lip' (bound := bound) hsn ?_ ?_ (grad_measurable temperature hs hg) ?_ ?_ ?_
  · rintro θ ⟨-, -, -, hp⟩
    exact (((int_logProb h θ fun i => (hp i).ne').const_mul temperature).sub (int_q hq h θ)).aestronglyMeasurable
  · exact ((int_logProb h θ₀ hne).const_mul temperature).sub (int_q hq h θ₀)
  · refine Eventually.of_forall fun z θ ⟨a, b, c, d⟩ => ?_
    have hx : ∀ i, |preTanh h θ z i - preTanh h θ₀ z i| ≤ K * (1 + |z i|) * ‖θ - θ₀‖ := fun i => by
      have e : preTanh h θ z i - preTanh h θ₀ z i = (h.mean θ i - h.mean θ₀ i) + z i * (h.scale θ i - h.scale θ₀ i) := by
        simp only [preTanh]; ring
      rw [e]
      refine (abs_add_le _ _).trans ?_
      rw [abs_mul]
      have h1 := a i
      have h2 := mul_le_mul_of_nonneg_left (b i) (abs_nonneg (z i))
      have h3 : K1 * ‖θ - θ₀‖ ≤ K * ‖θ - θ₀‖ := mul_le_mul_of_nonneg_right (by rw [hK]; linarith) (norm_nonneg _)
      have h4 : K2 * ‖θ - θ₀‖ ≤ K * ‖θ - θ₀‖ := mul_le_mul_of_nonneg_right (by rw [hK]; linarith) (norm_nonneg _)
      have h5 := mul_le_mul_of_nonneg_left h4 (abs_nonneg (z i))
      linarith
    have hD : 0 ≤ ‖θ - θ₀‖ := norm_nonneg _
    have hK0 : 0 ≤ K := by rw [hK]; linarith
    have hlp : |logProb h θ (preTanh h θ z) - logProb h θ₀ (preTanh h θ₀ z)| ≤ 3 * K * (∑ i, (1 + |z i|)) * ‖θ - θ₀‖ := by
      rw [logProb_eq h θ z fun i => (d i).ne', logProb_eq h θ₀ z hne, ← Finset.sum_sub_distrib, Finset.mul_sum, Finset.sum_mul]
      refine (Finset.abs_sum_le_sum_abs _ _).trans (Finset.sum_le_sum fun i _ => ?_)
      have e : -(z i) ^ 2 / 2 - Real.log (h.scale θ i) - Real.log √(2 * Real.pi) - corr (preTanh h θ z i)
          - (-(z i) ^ 2 / 2 - Real.log (h.scale θ₀ i) - Real.log √(2 * Real.pi) - corr (preTanh h θ₀ z i))
          = -(Real.log (h.scale θ i) - Real.log (h.scale θ₀ i)) + -(corr (preTanh h θ z i) - corr (preTanh h θ₀ z i)) := by ring
      rw [e]
      refine (abs_add_le _ _).trans ?_
      rw [abs_neg, abs_neg]
      have h1 := c i
      have h2 := corr_lip (preTanh h θ z i) (preTanh h θ₀ z i)
      have h3 := hx i
      have h4 : K3 * ‖θ - θ₀‖ ≤ K * ‖θ - θ₀‖ := mul_le_mul_of_nonneg_right (by rw [hK]; linarith) hD
      have h5 : 0 ≤ K * |z i| * ‖θ - θ₀‖ := by positivity
      nlinarith
    have hqp : |q (rsample h θ z) - q (rsample h θ₀ z)| ≤ Kq * K * (∑ i, (1 + |z i|)) * ‖θ - θ₀‖ := by
      have h1 := hq.dist_le_mul _ (rsample_mem h θ z) _ (rsample_mem h θ₀ z)
      rw [Real.dist_eq] at h1
      have h2 : dist (rsample h θ z) (rsample h θ₀ z) ≤ K * (∑ i, (1 + |z i|)) * ‖θ - θ₀‖ := by
        refine (dist_pi_le_iff (by positivity)).2 fun i => ?_
        rw [Real.dist_eq]
        refine ((tanh_lip _ _).trans (hx i)).trans (mul_le_mul_of_nonneg_right (mul_le_mul_of_nonneg_left ?_ hK0) hD)
        exact Finset.single_le_sum (f := fun i => 1 + |z i|) (fun i _ => by positivity) (Finset.mem_univ i)
      have h3 := mul_le_mul_of_nonneg_left h2 Kq.2
      refine h1.trans (h3.trans (le_of_eq ?_))
      rw [NNReal.val_eq_coe]; ring
    have e : temperature * logProb h θ (preTanh h θ z) - q (rsample h θ z) - (temperature * logProb h θ₀ (preTanh h θ₀ z) - q (rsample h θ₀ z))
        = temperature * (logProb h θ (preTanh h θ z) - logProb h θ₀ (preTanh h θ₀ z)) + -(q (rsample h θ z) - q (rsample h θ₀ z)) := by ring
    rw [e, Real.norm_eq_abs]
    refine (abs_add_le _ _).trans ?_
    rw [abs_mul, abs_neg]
    have h1 := mul_le_mul_of_nonneg_left hlp (abs_nonneg temperature)
    simp only [bound]
    linarith
  · exact (integrable_finsetSum _ fun i _ => (integrable_const 1).add (int_coord i).abs).const_mul _
  · filter_upwards [ae_noise hs hg] with z hz
    exact row_deriv temperature hm hsc hs hz

end Grad

theorem eval_batch {B : ℕ} (k : Fin B) : MeasurePreserving (Function.eval k) (Spec.batchNoise B n) (Spec.noise n) :=
  measurePreserving_eval (fun _ : Fin B => Spec.noise n) k

theorem int_eval {B : ℕ} (k : Fin B) {F : Type*} [NormedAddCommGroup F] [NormedSpace ℝ F] {f : (Fin n → ℝ) → F}
    (hf : Integrable f (Spec.noise n)) :
    Integrable (fun z : Fin B → Fin n → ℝ => f (z k)) (Spec.batchNoise B n) ∧
      ∫ z, f (z k) ∂Spec.batchNoise B n = ∫ z, f z ∂Spec.noise n := by
  have h := eval_batch (n := n) k
  refine ⟨h.integrable_comp_of_integrable hf, ?_⟩
  have h2 := integral_map h.measurable.aemeasurable (f := f) (by rw [h.map_eq]; exact hf.aestronglyMeasurable)
  rw [h.map_eq] at h2
  exact h2.symm

/-! ## C133 -/

/-- **C133, the log-probability.** The action drawn has the law of the policy, it is a possible action, and the log-probability that
the loss uses is the logarithm of the density of that law at the action. -/
theorem sac_log_prob (h : Head E n) (θ : E) (hs : ∀ i, 0 < h.scale θ i) :
    (Spec.noise n).map (rsample h θ) = Spec.policy h θ ∧
    ∃ f, Policies.Spec.Density (Spec.policy h θ) (Spec.box n) f ∧
      ∀ z, rsample h θ z ∈ Spec.box n ∧ 0 < f (rsample h θ z) ∧ logProb h θ (preTanh h θ z) = Real.log (f (rsample h θ z)) :=
  ⟨policy_law h θ, dens (h.mean θ) (h.scale θ), dens_density h θ hs,
    fun z => ⟨rsample_mem h θ z, dens_pos h θ hs z, (log_dens h θ hs z).symm⟩⟩

/-- **C133, the loss.** Averaged over the noise, the loss is the divergence from the Boltzmann policies of the smaller critics, up to a
number that does not depend on the policy. -/
theorem sac_loss_divergence {B : ℕ} {temperature : ℝ} (ht : 0 < temperature) (rows : Fin B → Row E n)
    (h1 : ∀ k, Spec.Critic (rows k).q1 (rows k).g1) (h2 : ∀ k, Spec.Critic (rows k).q2 (rows k).g2) (θ : E)
    (hs : ∀ k i, 0 < (rows k).head.scale θ i) :
    (∀ k, klDiv (Spec.policy (rows k).head θ)
      (Spec.boltzmann temperature fun a => min ((rows k).q1 a) ((rows k).q2 a)) ≠ ⊤) ∧
    Integrable (loss temperature rows θ) (Spec.batchNoise B n) ∧
    ∫ z, loss temperature rows θ z ∂Spec.batchNoise B n = Spec.objective temperature rows θ
      - (∑ k, temperature * Real.log (∫ a in Spec.box n, Real.exp (min ((rows k).q1 a) ((rows k).q2 a) / temperature))) / B := by
  choose K hK using fun k => min_lip (h1 k) (h2 k)
  have hkl := fun k => row_kl ht.ne' (hK k) (rows k).head θ (hs k)
  have hi : ∀ k, Integrable (fun z => rowLoss temperature (rows k).q1 (rows k).q2 (rows k).head θ z) (Spec.noise n) := fun k =>
    ((int_logProb (rows k).head θ fun i => (hs k i).ne').const_mul _).sub (int_q (hK k) (rows k).head θ)
  refine ⟨fun k => (hkl k).1, (integrable_finsetSum _ fun k _ => (int_eval k (hi k)).1).div_const _, ?_⟩
  simp only [loss, Spec.objective]
  rw [integral_div, integral_finsetSum _ fun k _ => (int_eval k (hi k)).1, ← sub_div, ← Finset.sum_sub_distrib]
  congr 1
  refine Finset.sum_congr rfl fun k _ => ?_
  rw [(int_eval k (hi k)).2, (hkl k).2, add_sub_cancel_right]
  rfl

/-- **C133, the gradient.** For almost every noise, backpropagation computes the gradient of the loss, also where the two critics
agree.  Averaged over the noise, it is the gradient of the divergence from the Boltzmann policies. -/
theorem sac_policy_gradient {B : ℕ} {temperature : ℝ} (ht : 0 < temperature) (rows : Fin B → Row E n) (θ : E)
    (hr : ∀ k, Spec.Right (rows k) θ) :
    (∀ᵐ z ∂Spec.batchNoise B n, HasFDerivAt (fun θ => loss temperature rows θ z) (backward temperature rows θ z) θ) ∧
    Integrable (backward temperature rows θ) (Spec.batchNoise B n) ∧
    HasFDerivAt (Spec.objective temperature rows) (∫ z, backward temperature rows θ z ∂Spec.batchNoise B n) θ := by
  choose K hK using fun k => min_lip (hr k).q1 (hr k).q2
  have hg := fun k => min_grad (hr k).q1 (hr k).q2
  have hrow := fun k => row_integral temperature (hK k) (hg k) (hr k).mean (hr k).scale (hr k).pos
  have hgi : ∀ k, Integrable (rowGrad temperature (rows k).q1 (rows k).q2 (rows k).g1 (rows k).g2 (rows k).head ((rows k).dmean θ)
    ((rows k).dscale θ) θ) (Spec.noise n) := fun k => (hrow k).1
  refine ⟨?_, ?_, ?_⟩
  · have hall : ∀ᵐ z ∂Spec.batchNoise B n, ∀ k, HasFDerivAt (fun a => min ((rows k).q1 a) ((rows k).q2 a))
        (minGrad (rows k).q1 (rows k).q2 (rows k).g1 (rows k).g2 (rsample (rows k).head θ (z k))) (rsample (rows k).head θ (z k)) := by
      rw [ae_all_iff]
      exact fun k => (eval_batch k).quasiMeasurePreserving.ae (ae_noise (hr k).pos (hg k))
    filter_upwards [hall] with z hz
    have h1 : HasFDerivAt (fun θ => ∑ k, rowLoss temperature (rows k).q1 (rows k).q2 (rows k).head θ (z k))
        (∑ k, rowGrad temperature (rows k).q1 (rows k).q2 (rows k).g1 (rows k).g2 (rows k).head ((rows k).dmean θ)
          ((rows k).dscale θ) θ (z k)) θ :=
      HasFDerivAt.fun_sum fun k _ => row_deriv temperature (hr k).mean (hr k).scale (hr k).pos (hz k)
    have h2 := h1.const_mul (1 / B : ℝ)
    refine h2.congr_of_eventuallyEq (Eventually.of_forall fun θ => ?_)
    simp only [loss]
    ring
  · exact (integrable_finsetSum _ fun k _ => (int_eval k (hgi k)).1).smul (1 / B : ℝ)
  · have hpos : ∀ᶠ θ' in 𝓝 θ, ∀ k i, 0 < (rows k).head.scale θ' i := by
      rw [eventually_all]
      intro k
      rw [eventually_all]
      exact fun i => ((hr k).scale i).continuousAt.eventually (lt_mem_nhds ((hr k).pos i))
    have e1 : ∫ z, backward temperature rows θ z ∂Spec.batchNoise B n = (1 / B : ℝ) • ∑ k, ∫ z, rowGrad temperature (rows k).q1
        (rows k).q2 (rows k).g1 (rows k).g2 (rows k).head ((rows k).dmean θ) ((rows k).dscale θ) θ z ∂Spec.noise n := by
      simp only [backward]
      rw [integral_smul, integral_finsetSum _ fun k _ => (int_eval k (hgi k)).1]
      congr 1
      exact Finset.sum_congr rfl fun k _ => (int_eval k (hgi k)).2
    rw [e1]
    have h1 : HasFDerivAt (fun θ => ∑ k, (∫ z, (temperature * logProb (rows k).head θ (preTanh (rows k).head θ z)
          - min ((rows k).q1 (rsample (rows k).head θ z)) ((rows k).q2 (rsample (rows k).head θ z))) ∂Spec.noise n
          + temperature * Real.log (∫ a in Spec.box n, Real.exp (min ((rows k).q1 a) ((rows k).q2 a) / temperature))))
        (∑ k, ∫ z, rowGrad temperature (rows k).q1 (rows k).q2 (rows k).g1 (rows k).g2 (rows k).head ((rows k).dmean θ)
          ((rows k).dscale θ) θ z ∂Spec.noise n) θ :=
      HasFDerivAt.fun_sum fun k _ => (hrow k).2.add_const _
    refine (h1.const_mul (1 / B : ℝ)).congr_of_eventuallyEq ?_
    filter_upwards [hpos] with θ' hp
    rw [Spec.objective, div_eq_mul_inv, mul_comm, one_div]
    congr 1
    exact Finset.sum_congr rfl fun k _ => (row_kl ht.ne' (hK k) (rows k).head θ' (hp k)).2

/-- **C133, descent.** A small step against the expected gradient brings the policies closer to the Boltzmann policies, unless the
expected gradient is zero. -/
theorem sac_policy_descends {F : Type*} [NormedAddCommGroup F] [InnerProductSpace ℝ F] [CompleteSpace F] {B : ℕ} {temperature : ℝ}
    (ht : 0 < temperature) (rows : Fin B → Row F n) (θ : F) (hr : ∀ k, Spec.Right (rows k) θ) :
    let g := (InnerProductSpace.toDual ℝ F).symm (∫ z, backward temperature rows θ z ∂Spec.batchNoise B n)
    g ≠ 0 → ∀ᶠ lr : ℝ in 𝓝[>] 0, Spec.objective temperature rows (θ - lr • g) < Spec.objective temperature rows θ := by
  intro g hg
  have h := (sac_policy_gradient ht rows θ hr).2.2
  have hl : HasDerivAt (fun lr : ℝ => θ - lr • g) (-g) 0 := by
    have := ((hasDerivAt_id (0 : ℝ)).smul_const g).const_sub θ
    simpa using this
  have h0 : HasFDerivAt (Spec.objective temperature rows) (∫ z, backward temperature rows θ z ∂Spec.batchNoise B n)
      (θ - (0 : ℝ) • g) := by simpa using h
  have hd := h0.comp_hasDerivAt (0 : ℝ) hl
  have e : (∫ z, backward temperature rows θ z ∂Spec.batchNoise B n) (-g) = -(‖g‖ ^ 2) := by
    have : (∫ z, backward temperature rows θ z ∂Spec.batchNoise B n) = InnerProductSpace.toDual ℝ F g := by simp [g]
    rw [this, map_neg, InnerProductSpace.toDual_apply_apply, real_inner_self_eq_norm_sq]
  rw [e] at hd
  have hneg : -(‖g‖ ^ 2) < 0 := by
    have := norm_pos_iff.2 hg
    have := pow_pos this 2
    linarith
  have hev := ((hasDerivAt_iff_tendsto_slope.1 hd).mono_left (nhdsWithin_mono 0 fun x (hx : 0 < x) => hx.ne')).eventually
    (gt_mem_nhds hneg)
  filter_upwards [hev, self_mem_nhdsWithin] with lr hlr hpos
  rw [slope_def_field, div_lt_iff₀ (by simpa using hpos)] at hlr
  simp only [Function.comp, zero_smul, sub_zero, zero_mul] at hlr
  linarith

/-- **C133, the head.** Whatever the network computes, the scale is positive: it is between `exp (-20)` and `exp 2`. -/
theorem head_scale (out : ℝ) : 0 < headScale out ∧ Real.exp (-20) ≤ headScale out ∧ headScale out ≤ Real.exp 2 ∧
    (out ∈ Icc (-20 : ℝ) 2 → headScale out = Real.exp out) := by
  have e : headScale out = Real.exp (min (max out (-20)) 2) := by
    rw [headScale, mul_two, Real.exp_add, Real.sqrt_mul_self (Real.exp_pos _).le]
  rw [e]
  refine ⟨Real.exp_pos _, Real.exp_le_exp.2 (le_min (le_max_right _ _) (by norm_num)), Real.exp_le_exp.2 (min_le_right _ _),
    fun h => ?_⟩
  rw [max_eq_left h.1, min_eq_left h.2]

/-! ## Non-vacuity -/

/-- One state and one parameter, the mean; the critics are `a` and `0`, which agree at `0`, with a kink. -/
noncomputable def kink : Row ℝ 1 where
  head := ⟨fun θ _ => θ, fun _ _ => headScale 0⟩
  dmean := fun _ _ => ContinuousLinearMap.id ℝ ℝ
  dscale := fun _ _ => 0
  q1 := fun a => a 0
  q2 := fun _ => 0
  g1 := fun _ => ContinuousLinearMap.proj 0
  g2 := fun _ => 0

theorem kink_right (θ : ℝ) : Spec.Right kink θ where
  mean := fun _ => hasFDerivAt_id θ
  scale := fun _ => hasFDerivAt_const _ _
  pos := fun _ => (head_scale 0).1
  q1 := by
    refine ⟨⟨1, LipschitzWith.lipschitzOnWith (LipschitzWith.eval 0)⟩, Eventually.of_forall fun a => ?_⟩
    exact (ContinuousLinearMap.proj (R := ℝ) (φ := fun _ : Fin 1 => ℝ) 0).hasFDerivAt
  q2 := ⟨⟨0, LipschitzWith.lipschitzOnWith (LipschitzWith.const 0)⟩, Eventually.of_forall fun _ => hasFDerivAt_const _ _⟩

/-- The theorems apply to it, for every parameter and batch size. -/
example (θ : ℝ) (B : ℕ) : HasFDerivAt (Spec.objective (1 / 5) fun _ : Fin B => kink)
    (∫ z, backward (1 / 5) (fun _ : Fin B => kink) θ z ∂Spec.batchNoise B 1) θ :=
  (sac_policy_gradient (by norm_num) _ θ fun _ => kink_right θ).2.2

example (θ : ℝ) (z : Fin 1 → ℝ) : rsample kink.head θ z 0 = Real.tanh (θ + z 0) := by
  have : headScale 0 = 1 := by rw [(head_scale 0).2.2.2 (by norm_num), Real.exp_zero]
  simp [rsample, preTanh, kink, this]

/-- Half of the gradient of either critic is passed back where they agree. -/
example : minGrad kink.q1 kink.q2 kink.g1 kink.g2 0 = (1 / 2 : ℝ) • ContinuousLinearMap.proj 0 := by
  simp [minGrad, kink]

/-- At the parameter `0` the expected gradient is not zero: the actor moves. -/
example : (InnerProductSpace.toDual ℝ ℝ).symm (∫ z, backward (1 / 5) (fun _ : Fin 1 => kink) 0 z ∂Spec.batchNoise 1 1) ≠ 0 := by
  have hs : headScale 0 = 1 := by rw [(head_scale 0).2.2.2 (by norm_num), Real.exp_zero]
  have hi := (sac_policy_gradient (by norm_num : (0 : ℝ) < 1 / 5) (fun _ : Fin 1 => kink) 0 fun _ => kink_right 0).2.1
  have he : ∀ z, backward (1 / 5) (fun _ : Fin 1 => kink) 0 z 1 = 1 / 5 * (2 * Real.tanh (z 0 0))
      - (if Real.tanh (z 0 0) < 0 then 1 else if 0 < Real.tanh (z 0 0) then 0 else 1 / 2) * (1 - Real.tanh (z 0 0) ^ 2) := fun z => by
    have hc : 2 * (-1 + 2 * (Real.exp (-2 * z 0 0) / (1 + Real.exp (-2 * z 0 0)))) = -(2 * Real.tanh (z 0 0)) := by
      have h1 := corr_deriv (z 0 0)
      have h2 : HasDerivAt corr (-(2 * Real.tanh (z 0 0))) (z 0 0) := by
        have hm := tanh_mem (z 0 0)
        have hp : 1 - Real.tanh (z 0 0) ^ 2 ≠ 0 := by nlinarith [hm.1, hm.2]
        have := (((Policies.tanh_deriv (z 0 0)).fun_pow 2).const_sub 1).log hp
        have e : corr = fun x => Real.log (1 - Real.tanh x ^ 2) := funext corr_eq
        rw [e]
        refine this.congr_deriv ?_
        rw [div_eq_iff hp]
        push_cast
        ring
      exact h1.unique h2
    simp only [backward, rowGrad, logProbGrad, minGrad, preTanhGrad, preTanh, rsample, kink, hs]
    simp only [Finset.univ_unique, Fin.default_eq_zero, Finset.sum_singleton, Nat.cast_one, div_one, one_smul, zero_add, mul_one]
    rw [hc]
    split_ifs <;> simp
  let w : ℝ → ℝ := fun x => (if Real.tanh x < 0 then 1 else if 0 < Real.tanh x then 0 else 1 / 2) * (1 - Real.tanh x ^ 2)
  have hone : ∀ x, 0 < 1 - Real.tanh x ^ 2 := fun x => by nlinarith [(tanh_mem x).1, (tanh_mem x).2]
  have hw0 : ∀ x, 0 ≤ w x := fun x => mul_nonneg (by split_ifs <;> norm_num) (hone x).le
  have hw1 : ∀ x, w x ≤ 1 := fun x => by
    have h1 := hone x
    have h2 := sq_nonneg (Real.tanh x)
    simp only [w]
    split_ifs <;> linarith
  have hwm : Measurable w := by
    have htm := continuous_tanh.measurable
    refine Measurable.mul (Measurable.ite (measurableSet_lt htm measurable_const) measurable_const
      (Measurable.ite (measurableSet_lt measurable_const htm) measurable_const measurable_const)) (by fun_prop)
  have hwi : Integrable w (gaussianReal 0 1) := (integrable_const (1 : ℝ)).mono' hwm.aestronglyMeasurable
    (Eventually.of_forall fun x => by rw [Real.norm_eq_abs, abs_of_nonneg (hw0 x)]; exact hw1 x)
  have hti : Integrable Real.tanh (gaussianReal 0 1) := (integrable_const (1 : ℝ)).mono' continuous_tanh.aestronglyMeasurable
    (Eventually.of_forall fun x => abs_le.2 ⟨(tanh_mem x).1.le, (tanh_mem x).2.le⟩)
  have ht0 : ∫ x, Real.tanh x ∂gaussianReal 0 1 = 0 := by
    have h1 : (gaussianReal 0 1).map (fun x => -x) = gaussianReal 0 1 := by rw [gaussianReal_map_neg, neg_zero]
    have h2 := integral_map (μ := gaussianReal 0 1) (φ := fun x => -x) (f := Real.tanh) (by fun_prop)
      continuous_tanh.aestronglyMeasurable
    rw [h1] at h2
    simp only [Real.tanh_neg, integral_neg] at h2
    linarith
  intro h0
  have h1 : (∫ z, backward (1 / 5) (fun _ : Fin 1 => kink) 0 z ∂Spec.batchNoise 1 1) 1 = 0 := by
    have : (∫ z, backward (1 / 5) (fun _ : Fin 1 => kink) 0 z ∂Spec.batchNoise 1 1) = 0 := by simpa using h0
    rw [this]; rfl
  rw [ContinuousLinearMap.integral_apply hi] at h1
  simp only [he] at h1
  have hF : Integrable (fun x => 1 / 5 * (2 * Real.tanh x) - w x) (gaussianReal 0 1) := ((hti.const_mul 2).const_mul _).sub hwi
  have hev := measurePreserving_eval (fun _ : Fin 1 => gaussianReal 0 1) 0
  have h2 := (int_eval (B := 1) (n := 1) 0 (f := fun y => 1 / 5 * (2 * Real.tanh (y 0)) - w (y 0))
    (hev.integrable_comp_of_integrable hF)).2
  have h3 := integral_map hev.measurable.aemeasurable (f := fun x => 1 / 5 * (2 * Real.tanh x) - w x)
    (by rw [hev.map_eq]; exact hF.aestronglyMeasurable)
  rw [hev.map_eq] at h3
  have h4 : ∫ x, (1 / 5 * (2 * Real.tanh x) - w x) ∂gaussianReal 0 1 = 0 := (h3.trans h2.symm).trans h1
  rw [integral_sub ((hti.const_mul 2).const_mul _) hwi, integral_const_mul, integral_const_mul, ht0] at h4
  have h5 : ∫ x, w x ∂gaussianReal 0 1 = 0 := by linarith
  rw [integral_eq_zero_iff_of_nonneg hw0 hwi] at h5
  have h6 : ∀ᵐ x : ℝ, w x = 0 := (gaussianReal_absolutelyContinuous' 0 one_ne_zero).ae_le h5
  have h7 : volume (Iio (0 : ℝ)) = 0 := by
    refine measure_mono_null (fun x hx => ?_) h6
    have hneg : Real.tanh x < 0 := by
      rw [Real.tanh_eq_sinh_div_cosh]
      exact div_neg_of_neg_of_pos (Real.sinh_neg_iff.2 hx) (Real.cosh_pos x)
    show ¬ w x = 0
    simp only [w]
    rw [if_pos hneg, one_mul]
    exact (hone x).ne'
  simp at h7

end Pfrl.Sac.Actor
