import Mathlib.Analysis.Calculus.Gradient.Basic
import Mathlib.Analysis.Calculus.Taylor
import Mathlib.Analysis.SpecialFunctions.Log.Deriv
import Mathlib.Analysis.SpecialFunctions.ExpDeriv
import Mathlib.Analysis.InnerProductSpace.Calculus
import Mathlib.Analysis.InnerProductSpace.PiL2
import Mathlib.Analysis.SpecialFunctions.Log.NegMulLog
import Mathlib.Probability.Distributions.Gaussian.Real
import Verif.Agents.LineSearch

/-!
# TRPO's update of the policy (C116)
-/

namespace Pfrl.Trpo.Update

set_option linter.unusedSectionVars false

open scoped InnerProductSpace Gradient

variable {E : Type} [NormedAddCommGroup E] [InnerProductSpace ℝ E] [CompleteSpace E]
variable {S Act : Type} {N : Nat}

/-! ## Model -/

/-- A policy network with the distributions it returns, as functions of its parameters, the state and the action: `log_prob`, `entropy`,
and `kl s θ₀ θ` for `torch.distributions.kl_divergence` of the distribution with parameters `θ₀` from the one with parameters `θ`. -/
structure Policy (E S Act : Type) where
  logProb : E → S → Act → ℝ
  entropy : E → S → ℝ
  kl : S → E → E → ℝ

/-- A policy with `torch.distributions.Categorical` outputs (`pfrl/policies/softmax_policy.py:5-7`) over the actions `A`; `prob θ s a` are
its probabilities. -/
noncomputable def categorical {A : Type} [Fintype A] (prob : E → S → A → ℝ) : Policy E S A where
  logProb θ s a := Real.log (prob θ s a)
  entropy θ s := - ∑ a, prob θ s a * Real.log (prob θ s a)
  kl s θ₀ θ := ∑ a, prob θ₀ s a * (Real.log (prob θ₀ s a) - Real.log (prob θ s a))

/-- A policy with `torch.distributions.Independent(Normal(loc, scale), 1)` outputs (`pfrl/policies/gaussian_policy.py:6-123`) over vectors
with components `J`.  The divergence is as torch computes it. -/
noncomputable def gaussian {J : Type} [Fintype J] (loc scale : E → S → J → ℝ) : Policy E S (J → ℝ) where
  logProb θ s x := ∑ j, (- (x j - loc θ s j) ^ 2 / (2 * scale θ s j ^ 2) - Real.log (scale θ s j) - Real.log (Real.sqrt (2 * Real.pi)))
  entropy θ s := ∑ j, (1 / 2 + 1 / 2 * Real.log (2 * Real.pi) + Real.log (scale θ s j))
  kl s θ₀ θ := ∑ j, 1 / 2 * ((scale θ₀ s j / scale θ s j) ^ 2 + ((loc θ₀ s j - loc θ s j) / scale θ s j) ^ 2 - 1
    - Real.log ((scale θ₀ s j / scale θ s j) ^ 2))

/-- What the update reads of a transition in the dataset; `adv` after the standardisation of lines 440-442, if any. -/
structure Transition (S Act : Type) where
  state : S
  action : Act
  logProb : ℝ
  adv : ℝ

/-- `torch.mean` of a vector. -/
noncomputable def mean (x : Fin N → ℝ) : ℝ := (∑ i, x i) / N

/-- `_compute_gain`, `pfrl/agents/trpo.py:415-420`, as a function of the parameters of the policy. -/
noncomputable def gain (P : Policy E S Act) (batch : Fin N → Transition S Act) (coef : ℝ) (θ : E) : ℝ :=
  mean (fun i => Real.exp (P.logProb θ (batch i).state (batch i).action - (batch i).logProb) * (batch i).adv)
    + coef * mean fun i => P.entropy θ (batch i).state

/-- `kl` in `_compute_kl_constrained_step`, `trpo.py:560-562`, and `new_kl` in `_line_search`, lines 666-670. -/
noncomputable def meanKl (P : Policy E S Act) (batch : Fin N → Transition S Act) (θ₀ θ : E) : ℝ :=
  mean fun i => P.kl (batch i).state θ₀ θ

/-- `_hessian_vector_product`, `trpo.py:59-68`, for the gradient of `k` at parameters `θ₀`; `torch.autograd.grad` is taken to return the
gradient. -/
noncomputable def hessianVectorProduct (k : E → ℝ) (θ₀ v : E) : E := ∇ (fun θ => ⟪∇ k θ, v⟫_ℝ) θ₀

/-- `fisher_vector_product_func`, `trpo.py:572-575`. -/
noncomputable def fisherVectorProduct (k : E → ℝ) (damping : ℝ) (θ₀ v : E) : E := hessianVectorProduct k θ₀ v + damping • v

/-- `_compute_kl_constrained_step`, `trpo.py:557-598`. -/
noncomputable def fullStep (P : Policy E S Act) (batch : Fin N → Transition S Act) (coef damping tol : ℝ) (maxIter : Nat) (maxKl : ℝ) (θ₀ : E) :
    Option E :=
  klStep (fisherVectorProduct (meanKl P batch θ₀) damping θ₀) (∇ (gain P batch coef) θ₀) tol maxIter maxKl

/-- The parameters, a list of tensors given by their entries, as one vector. -/
noncomputable def ofParams (n : Nat) (params : List (List ℝ)) : EuclideanSpace ℝ (Fin n) := WithLp.toLp 2 fun i => params.flatten.getD i 0

/-- The gain and the divergence as the line search of C60 sees them: `evaluate_current_policy`, `trpo.py:633-634`, after the parameters have
been replaced.  They are numbers here, never infinite or NaN. -/
noncomputable def searched {n : Nat} (P : Policy (EuclideanSpace ℝ (Fin n)) S Act) (batch : Fin N → Transition S Act) (coef : ℝ)
    (θ₀ : EuclideanSpace ℝ (Fin n)) : Trpo.Policy ℝ where
  axpy a s b := a + s * b
  gainAt params := .fin (gain P batch coef (ofParams n params))
  klAt params := .fin (meanKl P batch θ₀ (ofParams n params))

/-- `_update_policy`, `trpo.py:422-477`; `none`: the step is NaN. -/
noncomputable def updatePolicy {n : Nat} (P : Policy (EuclideanSpace ℝ (Fin n)) S Act) (batch : Fin N → Transition S Act)
    (coef damping tol : ℝ) (maxIter : Nat) (maxKl : ℝ) (maxBacktrack : Nat) (params : List (List ℝ)) : Option (Result ℝ) :=
  let θ₀ := ofParams n params
  (fullStep P batch coef damping tol maxIter maxKl θ₀).map fun d =>
    lineSearch (searched P batch coef θ₀) (.fin (gain P batch coef θ₀)) maxKl maxBacktrack params (List.ofFn fun i => d i)

/-! ## Specification -/

/-- The Fisher information of the policy at the states of the batch, as a bilinear form: the mean over the states of the variance of the
score `⟪∇ log π(a | s), ·⟫` under the policy. -/
noncomputable def Spec.fisherCategorical {A : Type} [Fintype A] (prob : E → S → A → ℝ) (batch : Fin N → Transition S A) (θ₀ v w : E) : ℝ :=
  (∑ i, ∑ a, prob θ₀ (batch i).state a * (⟪∇ (fun θ => Real.log (prob θ (batch i).state a)) θ₀, v⟫_ℝ *
    ⟪∇ (fun θ => Real.log (prob θ (batch i).state a)) θ₀, w⟫_ℝ)) / N

/-- The Fisher information of independent normal distributions: `1 / σ²` for the mean and `2 / σ²` for the standard deviation. -/
noncomputable def Spec.fisherGaussian {J : Type} [Fintype J] (loc scale : E → S → J → ℝ) (batch : Fin N → Transition S (J → ℝ))
    (θ₀ v w : E) : ℝ :=
  (∑ i, ∑ j, (⟪∇ (fun θ => loc θ (batch i).state j) θ₀, v⟫_ℝ * ⟪∇ (fun θ => loc θ (batch i).state j) θ₀, w⟫_ℝ / scale θ₀ (batch i).state j ^ 2
    + 2 * (⟪∇ (fun θ => scale θ (batch i).state j) θ₀, v⟫_ℝ * ⟪∇ (fun θ => scale θ (batch i).state j) θ₀, w⟫_ℝ)
      / scale θ₀ (batch i).state j ^ 2)) / N

/-- The policies considered: softmax or other categorical distributions, and independent normal distributions, of networks that are twice
continuously differentiable in their parameters. -/
inductive Spec.Smooth : ∀ {Act : Type}, Policy E S Act → Prop
  | categorical {A : Type} [Fintype A] (prob : E → S → A → ℝ) (pos : ∀ θ s a, 0 < prob θ s a) (one : ∀ θ s, ∑ a, prob θ s a = 1)
      (smooth : ∀ s a, ContDiff ℝ 2 fun θ => prob θ s a) : Spec.Smooth (categorical prob)
  | gaussian {J : Type} [Fintype J] (loc scale : E → S → J → ℝ) (pos : ∀ θ s j, 0 < scale θ s j)
      (smoothLoc : ∀ s j, ContDiff ℝ 2 fun θ => loc θ s j) (smoothScale : ∀ s j, ContDiff ℝ 2 fun θ => scale θ s j) :
      Spec.Smooth (gaussian loc scale)

/-! ## Lemmas -/

theorem line_hasDerivAt (θ₀ w : E) (t : ℝ) : HasDerivAt (fun t : ℝ => θ₀ + t • w) w t := by
  simpa using ((hasDerivAt_id t).smul_const w).const_add θ₀

theorem first_line {f : E → ℝ} (hf : Differentiable ℝ f) (θ₀ w : E) :
    HasDerivAt (fun t : ℝ => f (θ₀ + t • w)) (⟪∇ f θ₀, w⟫_ℝ) 0 := by
  rw [inner_gradient_left]
  have h2 : HasDerivAt (fun t : ℝ => f (θ₀ + t • w)) _ 0 :=
    (hf (θ₀ + (0 : ℝ) • w)).hasFDerivAt.comp_hasDerivAt (0 : ℝ) (line_hasDerivAt θ₀ w 0)
  rwa [zero_smul, add_zero] at h2

/-- Derivative of the directional derivative. -/
theorem second_line {k : E → ℝ} (hk : ContDiff ℝ 2 k) (θ₀ v w : E) :
    HasDerivAt (fun t : ℝ => fderiv ℝ k (θ₀ + t • w) v) (⟪hessianVectorProduct k θ₀ v, w⟫_ℝ) 0 := by
  have hd : Differentiable ℝ (fderiv ℝ k) := (hk.fderiv_right (m := 1) (by norm_num)).differentiable (by norm_num)
  have h1 : (fun θ => ⟪∇ k θ, v⟫_ℝ) = fun θ => fderiv ℝ k θ v := by
    funext θ
    exact inner_gradient_left
  have hdiff : Differentiable ℝ fun θ => fderiv ℝ k θ v := hd.clm_apply (differentiable_const v)
  unfold hessianVectorProduct
  rw [h1]
  exact first_line hdiff θ₀ w

/-! ### Categorical policies -/

section Cat

variable {A : Type} [Fintype A] {prob : E → S → A → ℝ} {batch : Fin N → Transition S A}

theorem kl_cat_contDiff (hpos : ∀ θ s a, 0 < prob θ s a) (hsm : ∀ s a, ContDiff ℝ 2 fun θ => prob θ s a) (θ₀ : E) :
    ContDiff ℝ 2 (meanKl (categorical prob) batch θ₀) := by
  unfold meanKl mean categorical
  refine ContDiff.div_const (ContDiff.sum fun i _ => ContDiff.sum fun a _ => ?_) _
  exact contDiff_const.mul (contDiff_const.sub ((hsm _ a).log fun θ => (hpos θ _ a).ne'))

theorem fderiv_kl_cat (hpos : ∀ θ s a, 0 < prob θ s a) (hsm : ∀ s a, ContDiff ℝ 2 fun θ => prob θ s a) (θ₀ θ v : E) :
    fderiv ℝ (meanKl (categorical prob) batch θ₀) θ v
      = (∑ i, ∑ a, - (prob θ₀ (batch i).state a * (fderiv ℝ (fun θ => prob θ (batch i).state a) θ v / prob θ (batch i).state a))) / N := by
  have hd : ∀ s a, DifferentiableAt ℝ (fun θ => prob θ s a) θ := fun s a => (hsm s a).differentiable (by norm_num) θ
  have h : HasFDerivAt (meanKl (categorical prob) batch θ₀)
      ((N : ℝ)⁻¹ • ∑ i, ∑ a, prob θ₀ (batch i).state a • (- ((prob θ (batch i).state a)⁻¹ • fderiv ℝ (fun θ => prob θ (batch i).state a) θ))) θ := by
    unfold meanKl mean categorical
    simp only [div_eq_inv_mul]
    refine HasFDerivAt.const_mul (HasFDerivAt.fun_sum fun i _ => HasFDerivAt.fun_sum fun a _ => ?_) _
    exact HasFDerivAt.const_mul (((hd _ a).hasFDerivAt.log (hpos θ _ a).ne').const_sub _) _
  rw [h.fderiv]
  simp only [smul_apply, sum_apply, neg_apply, smul_eq_mul]
  rw [div_eq_inv_mul]
  congr 1
  refine Finset.sum_congr rfl fun i _ => Finset.sum_congr rfl fun a _ => ?_
  rw [div_eq_inv_mul]
  ring

theorem sum_fderiv_prob (hone : ∀ θ s, ∑ a, prob θ s a = 1) (hsm : ∀ s a, ContDiff ℝ 2 fun θ => prob θ s a) (θ v : E) (s : S) :
    ∑ a, fderiv ℝ (fun θ => prob θ s a) θ v = 0 := by
  have h1 : HasFDerivAt (fun θ => ∑ a, prob θ s a) (∑ a, fderiv ℝ (fun θ => prob θ s a) θ) θ :=
    HasFDerivAt.fun_sum fun a _ => ((hsm s a).differentiable (by norm_num) θ).hasFDerivAt
  have h2 : (fun θ => ∑ a, prob θ s a) = fun _ => (1 : ℝ) := funext fun θ => hone θ s
  rw [h2] at h1
  have h3 := h1.unique (hasFDerivAt_const (1 : ℝ) θ)
  have := congrArg (fun L => L v) h3
  simpa [sum_apply] using this

theorem kl_cat_grad (hpos : ∀ θ s a, 0 < prob θ s a) (hone : ∀ θ s, ∑ a, prob θ s a = 1)
    (hsm : ∀ s a, ContDiff ℝ 2 fun θ => prob θ s a) (θ₀ : E) : ∇ (meanKl (categorical prob) batch θ₀) θ₀ = 0 := by
  refine ext_inner_right ℝ fun v => ?_
  rw [inner_gradient_left, fderiv_kl_cat hpos hsm, inner_zero_left]
  rw [Finset.sum_eq_zero, zero_div]
  intro i _
  rw [Finset.sum_neg_distrib, neg_eq_zero, ← sum_fderiv_prob hone hsm θ₀ v (batch i).state]
  refine Finset.sum_congr rfl fun a _ => ?_
  have := (hpos θ₀ (batch i).state a).ne'
  field_simp

theorem hvp_cat (hpos : ∀ θ s a, 0 < prob θ s a) (hone : ∀ θ s, ∑ a, prob θ s a = 1)
    (hsm : ∀ s a, ContDiff ℝ 2 fun θ => prob θ s a) (θ₀ v w : E) :
    ⟪hessianVectorProduct (meanKl (categorical prob) batch θ₀) θ₀ v, w⟫_ℝ = Spec.fisherCategorical prob batch θ₀ v w := by
  have h1 := second_line (kl_cat_contDiff (batch := batch) hpos hsm θ₀) θ₀ v w
  have hdiff : ∀ s a, Differentiable ℝ fun θ => prob θ s a := fun s a => (hsm s a).differentiable (by norm_num)
  have h2 : HasDerivAt (fun t : ℝ => fderiv ℝ (meanKl (categorical prob) batch θ₀) (θ₀ + t • w) v)
      ((∑ i, ∑ a, - (prob θ₀ (batch i).state a *
        ((⟪hessianVectorProduct (fun θ => prob θ (batch i).state a) θ₀ v, w⟫_ℝ * prob θ₀ (batch i).state a
          - fderiv ℝ (fun θ => prob θ (batch i).state a) θ₀ v * ⟪∇ (fun θ => prob θ (batch i).state a) θ₀, w⟫_ℝ)
          / prob θ₀ (batch i).state a ^ 2))) / N) 0 := by
    simp only [fderiv_kl_cat hpos hsm]
    refine HasDerivAt.div_const (HasDerivAt.fun_sum fun i _ => HasDerivAt.fun_sum fun a _ => ?_) _
    refine HasDerivAt.fun_neg (HasDerivAt.const_mul _ ?_)
    have := (second_line (hsm (batch i).state a) θ₀ v w).fun_div (first_line (hdiff (batch i).state a) θ₀ w)
      (by simpa using (hpos θ₀ (batch i).state a).ne')
    simpa using this
  rw [h1.unique h2]
  have hz : ∀ s, ∑ a, ⟪hessianVectorProduct (fun θ => prob θ s a) θ₀ v, w⟫_ℝ = 0 := by
    intro s
    have h3 : HasDerivAt (fun t : ℝ => ∑ a, fderiv ℝ (fun θ => prob θ s a) (θ₀ + t • w) v)
        (∑ a, ⟪hessianVectorProduct (fun θ => prob θ s a) θ₀ v, w⟫_ℝ) 0 :=
      HasDerivAt.fun_sum fun a _ => second_line (hsm s a) θ₀ v w
    simp only [sum_fderiv_prob hone hsm] at h3
    exact h3.unique (hasDerivAt_const _ _)
  unfold Spec.fisherCategorical
  congr 1
  refine Finset.sum_congr rfl fun i _ => ?_
  rw [← add_zero (∑ a, prob θ₀ (batch i).state a * _), ← neg_zero, ← hz (batch i).state, ← Finset.sum_neg_distrib, ← Finset.sum_add_distrib]
  refine Finset.sum_congr rfl fun a _ => ?_
  have hp := (hpos θ₀ (batch i).state a).ne'
  have hl : ∀ u : E, ⟪∇ (fun θ => Real.log (prob θ (batch i).state a)) θ₀, u⟫_ℝ
      = fderiv ℝ (fun θ => prob θ (batch i).state a) θ₀ u / prob θ₀ (batch i).state a := by
    intro u
    rw [inner_gradient_left, (((hdiff (batch i).state a) θ₀).hasFDerivAt.log hp).fderiv, smul_apply, smul_eq_mul,
      div_eq_inv_mul]
  rw [hl, hl, inner_gradient_left]
  field_simp
  ring

end Cat

/-! ### Gaussian policies -/

section Gauss

/-- One component of the divergence. -/
noncomputable def klComp (m s : E → ℝ) (θ₀ θ : E) : ℝ :=
  1 / 2 * ((s θ₀ / s θ) ^ 2 + ((m θ₀ - m θ) / s θ) ^ 2 - 1 - Real.log ((s θ₀ / s θ) ^ 2))

theorem klComp_contDiff {m s : E → ℝ} (hm : ContDiff ℝ 2 m) (hs : ContDiff ℝ 2 s) (hpos : ∀ θ, 0 < s θ) (θ₀ : E) :
    ContDiff ℝ 2 (klComp m s θ₀) := by
  unfold klComp
  have h1 : ContDiff ℝ 2 fun θ => (s θ₀ / s θ) ^ 2 := (contDiff_const.div hs fun θ => (hpos θ).ne').pow 2
  have h2 : ContDiff ℝ 2 fun θ => ((m θ₀ - m θ) / s θ) ^ 2 := ((contDiff_const.sub hm).div hs fun θ => (hpos θ).ne').pow 2
  exact contDiff_const.mul (((h1.add h2).sub contDiff_const).sub (h1.log fun θ => (pow_pos (div_pos (hpos θ₀) (hpos θ)) 2).ne'))

theorem fderiv_klComp {m s : E → ℝ} (hm : ContDiff ℝ 2 m) (hs : ContDiff ℝ 2 s) (hpos : ∀ θ, 0 < s θ) (θ₀ θ v : E) :
    fderiv ℝ (klComp m s θ₀) θ v
      = - (s θ₀ ^ 2 * fderiv ℝ s θ v / s θ ^ 3) - (m θ₀ - m θ) * fderiv ℝ m θ v / s θ ^ 2
        - (m θ₀ - m θ) ^ 2 * fderiv ℝ s θ v / s θ ^ 3 + fderiv ℝ s θ v / s θ := by
  have h1 := first_line ((klComp_contDiff hm hs hpos θ₀).differentiable (by norm_num)) θ v
  rw [inner_gradient_left] at h1
  have hm1 := first_line (hm.differentiable (by norm_num)) θ v
  have hs1 := first_line (hs.differentiable (by norm_num)) θ v
  rw [inner_gradient_left] at hm1 hs1
  have h0 : (θ + (0 : ℝ) • v) = θ := by simp
  have hne : s (θ + (0 : ℝ) • v) ≠ 0 := (hpos _).ne'
  have hr := ((hasDerivAt_const (0 : ℝ) (s θ₀)).fun_div hs1 hne).fun_pow 2
  have hq := ((hm1.const_sub (m θ₀)).fun_div hs1 hne).fun_pow 2
  have hl := hr.log (pow_pos (div_pos (hpos θ₀) (hpos _)) 2).ne'
  have h2 := (((hr.fun_add hq).sub_const 1).fun_sub hl).const_mul (1 / 2)
  have := h1.unique h2
  rw [this, h0]
  have hsp := (hpos θ).ne'
  have hsp0 := (hpos θ₀).ne'
  simp only [Nat.cast_ofNat, Nat.reduceSub, pow_one, zero_mul, zero_sub]
  field_simp
  ring

theorem hvp_klComp {m s : E → ℝ} (hm : ContDiff ℝ 2 m) (hs : ContDiff ℝ 2 s) (hpos : ∀ θ, 0 < s θ) (θ₀ v w : E) :
    ⟪hessianVectorProduct (klComp m s θ₀) θ₀ v, w⟫_ℝ
      = ⟪∇ m θ₀, v⟫_ℝ * ⟪∇ m θ₀, w⟫_ℝ / s θ₀ ^ 2 + 2 * (⟪∇ s θ₀, v⟫_ℝ * ⟪∇ s θ₀, w⟫_ℝ) / s θ₀ ^ 2 := by
  have h1 := second_line (klComp_contDiff hm hs hpos θ₀) θ₀ v w
  simp only [fderiv_klComp hm hs hpos] at h1
  have hm1 := first_line (hm.differentiable (by norm_num)) θ₀ w
  have hs1 := first_line (hs.differentiable (by norm_num)) θ₀ w
  have hm2 := second_line hm θ₀ v w
  have hs2 := second_line hs θ₀ v w
  have h0 : (θ₀ + (0 : ℝ) • w) = θ₀ := by simp
  have hne : s (θ₀ + (0 : ℝ) • w) ≠ 0 := (hpos _).ne'
  have ha := ((hs2.const_mul (s θ₀ ^ 2)).fun_div (hs1.fun_pow 3) (pow_ne_zero 3 hne)).fun_neg
  have hb := ((hm1.const_sub (m θ₀)).fun_mul hm2).fun_div (hs1.fun_pow 2) (pow_ne_zero 2 hne)
  have hc := (((hm1.const_sub (m θ₀)).fun_pow 2).fun_mul hs2).fun_div (hs1.fun_pow 3) (pow_ne_zero 3 hne)
  have hd := hs2.fun_div hs1 hne
  have := h1.unique (((ha.fun_sub hb).fun_sub hc).fun_add hd)
  rw [this, h0]
  simp only [← inner_gradient_left]
  have hsp := (hpos θ₀).ne'
  field_simp
  ring

theorem meanKl_gaussian {J : Type} [Fintype J] (loc scale : E → S → J → ℝ) (batch : Fin N → Transition S (J → ℝ)) (θ₀ : E) :
    meanKl (gaussian loc scale) batch θ₀
      = fun θ => (∑ i, ∑ j, klComp (fun θ => loc θ (batch i).state j) (fun θ => scale θ (batch i).state j) θ₀ θ) / N := rfl

/-- Second derivatives of means of sums. -/
theorem hvp_mean_sum {J : Type} [Fintype J] {k : Fin N → J → E → ℝ} (hk : ∀ i j, ContDiff ℝ 2 (k i j)) (θ₀ v w : E) :
    ⟪hessianVectorProduct (fun θ => (∑ i, ∑ j, k i j θ) / N) θ₀ v, w⟫_ℝ
      = (∑ i, ∑ j, ⟪hessianVectorProduct (k i j) θ₀ v, w⟫_ℝ) / N := by
  have hs : ContDiff ℝ 2 fun θ => (∑ i, ∑ j, k i j θ) / N :=
    ContDiff.div_const (ContDiff.sum fun i _ => ContDiff.sum fun j _ => hk i j) _
  have h1 := second_line hs θ₀ v w
  have hf : ∀ θ, fderiv ℝ (fun θ => (∑ i, ∑ j, k i j θ) / N) θ v = (∑ i, ∑ j, fderiv ℝ (k i j) θ v) / N := by
    intro θ
    have h : HasFDerivAt (fun θ => (∑ i, ∑ j, k i j θ) / N) ((N : ℝ)⁻¹ • ∑ i, ∑ j, fderiv ℝ (k i j) θ) θ := by
      simp only [div_eq_inv_mul]
      exact HasFDerivAt.const_mul (HasFDerivAt.fun_sum fun i _ => HasFDerivAt.fun_sum fun j _ =>
        ((hk i j).differentiable (by norm_num) θ).hasFDerivAt) _
    rw [h.fderiv]
    simp only [smul_apply, sum_apply, smul_eq_mul, div_eq_inv_mul]
  simp only [hf] at h1
  exact h1.unique (HasDerivAt.div_const (HasDerivAt.fun_sum fun i _ => HasDerivAt.fun_sum fun j _ => second_line (hk i j) θ₀ v w) _)

variable {J : Type} [Fintype J] {loc scale : E → S → J → ℝ} {batch : Fin N → Transition S (J → ℝ)}

theorem kl_gauss_contDiff (hpos : ∀ θ s j, 0 < scale θ s j) (hloc : ∀ s j, ContDiff ℝ 2 fun θ => loc θ s j)
    (hscale : ∀ s j, ContDiff ℝ 2 fun θ => scale θ s j) (θ₀ : E) : ContDiff ℝ 2 (meanKl (gaussian loc scale) batch θ₀) := by
  rw [meanKl_gaussian]
  exact ContDiff.div_const (ContDiff.sum fun i _ => ContDiff.sum fun j _ => klComp_contDiff (hloc _ j) (hscale _ j) (fun θ => hpos θ _ j) θ₀) _

theorem kl_gauss_grad (hpos : ∀ θ s j, 0 < scale θ s j) (hloc : ∀ s j, ContDiff ℝ 2 fun θ => loc θ s j)
    (hscale : ∀ s j, ContDiff ℝ 2 fun θ => scale θ s j) (θ₀ : E) : ∇ (meanKl (gaussian loc scale) batch θ₀) θ₀ = 0 := by
  refine ext_inner_right ℝ fun v => ?_
  rw [inner_gradient_left, inner_zero_left, meanKl_gaussian]
  have h : HasFDerivAt (fun θ => (∑ i, ∑ j, klComp (fun θ => loc θ (batch i).state j) (fun θ => scale θ (batch i).state j) θ₀ θ) / N)
      ((N : ℝ)⁻¹ • ∑ i, ∑ j, fderiv ℝ (klComp (fun θ => loc θ (batch i).state j) (fun θ => scale θ (batch i).state j) θ₀) θ₀) θ₀ := by
    simp only [div_eq_inv_mul]
    exact HasFDerivAt.const_mul (HasFDerivAt.fun_sum fun i _ => HasFDerivAt.fun_sum fun j _ =>
      ((klComp_contDiff (hloc _ j) (hscale _ j) (fun θ => hpos θ _ j) θ₀).differentiable (by norm_num) θ₀).hasFDerivAt) _
  rw [h.fderiv]
  simp only [smul_apply, sum_apply, smul_eq_mul]
  rw [Finset.sum_eq_zero, mul_zero]
  intro i _
  refine Finset.sum_eq_zero fun j _ => ?_
  rw [fderiv_klComp (hloc _ j) (hscale _ j) (fun θ => hpos θ _ j)]
  have := (hpos θ₀ (batch i).state j).ne'
  field_simp
  ring

theorem hvp_gauss (hpos : ∀ θ s j, 0 < scale θ s j) (hloc : ∀ s j, ContDiff ℝ 2 fun θ => loc θ s j)
    (hscale : ∀ s j, ContDiff ℝ 2 fun θ => scale θ s j) (θ₀ v w : E) :
    ⟪hessianVectorProduct (meanKl (gaussian loc scale) batch θ₀) θ₀ v, w⟫_ℝ = Spec.fisherGaussian loc scale batch θ₀ v w := by
  rw [meanKl_gaussian, hvp_mean_sum (fun i j => klComp_contDiff (hloc _ j) (hscale _ j) (fun θ => hpos θ _ j) θ₀)]
  unfold Spec.fisherGaussian
  congr 1
  refine Finset.sum_congr rfl fun i _ => Finset.sum_congr rfl fun j _ => ?_
  exact hvp_klComp (hloc _ j) (hscale _ j) (fun θ => hpos θ _ j) θ₀ v w

end Gauss

/-! ### Normal distributions -/

section Normal

open MeasureTheory ProbabilityTheory

theorem sq_integrable (μ c : ℝ) (v : NNReal) : Integrable (fun x => (x - c) ^ 2) (gaussianReal μ v) := by
  have h : MemLp (fun x : ℝ => x - c) 2 (gaussianReal μ v) := (memLp_id_gaussianReal' 2 (by simp)).sub (memLp_const c)
  exact h.integrable_sq

theorem sq_moment (μ c : ℝ) (v : NNReal) : ∫ x, (x - c) ^ 2 ∂gaussianReal μ v = v + (μ - c) ^ 2 := by
  have h1 : MemLp (fun x : ℝ => x) 2 (gaussianReal μ v) := memLp_id_gaussianReal' 2 (by simp)
  have h2 : Integrable (fun x : ℝ => x) (gaussianReal μ v) := h1.integrable (by norm_num)
  have h3 : Integrable (fun x : ℝ => x ^ 2) (gaussianReal μ v) := h1.integrable_sq
  have hv := variance_eq_sub (μ := gaussianReal μ v) h1
  rw [variance_fun_id_gaussianReal, integral_id_gaussianReal] at hv
  have hv' : ∫ x, x ^ 2 ∂gaussianReal μ v = v + μ ^ 2 := by
    have : ∫ x, ((fun x : ℝ => x) ^ 2) x ∂gaussianReal μ v = ∫ x, x ^ 2 ∂gaussianReal μ v := rfl
    rw [this] at hv
    linarith
  have he : ∀ x : ℝ, (x - c) ^ 2 = x ^ 2 - 2 * c * x + c ^ 2 := fun x => by ring
  simp only [he]
  have hI : Integrable (fun x : ℝ => x ^ 2 - 2 * c * x) (gaussianReal μ v) := h3.sub (h2.const_mul _)
  rw [integral_add hI (integrable_const _), integral_sub h3 (h2.const_mul _), integral_const_mul, hv',
    integral_id_gaussianReal]
  simp
  ring

theorem log_pdf (μ : ℝ) {s : ℝ} (hs : 0 < s) (x : ℝ) : Real.log (gaussianPDFReal μ (s ^ 2).toNNReal x)
    = - (x - μ) ^ 2 / (2 * s ^ 2) - Real.log s - Real.log (Real.sqrt (2 * Real.pi)) := by
  unfold gaussianPDFReal
  rw [Real.coe_toNNReal _ (sq_nonneg s), Real.sqrt_mul (by positivity), Real.sqrt_sq hs.le, Real.log_mul (by positivity) (Real.exp_pos _).ne',
    Real.log_inv, Real.log_mul (by positivity) hs.ne', Real.log_exp]
  ring

theorem comp_integral {μ₀ μ s₀ s : ℝ} (h0 : 0 < s₀) (hs : 0 < s) :
    ∫ x, (Real.log (gaussianPDFReal μ₀ (s₀ ^ 2).toNNReal x) - Real.log (gaussianPDFReal μ (s ^ 2).toNNReal x)) ∂gaussianReal μ₀ (s₀ ^ 2).toNNReal
      = 1 / 2 * ((s₀ / s) ^ 2 + ((μ₀ - μ) / s) ^ 2 - 1 - Real.log ((s₀ / s) ^ 2)) := by
  simp only [log_pdf _ h0, log_pdf _ hs]
  have he : ∀ x : ℝ, - (x - μ₀) ^ 2 / (2 * s₀ ^ 2) - Real.log s₀ - Real.log (Real.sqrt (2 * Real.pi))
      - (- (x - μ) ^ 2 / (2 * s ^ 2) - Real.log s - Real.log (Real.sqrt (2 * Real.pi)))
      = (x - μ) ^ 2 * (1 / (2 * s ^ 2)) - (x - μ₀) ^ 2 * (1 / (2 * s₀ ^ 2)) + (Real.log s - Real.log s₀) := fun x => by ring
  simp only [he]
  have hI : Integrable (fun x : ℝ => (x - μ) ^ 2 * (1 / (2 * s ^ 2)) - (x - μ₀) ^ 2 * (1 / (2 * s₀ ^ 2))) (gaussianReal μ₀ (s₀ ^ 2).toNNReal) :=
    ((sq_integrable _ _ _).mul_const _).sub ((sq_integrable _ _ _).mul_const _)
  rw [integral_add hI (integrable_const _),
    integral_sub ((sq_integrable _ _ _).mul_const _) ((sq_integrable _ _ _).mul_const _), integral_mul_const, integral_mul_const,
    sq_moment, sq_moment, Real.coe_toNNReal _ (sq_nonneg s₀), Real.log_pow, Real.log_div h0.ne' hs.ne']
  simp
  field_simp
  ring

theorem comp_entropy {μ s : ℝ} (hs : 0 < s) :
    - ∫ x, Real.log (gaussianPDFReal μ (s ^ 2).toNNReal x) ∂gaussianReal μ (s ^ 2).toNNReal
      = 1 / 2 + 1 / 2 * Real.log (2 * Real.pi) + Real.log s := by
  simp only [log_pdf _ hs]
  have he : ∀ x : ℝ, - (x - μ) ^ 2 / (2 * s ^ 2) - Real.log s - Real.log (Real.sqrt (2 * Real.pi))
      = (x - μ) ^ 2 * (- (1 / (2 * s ^ 2))) + (- Real.log s - Real.log (Real.sqrt (2 * Real.pi))) := fun x => by ring
  simp only [he]
  rw [integral_add ((sq_integrable _ _ _).mul_const _) (integrable_const _), integral_mul_const, sq_moment,
    Real.coe_toNNReal _ (sq_nonneg s), Real.log_sqrt (by positivity)]
  simp
  field_simp
  ring

end Normal

/-! ### Quadratic model and line search -/

/-- Hessian-vector products are linear in the vector. -/
theorem hvp_linear {k : E → ℝ} (hk : ContDiff ℝ 2 k) (θ₀ : E) : IsLinearMap ℝ (hessianVectorProduct k θ₀) := by
  constructor
  · intro v v'
    refine ext_inner_right ℝ fun w => ?_
    have h1 := second_line hk θ₀ (v + v') w
    simp only [map_add] at h1
    rw [inner_add_left]
    exact h1.unique ((second_line hk θ₀ v w).fun_add (second_line hk θ₀ v' w))
  · intro c v
    refine ext_inner_right ℝ fun w => ?_
    have h1 := second_line hk θ₀ (c • v) w
    simp only [map_smul, smul_eq_mul] at h1
    rw [real_inner_smul_left]
    exact h1.unique ((second_line hk θ₀ v w).const_mul c)

/-- What the second order model of the divergence needs. -/
structure Regular (P : Policy E S Act) (batch : Fin N → Transition S Act) (θ₀ : E) : Prop where
  smooth : ContDiff ℝ 2 (meanKl P batch θ₀)
  zero : meanKl P batch θ₀ θ₀ = 0
  grad : ∇ (meanKl P batch θ₀) θ₀ = 0
  symm : ∀ v w, ⟪hessianVectorProduct (meanKl P batch θ₀) θ₀ v, w⟫_ℝ = ⟪hessianVectorProduct (meanKl P batch θ₀) θ₀ w, v⟫_ℝ
  nonneg : ∀ v, 0 ≤ ⟪hessianVectorProduct (meanKl P batch θ₀) θ₀ v, v⟫_ℝ

/-- The damped Fisher matrix as a linear map. -/
noncomputable def fvpMap {k : E → ℝ} (hk : ContDiff ℝ 2 k) (damping : ℝ) (θ₀ : E) : E →ₗ[ℝ] E :=
  (hvp_linear hk θ₀).mk' _ + damping • LinearMap.id

theorem fvpMap_coe {k : E → ℝ} (hk : ContDiff ℝ 2 k) (damping : ℝ) (θ₀ : E) :
    ⇑(fvpMap hk damping θ₀) = fisherVectorProduct k damping θ₀ := rfl

theorem fvp_spd {P : Policy E S Act} {batch : Fin N → Transition S Act} {θ₀ : E} (h : Regular P batch θ₀) {damping : ℝ} (hd : 0 < damping) :
    CG.Spec.SPD (fvpMap h.smooth damping θ₀) := by
  constructor
  · intro x y
    rw [fvpMap_coe]
    unfold fisherVectorProduct
    rw [inner_add_left, inner_add_right, h.symm, real_inner_smul_left, real_inner_smul_right, real_inner_comm]
  · intro x hx
    rw [fvpMap_coe]
    unfold fisherVectorProduct
    rw [inner_add_left, real_inner_smul_left]
    have h1 : 0 < ⟪x, x⟫_ℝ := real_inner_self_pos.mpr hx
    have h2 := h.nonneg x
    have h3 := mul_pos hd h1
    linarith

theorem regular_categorical {A : Type} [Fintype A] {prob : E → S → A → ℝ} (batch : Fin N → Transition S A)
    (hpos : ∀ θ s a, 0 < prob θ s a) (hone : ∀ θ s, ∑ a, prob θ s a = 1) (hsm : ∀ s a, ContDiff ℝ 2 fun θ => prob θ s a) (θ₀ : E) :
    Regular (categorical prob) batch θ₀ := by
  refine ⟨kl_cat_contDiff hpos hsm θ₀, ?_, kl_cat_grad hpos hone hsm θ₀, ?_, ?_⟩
  · simp [meanKl, mean, categorical]
  · intro v w
    rw [hvp_cat hpos hone hsm, hvp_cat hpos hone hsm]
    unfold Spec.fisherCategorical
    congr 1
    refine Finset.sum_congr rfl fun i _ => Finset.sum_congr rfl fun a _ => ?_
    ring
  · intro v
    rw [hvp_cat hpos hone hsm]
    unfold Spec.fisherCategorical
    refine div_nonneg (Finset.sum_nonneg fun i _ => Finset.sum_nonneg fun a _ => ?_) (Nat.cast_nonneg _)
    exact mul_nonneg (hpos _ _ _).le (mul_self_nonneg _)

theorem regular_gaussian {J : Type} [Fintype J] {loc scale : E → S → J → ℝ} (batch : Fin N → Transition S (J → ℝ))
    (hpos : ∀ θ s j, 0 < scale θ s j) (hloc : ∀ s j, ContDiff ℝ 2 fun θ => loc θ s j)
    (hscale : ∀ s j, ContDiff ℝ 2 fun θ => scale θ s j) (θ₀ : E) : Regular (gaussian loc scale) batch θ₀ := by
  refine ⟨kl_gauss_contDiff hpos hloc hscale θ₀, ?_, kl_gauss_grad hpos hloc hscale θ₀, ?_, ?_⟩
  · have : ∀ s j, scale θ₀ s j / scale θ₀ s j = 1 := fun s j => div_self (hpos θ₀ s j).ne'
    simp [meanKl, mean, gaussian, this]
  · intro v w
    rw [hvp_gauss hpos hloc hscale, hvp_gauss hpos hloc hscale]
    unfold Spec.fisherGaussian
    congr 1
    refine Finset.sum_congr rfl fun i _ => Finset.sum_congr rfl fun a _ => ?_
    ring
  · intro v
    rw [hvp_gauss hpos hloc hscale]
    unfold Spec.fisherGaussian
    refine div_nonneg (Finset.sum_nonneg fun i _ => Finset.sum_nonneg fun j _ => ?_) (Nat.cast_nonneg _)
    have := hpos θ₀ (batch i).state j
    exact add_nonneg (div_nonneg (mul_self_nonneg _) (by positivity))
      (div_nonneg (mul_nonneg (by norm_num) (mul_self_nonneg _)) (by positivity))

theorem Spec.Smooth.regular {P : Policy E S Act} (h : Spec.Smooth P) (batch : Fin N → Transition S Act) (θ₀ : E) : Regular P batch θ₀ := by
  cases h with
  | categorical prob pos one smooth => exact regular_categorical batch pos one smooth θ₀
  | gaussian loc scale pos smoothLoc smoothScale => exact regular_gaussian batch pos smoothLoc smoothScale θ₀

theorem Spec.Smooth.diff {P : Policy E S Act} (h : Spec.Smooth P) (s : S) :
    (∀ a, Differentiable ℝ fun θ => P.logProb θ s a) ∧ Differentiable ℝ fun θ => P.entropy θ s := by
  cases h with
  | categorical prob pos one smooth =>
    have hd : ∀ s a, Differentiable ℝ fun θ => prob θ s a := fun s a => (smooth s a).differentiable (by norm_num)
    refine ⟨fun a => (hd s a).log fun θ => (pos θ s a).ne', ?_⟩
    exact (Differentiable.fun_sum fun a _ => (hd s a).mul ((hd s a).log fun θ => (pos θ s a).ne')).neg
  | gaussian loc scale pos smoothLoc smoothScale =>
    have hl : ∀ s a, Differentiable ℝ fun θ => loc θ s a := fun s a => (smoothLoc s a).differentiable (by norm_num)
    have hs : ∀ s a, Differentiable ℝ fun θ => scale θ s a := fun s a => (smoothScale s a).differentiable (by norm_num)
    constructor
    · intro x
      unfold Update.gaussian
      dsimp only
      refine Differentiable.fun_sum fun j _ => ?_
      have h1 : Differentiable ℝ fun θ => - (x j - loc θ s j) ^ 2 / (2 * scale θ s j ^ 2) :=
        ContDiff.differentiable (n := 2) (((contDiff_const.sub (smoothLoc s j)).pow 2).neg.div (contDiff_const.mul ((smoothScale s j).pow 2))
          fun θ => mul_ne_zero two_ne_zero (pow_ne_zero 2 (pos θ s j).ne')) (by norm_num)
      exact (h1.sub ((hs s j).log fun θ => (pos θ s j).ne')).sub_const _
    · unfold Update.gaussian
      exact Differentiable.fun_sum fun j _ => ((hs s j).log fun θ => (pos θ s j).ne').const_add _

theorem split_length : ∀ (sizes : List Nat) (flat : List ℝ), flat.length = sizes.sum →
    (split sizes flat).map List.length = sizes ∧ (split sizes flat).flatten = flat
  | [], flat, h => ⟨rfl, by
      have : flat = [] := List.length_eq_zero_iff.mp (by simpa using h)
      simp [split, this]⟩
  | n :: ns, flat, h => by
    rw [List.sum_cons] at h
    have ih := split_length ns (flat.drop n) (by rw [List.length_drop]; omega)
    constructor
    · simp only [split, List.map_cons, List.length_take, ih.1]
      congr 1
      omega
    · simp only [split, List.flatten_cons, ih.2, List.take_append_drop]

theorem ofParams_trial {n : Nat} (P : Policy (EuclideanSpace ℝ (Fin n)) S Act) (batch : Fin N → Transition S Act) (coef : ℝ)
    {params : List (List ℝ)} (hn : params.flatten.length = n) (θ₀ d : EuclideanSpace ℝ (Fin n)) (t : ℝ) :
    (trial (searched P batch coef θ₀) (params.map List.length) params.flatten (List.ofFn fun i => d i) t).map List.length
      = params.map List.length ∧
    ofParams n (trial (searched P batch coef θ₀) (params.map List.length) params.flatten (List.ofFn fun i => d i) t)
      = ofParams n params + t • d := by
  unfold trial
  have hl : (List.zipWith (fun a b => (searched P batch coef θ₀).axpy a t b) params.flatten (List.ofFn fun i => d i)).length
      = (params.map List.length).sum := by
    rw [List.length_zipWith, List.length_ofFn, hn, ← List.length_flatten, hn, min_self]
  obtain ⟨h1, h2⟩ := split_length _ _ hl
  refine ⟨h1, ?_⟩
  unfold ofParams
  rw [h2]
  ext i
  simp only [PiLp.add_apply, PiLp.smul_apply, smul_eq_mul]
  have hi : (i : Nat) < params.flatten.length := by rw [hn]; exact i.2
  rw [List.getD_eq_getElem?_getD, List.getD_eq_getElem?_getD, List.getElem?_eq_getElem hi,
    List.getElem?_eq_getElem (by rw [hl, ← List.length_flatten]; exact hi)]
  simp [searched]

/-! ## C116 -/

/-- **C116 (Fisher matrix, categorical).** The Hessian-vector product of the mean divergence at the current parameters is the product with
the Fisher information matrix of the policy. -/
theorem hessian_is_fisher_categorical {A : Type} [Fintype A] {prob : E → S → A → ℝ} (batch : Fin N → Transition S A)
    (pos : ∀ θ s a, 0 < prob θ s a) (one : ∀ θ s, ∑ a, prob θ s a = 1) (smooth : ∀ s a, ContDiff ℝ 2 fun θ => prob θ s a) (θ₀ v w : E) :
    ⟪hessianVectorProduct (meanKl (categorical prob) batch θ₀) θ₀ v, w⟫_ℝ = Spec.fisherCategorical prob batch θ₀ v w :=
  hvp_cat pos one smooth θ₀ v w

/-- **C116 (categorical distributions).** Probabilities, entropy and divergence; the last two are not negative. -/
theorem categorical_heads {A : Type} [Fintype A] {prob : E → S → A → ℝ} (pos : ∀ θ s a, 0 < prob θ s a) (one : ∀ θ s, ∑ a, prob θ s a = 1)
    (θ₀ θ : E) (s : S) :
    (∀ a, Real.exp ((categorical prob).logProb θ s a) = prob θ s a) ∧
    (categorical prob).entropy θ s = ∑ a, Real.negMulLog (prob θ s a) ∧ 0 ≤ (categorical prob).entropy θ s ∧
    (categorical prob).kl s θ₀ θ = ∑ a, prob θ₀ s a * Real.log (prob θ₀ s a / prob θ s a) ∧ 0 ≤ (categorical prob).kl s θ₀ θ := by
  have he : (categorical prob).entropy θ s = ∑ a, Real.negMulLog (prob θ s a) := by
    unfold categorical Real.negMulLog
    simp only [neg_mul, Finset.sum_neg_distrib]
  refine ⟨fun a => Real.exp_log (pos θ s a), he, ?_, ?_, ?_⟩
  · rw [he]
    refine Finset.sum_nonneg fun a _ => Real.negMulLog_nonneg (pos θ s a).le ?_
    rw [← one θ s]
    exact Finset.single_le_sum (f := fun a => prob θ s a) (fun b _ => (pos θ s b).le) (Finset.mem_univ a)
  · exact Finset.sum_congr rfl fun a _ => by rw [Real.log_div (pos θ₀ s a).ne' (pos θ s a).ne']
  · have h : ∑ a, (prob θ₀ s a - prob θ s a) ≤ (categorical prob).kl s θ₀ θ := by
      refine Finset.sum_le_sum fun a _ => ?_
      have h1 := Real.log_le_sub_one_of_pos (div_pos (pos θ s a) (pos θ₀ s a))
      rw [Real.log_div (pos θ s a).ne' (pos θ₀ s a).ne'] at h1
      have h2 := mul_le_mul_of_nonneg_left h1 (pos θ₀ s a).le
      have h3 : prob θ₀ s a * (prob θ s a / prob θ₀ s a - 1) = prob θ s a - prob θ₀ s a := by
        have := (pos θ₀ s a).ne'
        field_simp
      linarith [h2, h3, mul_sub (prob θ₀ s a) (Real.log (prob θ s a)) (Real.log (prob θ₀ s a)),
        mul_sub (prob θ₀ s a) (Real.log (prob θ₀ s a)) (Real.log (prob θ s a))]
    rw [Finset.sum_sub_distrib, one, one, sub_self] at h
    exact h

open MeasureTheory ProbabilityTheory in
/-- **C116 (normal distributions).** What the code uses as log-probability, entropy and divergence of independent normal distributions are the
logarithm of their density, their entropy and their relative entropy. -/
theorem normal_heads {J : Type} [Fintype J] {loc scale : E → S → J → ℝ} (pos : ∀ θ s j, 0 < scale θ s j) (θ₀ θ : E) (s : S) :
    (∀ x, Real.exp ((gaussian loc scale).logProb θ s x) = ∏ j, gaussianPDFReal (loc θ s j) (scale θ s j ^ 2).toNNReal (x j)) ∧
    (gaussian loc scale).entropy θ s = ∑ j, - ∫ y, Real.log (gaussianPDFReal (loc θ s j) (scale θ s j ^ 2).toNNReal y)
      ∂gaussianReal (loc θ s j) (scale θ s j ^ 2).toNNReal ∧
    (gaussian loc scale).kl s θ₀ θ = ∑ j, ∫ y, (Real.log (gaussianPDFReal (loc θ₀ s j) (scale θ₀ s j ^ 2).toNNReal y)
      - Real.log (gaussianPDFReal (loc θ s j) (scale θ s j ^ 2).toNNReal y)) ∂gaussianReal (loc θ₀ s j) (scale θ₀ s j ^ 2).toNNReal := by
  refine ⟨fun x => ?_, ?_, ?_⟩
  · unfold gaussian
    dsimp only
    rw [Real.exp_sum]
    refine Finset.prod_congr rfl fun j _ => ?_
    rw [← log_pdf _ (pos θ s j), Real.exp_log]
    exact gaussianPDFReal_pos _ _ _ (by
      have := pos θ s j
      exact (Real.toNNReal_pos.mpr (by positivity)).ne')
  · exact Finset.sum_congr rfl fun j _ => (comp_entropy (pos θ s j)).symm
  · exact Finset.sum_congr rfl fun j _ => (comp_integral (pos θ₀ s j) (pos θ s j)).symm

/-- **C116 (Fisher matrix, normal).** -/
theorem hessian_is_fisher_gaussian {J : Type} [Fintype J] {loc scale : E → S → J → ℝ} (batch : Fin N → Transition S (J → ℝ))
    (pos : ∀ θ s j, 0 < scale θ s j) (smoothLoc : ∀ s j, ContDiff ℝ 2 fun θ => loc θ s j)
    (smoothScale : ∀ s j, ContDiff ℝ 2 fun θ => scale θ s j) (θ₀ v w : E) :
    ⟪hessianVectorProduct (meanKl (gaussian loc scale) batch θ₀) θ₀ v, w⟫_ℝ = Spec.fisherGaussian loc scale batch θ₀ v w :=
  hvp_gauss pos smoothLoc smoothScale θ₀ v w

open Asymptotics in
/-- **C116 (quadratic model).** Along every direction, the mean divergence of the old policy from the new one is half the quadratic form of
the Hessian-vector product, up to terms of higher order. -/
theorem divergence_quadratic {P : Policy E S Act} (hP : Spec.Smooth P) (batch : Fin N → Transition S Act) (θ₀ d : E) :
    (fun t : ℝ => meanKl P batch θ₀ (θ₀ + t • d) - t ^ 2 / 2 * ⟪d, hessianVectorProduct (meanKl P batch θ₀) θ₀ d⟫_ℝ)
      =o[nhds 0] fun t : ℝ => t ^ 2 := by
  have hR := hP.regular batch θ₀
  set k := meanKl P batch θ₀ with hk
  set φ : ℝ → ℝ := fun t => k (θ₀ + t • d) with hφ
  have hφc : ContDiff ℝ 2 φ := hR.smooth.comp (contDiff_const.add (contDiff_id.smul contDiff_const))
  have hd : deriv φ = fun t => fderiv ℝ k (θ₀ + t • d) d := by
    funext t
    exact (((hR.smooth.differentiable (by norm_num)) (θ₀ + t • d)).hasFDerivAt.comp_hasDerivAt t (line_hasDerivAt θ₀ d t)).deriv
  have hd0 : deriv φ 0 = 0 := by
    rw [hd]
    simp only [zero_smul, add_zero]
    rw [← inner_gradient_left, hR.grad, inner_zero_left]
  have hdd : deriv (deriv φ) 0 = ⟪hessianVectorProduct k θ₀ d, d⟫_ℝ := by
    rw [hd]
    exact (second_line hR.smooth θ₀ d d).deriv
  have h := taylor_isLittleO_univ (x₀ := (0 : ℝ)) (n := 2) hφc
  refine (h.congr_left fun t => ?_).congr_right fun t => by simp
  rw [taylorWithinEval_succ, taylorWithinEval_succ, taylor_within_zero_eval, iteratedDerivWithin_univ, iteratedDerivWithin_univ,
    iteratedDeriv_one, iteratedDeriv_succ, iteratedDeriv_one, hd0, hdd, real_inner_comm]
  have h0 : φ 0 = 0 := by
    simp only [hφ, zero_smul, add_zero]
    exact hR.zero
  rw [h0]
  simp
  ring

/-- **C116 (gradient of the gain).** The gradient is the mean over the batch of `ratio * advantage * ∇ log π(a | s)`, plus the entropy bonus;
where the stored log-probabilities are those of the current parameters, the ratios are one and this is the policy gradient estimate. -/
theorem gain_gradient {P : Policy E S Act} (hP : Spec.Smooth P) (batch : Fin N → Transition S Act) (coef : ℝ) (θ₀ : E) :
    ∇ (gain P batch coef) θ₀
      = (N : ℝ)⁻¹ • ∑ i, (Real.exp (P.logProb θ₀ (batch i).state (batch i).action - (batch i).logProb) * (batch i).adv) •
            ∇ (fun θ => P.logProb θ (batch i).state (batch i).action) θ₀
        + coef • (N : ℝ)⁻¹ • ∑ i, ∇ (fun θ => P.entropy θ (batch i).state) θ₀ ∧
    ((∀ i, (batch i).logProb = P.logProb θ₀ (batch i).state (batch i).action) → coef = 0 →
      ∇ (gain P batch coef) θ₀ = (N : ℝ)⁻¹ • ∑ i, (batch i).adv • ∇ (fun θ => P.logProb θ (batch i).state (batch i).action) θ₀) := by
  have key : ∇ (gain P batch coef) θ₀
      = (N : ℝ)⁻¹ • ∑ i, (Real.exp (P.logProb θ₀ (batch i).state (batch i).action - (batch i).logProb) * (batch i).adv) •
            ∇ (fun θ => P.logProb θ (batch i).state (batch i).action) θ₀
        + coef • (N : ℝ)⁻¹ • ∑ i, ∇ (fun θ => P.entropy θ (batch i).state) θ₀ := by
    refine ext_inner_right ℝ fun v => ?_
    have h : HasFDerivAt (gain P batch coef)
        ((N : ℝ)⁻¹ • (∑ i, (batch i).adv • (Real.exp (P.logProb θ₀ (batch i).state (batch i).action - (batch i).logProb) •
            fderiv ℝ (fun θ => P.logProb θ (batch i).state (batch i).action) θ₀))
          + coef • (N : ℝ)⁻¹ • ∑ i, fderiv ℝ (fun θ => P.entropy θ (batch i).state) θ₀) θ₀ := by
      unfold gain mean
      simp only [div_eq_inv_mul]
      refine HasFDerivAt.fun_add (HasFDerivAt.const_mul (HasFDerivAt.fun_sum fun i _ => ?_) _)
        (HasFDerivAt.const_mul (HasFDerivAt.const_mul (HasFDerivAt.fun_sum fun i _ => ?_) _) _)
      · exact HasFDerivAt.mul_const ((((hP.diff _).1 _ θ₀).hasFDerivAt.sub_const _).exp) _
      · exact ((hP.diff _).2 θ₀).hasFDerivAt
    rw [inner_gradient_left, h.fderiv]
    simp only [inner_add_left, real_inner_smul_left, sum_inner, inner_gradient_left, add_apply, smul_apply, sum_apply, smul_eq_mul]
    congr 2
    refine Finset.sum_congr rfl fun i _ => ?_
    ring
  refine ⟨key, fun h hc => ?_⟩
  rw [key, hc, zero_smul, add_zero]
  congr 1
  refine Finset.sum_congr rfl fun i _ => ?_
  rw [h i, sub_self, Real.exp_zero, one_mul]

/-- **C116 (the update).** Let the policy be smooth, the gradient of the gain not zero, the damping, the tolerance, the bound of the divergence
and the number of conjugate gradient iterations be positive.  Then the step `d` is a number and goes uphill, its divergence in the
quadratic model is below the bound, and, if the line search may backtrack often enough, it ends with parameters `θ₀ + d / 2 ^ i` of the
same shapes whose gain is not smaller and whose divergence does not exceed the bound. -/
theorem trpo_update {n : Nat} {P : Policy (EuclideanSpace ℝ (Fin n)) S Act} (hP : Spec.Smooth P) (batch : Fin N → Transition S Act)
    {coef damping tol maxKl : ℝ} {maxIter : Nat} {params : List (List ℝ)} (hn : params.flatten.length = n)
    (hg : ∇ (gain P batch coef) (ofParams n params) ≠ 0) (hdamp : 0 < damping) (htol : 0 < tol) (hkl : 0 < maxKl) (hit : 0 < maxIter) :
    ∃ d, fullStep P batch coef damping tol maxIter maxKl (ofParams n params) = some d ∧
      0 < ⟪∇ (gain P batch coef) (ofParams n params), d⟫_ℝ ∧
      ⟪d, hessianVectorProduct (meanKl P batch (ofParams n params)) (ofParams n params) d⟫_ℝ / 2 < maxKl ∧
      ∃ enough, ∀ maxBacktrack, enough ≤ maxBacktrack →
        ∃ i params', updatePolicy P batch coef damping tol maxIter maxKl maxBacktrack params = some ⟨params', (1 / 2) ^ i⟩ ∧
          params'.map List.length = params.map List.length ∧
          ofParams n params' = ofParams n params + ((1 / 2 : ℝ) ^ i) • d ∧
          gain P batch coef (ofParams n params) ≤ gain P batch coef (ofParams n params') ∧
          meanKl P batch (ofParams n params) (ofParams n params') ≤ maxKl := by
  set θ₀ := ofParams n params with hθ
  have hR := hP.regular batch θ₀
  have hA := fvp_spd hR hdamp
  obtain ⟨x, hx, _⟩ := CG.conjugate_gradient_partial hA hg htol maxIter
  have hstep : ∃ d, fullStep P batch coef damping tol maxIter maxKl θ₀ = some d := by
    unfold fullStep klStep
    rw [← fvpMap_coe hR.smooth, hx]
    exact ⟨_, rfl⟩
  obtain ⟨d, hd⟩ := hstep
  have hd' : klStep (fvpMap hR.smooth damping θ₀) (∇ (gain P batch coef) θ₀) tol maxIter maxKl = some d := hd
  obtain ⟨h1, h2, h3⟩ := kl_constrained_step hA hg hit hkl hd'
  refine ⟨d, hd, h1, ?_, ?_⟩
  · rw [fvpMap_coe] at h3
    unfold fisherVectorProduct at h3
    rw [inner_add_right, real_inner_smul_right] at h3
    have := mul_nonneg hdamp.le (real_inner_self_nonneg (x := d))
    linarith
  · have hgd : DifferentiableAt ℝ (gain P batch coef) θ₀ := by
      by_contra hc
      exact hg (gradient_eq_zero_of_not_differentiableAt hc)
    have hder : HasDerivAt (fun t : ℝ => gain P batch coef (θ₀ + t • d)) (⟪∇ (gain P batch coef) θ₀, d⟫_ℝ) 0 := by
      rw [inner_gradient_left]
      have h0 : θ₀ + (0 : ℝ) • d = θ₀ := by simp
      have hf : HasFDerivAt (gain P batch coef) (fderiv ℝ (gain P batch coef) θ₀) (θ₀ + (0 : ℝ) • d) := by
        rw [h0]
        exact hgd.hasFDerivAt
      exact hf.comp_hasDerivAt (0 : ℝ) (line_hasDerivAt θ₀ d 0)
    have hup : ∀ᶠ t in nhdsWithin (0 : ℝ) (Set.Ioi 0), gain P batch coef θ₀ < gain P batch coef (θ₀ + t • d) := by
      have := hder.hasDerivWithinAt (s := Set.Ioi 0)
      have hsl := (hasDerivWithinAt_iff_tendsto_slope' (by simp)).mp this
      filter_upwards [hsl.eventually (lt_mem_nhds h1), self_mem_nhdsWithin] with t ht ht0
      rw [slope_def_field] at ht
      have ht0' : 0 < t := ht0
      simp only [sub_zero, zero_smul, add_zero] at ht
      have := (div_pos_iff_of_pos_right ht0').mp ht
      linarith
    have hkc : ∀ᶠ t in nhdsWithin (0 : ℝ) (Set.Ioi 0), meanKl P batch θ₀ (θ₀ + t • d) ≤ maxKl := by
      have hc : Filter.Tendsto (fun t : ℝ => meanKl P batch θ₀ (θ₀ + t • d)) (nhds 0) (nhds 0) := by
        have hcont : Continuous fun t : ℝ => meanKl P batch θ₀ (θ₀ + t • d) :=
          hR.smooth.continuous.comp (continuous_const.add (continuous_id.smul continuous_const))
        have := hcont.tendsto 0
        rwa [zero_smul, add_zero, hR.zero] at this
      exact (hc.mono_left nhdsWithin_le_nhds).eventually ((gt_mem_nhds hkl).mono fun _ h => le_of_lt h)
    have hpow : Filter.Tendsto (fun i : Nat => (1 / 2 : ℝ) ^ i) Filter.atTop (nhdsWithin 0 (Set.Ioi 0)) := by
      refine tendsto_nhdsWithin_iff.mpr ⟨tendsto_pow_atTop_nhds_zero_of_lt_one (by norm_num) (by norm_num), ?_⟩
      exact Filter.Eventually.of_forall fun i => Set.mem_Ioi.mpr (by positivity)
    obtain ⟨m, hm1, hm2⟩ := ((hpow.eventually hup).and (hpow.eventually hkc)).exists
    refine ⟨m, fun maxBacktrack hmb => ?_⟩
    have hu : updatePolicy P batch coef damping tol maxIter maxKl maxBacktrack params
        = some (lineSearch (searched P batch coef θ₀) (.fin (gain P batch coef θ₀)) maxKl maxBacktrack params (List.ofFn fun i => d i)) := by
      unfold updatePolicy
      dsimp only
      rw [← hθ, hd]
      rfl
    rcases line_search_safe (searched P batch coef θ₀) (gain P batch coef θ₀) maxKl maxBacktrack params (List.ofFn fun i => d i) with
      ⟨i, hi, hls, ⟨g, k, hgv, hkv, hge, hke⟩, _⟩ | ⟨_, hno⟩
    · obtain ⟨hsh, hval⟩ := ofParams_trial P batch coef hn θ₀ d ((1 / 2 : ℝ) ^ i)
      refine ⟨i, _, (by rw [hu, hls]; rfl), hsh, hval, ?_, ?_⟩
      · rw [hls] at hgv
        have hgv' := Fl.fin.inj hgv
        rw [← hgv'] at hge
        exact hge
      · rw [hls] at hkv
        have hkv' := Fl.fin.inj hkv
        rw [← hkv'] at hke
        exact hke
    · exfalso
      obtain ⟨hsh, hval⟩ := ofParams_trial P batch coef hn θ₀ d ((1 / 2 : ℝ) ^ m)
      refine hno m hmb ⟨_, _, rfl, rfl, ?_, ?_⟩
      · show gain P batch coef θ₀ ≤ gain P batch coef (ofParams n (trial (searched P batch coef θ₀) (params.map List.length) params.flatten _ _))
        rw [hval]
        exact hm1.le
      · show meanKl P batch θ₀ (ofParams n (trial (searched P batch coef θ₀) (params.map List.length) params.flatten _ _)) ≤ maxKl
        rw [hval]
        exact hm2

/-! ## Non-vacuity -/

/-- A softmax policy with two actions and one parameter, the logit of `true`. -/
noncomputable def exProb (θ : EuclideanSpace ℝ (Fin 1)) (_ : Unit) (a : Bool) : ℝ :=
  if a then Real.exp (θ 0) / (Real.exp (θ 0) + 1) else 1 / (Real.exp (θ 0) + 1)

theorem exProb_smooth : Spec.Smooth (categorical exProb) := by
  have h0 : ∀ θ : EuclideanSpace ℝ (Fin 1), 0 < Real.exp (θ 0) + 1 := fun θ => by positivity
  have hc : ContDiff ℝ 2 fun θ : EuclideanSpace ℝ (Fin 1) => Real.exp (θ 0) := by fun_prop
  refine Spec.Smooth.categorical exProb ?_ ?_ ?_
  · intro θ s a
    have := h0 θ
    unfold exProb
    split <;> positivity
  · intro θ s
    have := (h0 θ).ne'
    simp only [Fintype.univ_bool, Finset.mem_singleton, Bool.true_eq_false, not_false_eq_true, Finset.sum_insert, Finset.sum_singleton,
      exProb, ite_true, Bool.false_eq_true, ite_false]
    field_simp
  · intro s a
    unfold exProb
    cases a
    · exact contDiff_const.div (hc.add contDiff_const) fun θ => (h0 θ).ne'
    · exact hc.div (hc.add contDiff_const) fun θ => (h0 θ).ne'

/-- One transition with action `true` and advantage 1. -/
noncomputable def exBatch : Fin 1 → Transition Unit Bool := fun _ => ⟨(), true, Real.log (1 / 2), 1⟩

theorem exGain : ∇ (gain (categorical exProb) exBatch 0) (ofParams 1 [[0]]) ≠ 0 := by
  intro h
  have hd : DifferentiableAt ℝ (gain (categorical exProb) exBatch 0) (ofParams 1 [[0]]) := by
    have h1 := ((exProb_smooth.diff ()).1 true) (ofParams 1 [[0]])
    have : gain (categorical exProb) exBatch 0 = fun θ => Real.exp ((categorical exProb).logProb θ () true - Real.log (1 / 2)) := by
      funext θ
      simp [gain, mean, exBatch]
    rw [this]
    exact (h1.sub_const _).exp
  have hl : HasDerivAt (fun t : ℝ => gain (categorical exProb) exBatch 0 (ofParams 1 [[0]] + t • EuclideanSpace.single 0 1)) 0 0 := by
    have hf : HasFDerivAt (gain (categorical exProb) exBatch 0) (fderiv ℝ (gain (categorical exProb) exBatch 0) (ofParams 1 [[0]]))
        (ofParams 1 [[0]] + (0 : ℝ) • EuclideanSpace.single 0 1) := by
      rw [zero_smul, add_zero]
      exact hd.hasFDerivAt
    have := hf.comp_hasDerivAt (0 : ℝ) (line_hasDerivAt (ofParams 1 [[0]]) (EuclideanSpace.single 0 1) 0)
    rwa [← inner_gradient_left, h, inner_zero_left] at this
  have he : (fun t : ℝ => gain (categorical exProb) exBatch 0 (ofParams 1 [[0]] + t • EuclideanSpace.single 0 1))
      = fun t => 2 * (Real.exp t / (Real.exp t + 1)) := by
    funext t
    have hpos : 0 < Real.exp t / (Real.exp t + 1) := by positivity
    simp only [gain, mean, exBatch, categorical, exProb, ofParams, Finset.univ_unique, Finset.sum_singleton, zero_mul, add_zero, if_true,
      PiLp.add_apply, PiLp.smul_apply, Nat.cast_one, div_one, mul_one]
    simp only [List.flatten_cons, List.flatten_nil, List.append_nil]
    have : ([0] : List ℝ).getD ((0 : Fin 1) : Nat) 0 + t • (EuclideanSpace.single (0 : Fin 1) (1 : ℝ)) 0 = t := by simp
    rw [this, Real.exp_sub, Real.exp_log hpos, Real.exp_log (by norm_num)]
    ring
  rw [he] at hl
  have h2 : HasDerivAt (fun t : ℝ => 2 * (Real.exp t / (Real.exp t + 1)))
      (2 * ((Real.exp 0 * (Real.exp 0 + 1) - Real.exp 0 * Real.exp 0) / (Real.exp 0 + 1) ^ 2)) 0 :=
    (((Real.hasDerivAt_exp 0).fun_div ((Real.hasDerivAt_exp 0).add_const 1) (by positivity)).const_mul 2)
  have := hl.unique h2
  rw [Real.exp_zero] at this
  norm_num at this

/-- The update of this policy succeeds. -/
example : ∃ d, fullStep (categorical exProb) exBatch 0 (1 / 100) (1 / 10 ^ 10) 10 (1 / 100) (ofParams 1 [[0]]) = some d :=
  let ⟨d, h, _⟩ := trpo_update exProb_smooth exBatch (params := [[0]]) rfl exGain (by norm_num : (0 : ℝ) < 1 / 100)
    (by norm_num : (0 : ℝ) < 1 / 10 ^ 10) (by norm_num : (0 : ℝ) < 1 / 100) (by norm_num : 0 < 10)
  ⟨d, h⟩

/-- A normal policy whose mean is the parameter and whose standard deviation is one. -/
example : Spec.Smooth (gaussian (fun (θ : ℝ) (_ : Unit) (_ : Fin 2) => θ) fun _ _ _ => 1) :=
  Spec.Smooth.gaussian _ _ (fun _ _ _ => one_pos) (fun _ _ => contDiff_id) fun _ _ => contDiff_const

end Pfrl.Trpo.Update
