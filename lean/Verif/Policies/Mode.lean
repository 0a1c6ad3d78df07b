import Verif.Basic
import Verif.Value.ActionValue
import Mathlib.Probability.Distributions.Gaussian.Real
import Mathlib.MeasureTheory.Integral.Pi
import Mathlib.MeasureTheory.Function.JacobianOneDim
import Mathlib.MeasureTheory.Measure.Lebesgue.EqHaar
import Mathlib.Analysis.SpecialFunctions.Artanh
import Mathlib.Analysis.SpecialFunctions.Trigonometric.DerivHyp
import Mathlib.Analysis.SpecialFunctions.Trigonometric.Series

/-!
# Policy heads, and the action chosen by `act_deterministically` (C108)

One row of a batch is modelled; numbers are exact.  A distribution of PyTorch is modelled by its parameters; what it means is its
law, a measure on action vectors.
-/

namespace Pfrl.Policies

open MeasureTheory ProbabilityTheory Set

variable {n : ℕ}

/-! ## Model -/

/-- The transforms that occur, elementwise: `AffineTransform` and `TanhTransform`. -/
inductive Transform (n : ℕ) where
  | affine (loc scale : Fin n → ℝ)
  | tanh

/-- Applying a transform. -/
noncomputable def Transform.apply : Transform n → (Fin n → ℝ) → Fin n → ℝ
  | .affine loc scale, x => fun i => scale i * x i + loc i
  | .tanh, x => fun i => Real.tanh (x i)

/-- Distributions of action vectors.  `normal` is `torch.distributions.Normal`, `mvn` is `MultivariateNormal` with its
`scale_tril`, and `other` is any distribution of a class `mode_of_distribution` does not know, with its law
(`pfrl.distributions.Delta`, for example). -/
inductive Dist (n : ℕ) where
  | normal (mean scale : Fin n → ℝ)
  | mvn (mean : Fin n → ℝ) (tril : Matrix (Fin n) (Fin n) ℝ)
  | transformed (base : Dist n) (transforms : List (Transform n))
  | independent (base : Dist n)
  | other (law : Measure (Fin n → ℝ))

/-- `mode_of_distribution`, `pfrl/utils/mode_of_distribution.py:5-19`, for continuous actions.  It is what PPO, TRPO, A2C, A3C,
REINFORCE, ACER and SAC return with `act_deterministically`. -/
noncomputable def mode : Dist n → Except PyErr (Fin n → ℝ)
  | .normal mean _ => .ok mean
  | .mvn mean _ => .ok mean
  | .transformed base transforms =>
    match mode base with
    | .error e => .error e
    | .ok x => .ok (transforms.foldl (fun x t => t.apply x) x)
  | .independent base => mode base
  | .other _ => .error .runtimeError

/-- `mode_of_distribution`, lines 7-8, for a categorical distribution over `m` actions. -/
noncomputable def categoricalMode {m : ℕ} (probs : Fin m → ℝ) : Option ℕ := Value.greedyAction (List.ofFn probs)

/-- `SoftmaxCategoricalHead.forward`, `pfrl/policies/softmax_policy.py:5-7`: the probabilities. -/
noncomputable def softmaxHead {m : ℕ} (logits : Fin m → ℝ) : Fin m → ℝ := Value.softmax logits

/-- `torch.nn.functional.softplus` with its default threshold 20. -/
noncomputable def softplus (x : ℝ) : ℝ := if 20 < x then x else Real.log (1 + Real.exp x)

/-- `broadcast_all(loc, scale)` in `Normal` for two vectors: equal lengths, or one of them has length 1. -/
def broadcast (a b : List ℝ) : Except PyErr (List ℝ × List ℝ) :=
  if a.length = b.length then .ok (a, b)
  else if b.length = 1 then .ok (a, List.replicate a.length (b.headD 0))
  else if a.length = 1 then .ok (List.replicate b.length (a.headD 0), b)
  else .error .runtimeError

/-- A vector from a list. -/
def vec (l : List ℝ) (i : Fin l.length) : ℝ := l[i]

/-- `Independent(Normal(loc, scale), 1)` for two lists. -/
noncomputable def normalOf (loc scale : List ℝ) : Except PyErr (Σ n, Dist n) :=
  match broadcast loc scale with
  | .error e => .error e
  | .ok (l, s) => .ok ⟨l.length, .independent (.normal (vec l) fun i => s.getD i.1 0)⟩

/-- `GaussianHeadWithDiagonalCovariance.forward`, `pfrl/policies/gaussian_policy.py:77-93`, for one non-empty row:
`chunk(2)` makes pieces of `ceil(len / 2)`, and only one piece of a row of length 1, which cannot be unpacked. -/
noncomputable def diagonalHead (varFunc : ℝ → ℝ) (row : List ℝ) : Except PyErr (Σ n, Dist n) :=
  let c := (row.length + 1) / 2
  if row.length ≤ c then .error .valueError
  else normalOf (row.take c) ((row.drop c).map fun x => √(varFunc x))

/-- `GaussianHeadWithStateIndependentCovariance.forward`, `gaussian_policy.py:30-58`; `varParam` has one entry if `var_type` is
`'spherical'`, and `action_size` entries if it is `'diagonal'`. -/
noncomputable def stateIndependentHead (varFunc : ℝ → ℝ) (varParam mean : List ℝ) : Except PyErr (Σ n, Dist n) :=
  normalOf mean (varParam.map fun x => √(varFunc x))

/-- `GaussianHeadWithFixedCovariance.forward`, `gaussian_policy.py:107-123`. -/
noncomputable def fixedHead (scale : ℝ) (mean : List ℝ) : Except PyErr (Σ n, Dist n) := normalOf mean [scale]

/-- `DeterministicHead.forward`, `pfrl/policies/deterministic_policy.py:10-11`, with `pfrl/distributions/delta.py`. -/
noncomputable def deterministicHead (loc : List ℝ) : Σ n, Dist n := ⟨loc.length, .independent (.other (Measure.dirac (vec loc)))⟩

/-! ## Specification -/

/-- What the distributions mean. -/
noncomputable def Spec.law : Dist n → Measure (Fin n → ℝ)
  | .normal mean scale => Measure.pi fun i => gaussianReal (mean i) (scale i ^ 2).toNNReal
  | .mvn mean tril => (Measure.pi fun _ => gaussianReal 0 1).map fun z => tril.mulVec z + mean
  | .transformed base transforms => (Spec.law base).map fun x => transforms.foldl (fun x t => t.apply x) x
  | .independent base => Spec.law base
  | .other law => law

/-- `f` is a density of `P`, continuous on an open set outside of which nothing happens. -/
structure Spec.Density (P : Measure (Fin n → ℝ)) (U : Set (Fin n → ℝ)) (f : (Fin n → ℝ) → ℝ) : Prop where
  isOpen : IsOpen U
  all : P Uᶜ = 0
  continuous : ContinuousOn f U
  nonneg : ∀ x ∈ U, 0 ≤ f x
  density : ∀ s ⊆ U, MeasurableSet s → P s = ∫⁻ x in s, ENNReal.ofReal (f x)

/-- `x` is a most probable value of `P`: the density is nowhere greater than at `x`.  (`density_unique`: it does not matter which
continuous density one looks at.) -/
def Spec.MostProbable (P : Measure (Fin n → ℝ)) (x : Fin n → ℝ) : Prop :=
  ∃ U f, Spec.Density P U f ∧ x ∈ U ∧ ∀ y ∈ U, f y ≤ f x

/-- Gaussians, and what invertible affine transforms make of them. -/
inductive Spec.Gaussian : Dist n → Prop
  | normal (mean scale : Fin n → ℝ) : (∀ i, 0 < scale i) → Spec.Gaussian (.normal mean scale)
  | mvn (mean : Fin n → ℝ) (tril : Matrix (Fin n) (Fin n) ℝ) : tril.det ≠ 0 → Spec.Gaussian (.mvn mean tril)
  | independent (base : Dist n) : Spec.Gaussian base → Spec.Gaussian (.independent base)
  | transformed (base : Dist n) (ts : List (Transform n)) : Spec.Gaussian base →
      (∀ t ∈ ts, ∃ loc scale, t = .affine loc scale ∧ ∀ i, scale i ≠ 0) → Spec.Gaussian (.transformed base ts)

/-- SAC's policy in the examples: a Gaussian squashed by tanh, `examples/mujoco/reproduction/soft_actor_critic/train_soft_actor_critic.py:159-170`. -/
def Spec.squashedGaussian (mean scale : Fin n → ℝ) : Dist n := .transformed (.independent (.normal mean scale)) [.tanh]

/-! ## Lemmas -/

theorem density_unique {P : Measure (Fin n → ℝ)} {U V : Set (Fin n → ℝ)} {f g : (Fin n → ℝ) → ℝ}
    (hf : Spec.Density P U f) (hg : Spec.Density P V g) : EqOn f g (U ∩ V) := by
  have hW : IsOpen (U ∩ V) := hf.isOpen.inter hg.isOpen
  have hfc : ContinuousOn (fun x => ENNReal.ofReal (f x)) (U ∩ V) :=
    ENNReal.continuous_ofReal.comp_continuousOn (hf.continuous.mono inter_subset_left)
  have hgc : ContinuousOn (fun x => ENNReal.ofReal (g x)) (U ∩ V) :=
    ENNReal.continuous_ofReal.comp_continuousOn (hg.continuous.mono inter_subset_right)
  have hae : (fun x => ENNReal.ofReal (f x)) =ᵐ[volume.restrict (U ∩ V)] fun x => ENNReal.ofReal (g x) := by
    refine ae_eq_of_forall_setLIntegral_eq_of_sigmaFinite₀ (hfc.aemeasurable hW.measurableSet)
      (hgc.aemeasurable hW.measurableSet) fun s hs _ => ?_
    rw [Measure.restrict_restrict hs,
      ← hf.density _ (inter_subset_right.trans inter_subset_left) (hs.inter hW.measurableSet),
      ← hg.density _ (inter_subset_right.trans inter_subset_right) (hs.inter hW.measurableSet)]
  intro x hx
  have := Measure.eqOn_open_of_ae_eq hae hW hfc hgc hx
  exact (ENNReal.ofReal_eq_ofReal_iff (hf.nonneg x hx.1) (hg.nonneg x hx.2)).1 this

/-- A density on the line. -/
structure Density1 (μ : Measure ℝ) (U : Set ℝ) (f : ℝ → ℝ) : Prop where
  eq : μ = volume.withDensity fun y => ENNReal.ofReal (f y)
  meas : Measurable f
  nonneg : ∀ y, 0 ≤ f y
  isOpen : IsOpen U
  continuous : ContinuousOn f U
  outside : ∀ y ∉ U, f y = 0

theorem Density1.integrable {μ : Measure ℝ} [IsProbabilityMeasure μ] {U : Set ℝ} {f : ℝ → ℝ} (h : Density1 μ U f) :
    Integrable f := by
  refine ⟨h.meas.aestronglyMeasurable, ?_⟩
  rw [hasFiniteIntegral_iff_ofReal (Filter.Eventually.of_forall h.nonneg)]
  have : μ univ = 1 := measure_univ
  rw [h.eq, withDensity_apply _ MeasurableSet.univ, Measure.restrict_univ] at this
  rw [this]
  exact ENNReal.one_lt_top

theorem pi_density {μ : Fin n → Measure ℝ} [∀ i, IsProbabilityMeasure (μ i)] {U : Fin n → Set ℝ} {f : Fin n → ℝ → ℝ}
    (h : ∀ i, Density1 (μ i) (U i) (f i)) :
    Spec.Density (Measure.pi μ) (univ.pi U) fun x => ∏ i, f i (x i) := by
  have hmeas : Measurable fun x : Fin n → ℝ => ∏ i, f i (x i) :=
    Finset.measurable_prod _ fun i _ => (h i).meas.comp (measurable_pi_apply i)
  have hpi : Measure.pi μ = volume.withDensity fun x => ENNReal.ofReal (∏ i, f i (x i)) := by
    refine Measure.pi_eq fun s hs => ?_
    rw [withDensity_apply _ (MeasurableSet.univ_pi hs), ← lintegral_indicator (MeasurableSet.univ_pi hs)]
    have e1 : ((univ.pi s).indicator fun x => ENNReal.ofReal (∏ i, f i (x i)))
        = fun x => ENNReal.ofReal (∏ i, (s i).indicator (f i) (x i)) := by
      funext x
      by_cases hx : x ∈ univ.pi s
      · rw [indicator_of_mem hx]
        congr 1
        exact Finset.prod_congr rfl fun i _ => (indicator_of_mem (hx i (mem_univ i)) _).symm
      · rw [indicator_of_notMem hx]
        simp only [mem_univ_pi, not_forall] at hx
        obtain ⟨i, hi⟩ := hx
        rw [Finset.prod_eq_zero (Finset.mem_univ i) (indicator_of_notMem hi _), ENNReal.ofReal_zero]
    have hint : ∀ i, Integrable ((s i).indicator (f i)) := fun i => (h i).integrable.indicator (hs i)
    have hnn : ∀ i y, 0 ≤ (s i).indicator (f i) y := fun i y => indicator_nonneg (fun y _ => (h i).nonneg y) y
    rw [e1]
    show ∫⁻ x : Fin n → ℝ, ENNReal.ofReal (∏ i, (s i).indicator (f i) (x i)) = _
    have hprod : Integrable fun x : Fin n → ℝ => ∏ i, (s i).indicator (f i) (x i) := Integrable.fintype_prod hint
    rw [← ofReal_integral_eq_lintegral_ofReal hprod
      (Filter.Eventually.of_forall fun x => Finset.prod_nonneg fun i _ => hnn i (x i)),
      integral_fintype_prod_volume_eq_prod (fun i => (s i).indicator (f i)),
      ENNReal.ofReal_prod_of_nonneg (fun i _ => integral_nonneg (hnn i))]
    refine Finset.prod_congr rfl fun i _ => ?_
    rw [(h i).eq, withDensity_apply _ (hs i), integral_indicator (hs i),
      ofReal_integral_eq_lintegral_ofReal (h i).integrable.integrableOn (Filter.Eventually.of_forall (h i).nonneg)]
  have hopen : IsOpen (univ.pi U) := isOpen_set_pi finite_univ fun i _ => (h i).isOpen
  refine ⟨hopen, ?_, ?_, fun x _ => Finset.prod_nonneg fun i _ => (h i).nonneg _, ?_⟩
  · rw [hpi, withDensity_apply _ hopen.measurableSet.compl]
    rw [setLIntegral_congr_fun hopen.measurableSet.compl (g := fun _ => 0)]
    · simp
    · intro x hx
      simp only [mem_compl_iff, mem_univ_pi, not_forall] at hx
      obtain ⟨i, hi⟩ := hx
      simp only
      rw [Finset.prod_eq_zero (Finset.mem_univ i) ((h i).outside _ hi), ENNReal.ofReal_zero]
  · refine continuousOn_finsetProd _ fun i _ => ?_
    exact (h i).continuous.comp (continuous_apply i).continuousOn fun x hx => hx i (mem_univ i)
  · intro s _ hs
    rw [hpi, withDensity_apply _ hs]

theorem gaussian_density (m : ℝ) {s : ℝ} (hs : 0 < s) :
    Density1 (gaussianReal m (s ^ 2).toNNReal) univ (gaussianPDFReal m (s ^ 2).toNNReal) := by
  have h0 : (s ^ 2).toNNReal ≠ 0 := by
    rw [ne_eq, Real.toNNReal_eq_zero]
    push Not
    positivity
  refine ⟨?_, measurable_gaussianPDFReal _ _, fun y => gaussianPDFReal_nonneg _ _ y, isOpen_univ, ?_, fun y hy => absurd (mem_univ y) hy⟩
  · rw [gaussianReal_of_var_ne_zero _ h0]; rfl
  · unfold gaussianPDFReal
    fun_prop

/-- The density of the squashed Gaussian. -/
noncomputable def squashed (m s y : ℝ) : ℝ :=
  if y ∈ Ioo (-1 : ℝ) 1 then gaussianPDFReal m (s ^ 2).toNNReal (Real.artanh y) / (1 - y ^ 2) else 0

theorem tanh_deriv (t : ℝ) : HasDerivAt Real.tanh (1 - Real.tanh t ^ 2) t := by
  have hc := (Real.cosh_pos t).ne'
  have h := (Real.hasDerivAt_sinh t).div (Real.hasDerivAt_cosh t) hc
  have e : Real.tanh = fun x => Real.sinh x / Real.cosh x := funext Real.tanh_eq_sinh_div_cosh
  have e2 : 1 - Real.tanh t ^ 2 = (Real.cosh t * Real.cosh t - Real.sinh t * Real.sinh t) / Real.cosh t ^ 2 := by
    rw [Real.tanh_eq_sinh_div_cosh]
    field_simp
  rw [e2, e]
  exact h

theorem artanh_cont : ContinuousOn Real.artanh (Ioo (-1 : ℝ) 1) := by
  unfold Real.artanh
  intro y hy
  refine ContinuousAt.continuousWithinAt ?_
  have h1 : 1 - y ≠ 0 := by linarith [hy.2]
  have h2 : (1 + y) / (1 - y) ≠ 0 := (div_pos (by linarith [hy.1]) (by linarith [hy.2])).ne'
  have h3 : √((1 + y) / (1 - y)) ≠ 0 := (Real.sqrt_pos.2 (div_pos (by linarith [hy.1]) (by linarith [hy.2]))).ne'
  exact ContinuousAt.log (Real.continuous_sqrt.continuousAt.comp (ContinuousAt.div (by fun_prop) (by fun_prop) h1)) h3

theorem squashed_density (m : ℝ) {s : ℝ} (hs : 0 < s) :
    Density1 ((gaussianReal m (s ^ 2).toNNReal).map Real.tanh) (Ioo (-1) 1) (squashed m s) := by
  have htc : Continuous Real.tanh := continuous_iff_continuousAt.2 fun t => (tanh_deriv t).continuousAt
  have hcont : ContinuousOn (squashed m s) (Ioo (-1) 1) := by
    have : ContinuousOn (fun y => gaussianPDFReal m (s ^ 2).toNNReal (Real.artanh y) / (1 - y ^ 2)) (Ioo (-1) 1) := by
      refine ContinuousOn.div ?_ (by fun_prop) fun y hy => ?_
      · have hg : Continuous (gaussianPDFReal m (s ^ 2).toNNReal) := by
          unfold gaussianPDFReal
          fun_prop
        exact hg.comp_continuousOn artanh_cont
      · have := hy.1; have := hy.2; nlinarith
    exact this.congr fun y hy => if_pos hy
  have hmeas : Measurable (squashed m s) := by
    have : squashed m s = (Ioo (-1 : ℝ) 1).indicator (squashed m s) := by
      funext y
      by_cases hy : y ∈ Ioo (-1 : ℝ) 1
      · rw [indicator_of_mem hy]
      · rw [indicator_of_notMem hy]; exact if_neg hy
    rw [this]
    rw [← piecewise_eq_indicator]
    exact hcont.measurable_piecewise continuousOn_const measurableSet_Ioo
  refine ⟨?_, hmeas, fun y => ?_, isOpen_Ioo, hcont, fun y hy => if_neg hy⟩
  · ext A hA
    rw [Measure.map_apply htc.measurable hA, withDensity_apply _ hA, (gaussian_density m hs).eq,
      withDensity_apply _ (htc.measurable hA)]
    have himg : Real.tanh '' (Real.tanh ⁻¹' A) = A ∩ Ioo (-1) 1 := by
      rw [image_preimage_eq_inter_range]
      congr 1
      have := Real.tanh_bijOn.image_eq
      rwa [image_univ] at this
    have e1 : ∫⁻ y in A, ENNReal.ofReal (squashed m s y) = ∫⁻ y in A ∩ Ioo (-1) 1, ENNReal.ofReal (squashed m s y) := by
      rw [← Measure.restrict_restrict hA, ← lintegral_indicator hA, ← lintegral_indicator hA,
        ← lintegral_indicator measurableSet_Ioo]
      congr 1
      funext y
      by_cases hy : y ∈ Ioo (-1 : ℝ) 1
      · rw [indicator_of_mem hy]
      · rw [indicator_of_notMem hy]
        by_cases hyA : y ∈ A
        · rw [indicator_of_mem hyA, squashed, if_neg hy, ENNReal.ofReal_zero]
        · rw [indicator_of_notMem hyA]
    rw [e1, ← himg, lintegral_image_eq_lintegral_abs_deriv_mul (htc.measurable hA)
      (fun t _ => (tanh_deriv t).hasDerivWithinAt) Real.tanh_injective.injOn]
    refine setLIntegral_congr_fun (htc.measurable hA) fun t _ => ?_
    have hmem : Real.tanh t ∈ Ioo (-1 : ℝ) 1 := Real.tanh_bijOn.mapsTo (mem_univ t)
    have hpos : 0 < 1 - Real.tanh t ^ 2 := by have := hmem.1; have := hmem.2; nlinarith
    rw [squashed, if_pos hmem, Real.artanh_tanh, abs_of_pos hpos, ← ENNReal.ofReal_mul hpos.le, mul_div_cancel₀ _ hpos.ne']
  · unfold squashed
    split
    · rename_i hy
      have : 0 < 1 - y ^ 2 := by have := hy.1; have := hy.2; nlinarith
      exact div_nonneg (gaussianPDFReal_nonneg _ _ _) this.le
    · exact le_rfl

theorem mostProbable_map {P : Measure (Fin n → ℝ)} {x : Fin n → ℝ} (h : Spec.MostProbable P x)
    (A : (Fin n → ℝ) ≃ₗ[ℝ] (Fin n → ℝ)) (c : Fin n → ℝ) : Spec.MostProbable (P.map fun z => A z + c) (A x + c) := by
  obtain ⟨U, f, hf, hx, hm⟩ := h
  let T : (Fin n → ℝ) ≃ₜ (Fin n → ℝ) := A.toContinuousLinearEquiv.toHomeomorph.trans (Homeomorph.addRight c)
  have hT : (fun z => A z + c) = T := rfl
  have hdet : LinearMap.det (A : (Fin n → ℝ) →ₗ[ℝ] (Fin n → ℝ)) ≠ 0 := (LinearEquiv.isUnit_det' A).ne_zero
  set k := |(LinearMap.det (A : (Fin n → ℝ) →ₗ[ℝ] (Fin n → ℝ)))⁻¹| with hk
  have hkpos : 0 < k := abs_pos.2 (inv_ne_zero hdet)
  have hvol : (volume : Measure (Fin n → ℝ)).map T = ENNReal.ofReal k • volume := by
    have h1 : (volume : Measure (Fin n → ℝ)).map (A : (Fin n → ℝ) →ₗ[ℝ] (Fin n → ℝ)) = ENNReal.ofReal k • volume :=
      Measure.map_linearMap_addHaar_eq_smul_addHaar volume hdet
    have h2 : (T : (Fin n → ℝ) → (Fin n → ℝ)) = (fun z => z + c) ∘ (A : (Fin n → ℝ) →ₗ[ℝ] (Fin n → ℝ)) := rfl
    rw [h2, ← Measure.map_map (f := (A : (Fin n → ℝ) →ₗ[ℝ] (Fin n → ℝ))) (g := fun z => z + c) (by fun_prop)
        A.toContinuousLinearEquiv.continuous.measurable, h1, Measure.map_smul,
      map_add_right_eq_self]
  refine ⟨T '' U, fun y => f (T.symm y) * k, ⟨T.isOpenMap _ hf.isOpen, ?_, ?_, ?_, ?_⟩, ⟨x, hx, rfl⟩, ?_⟩
  · rw [hT, Measure.map_apply T.measurable (T.isOpenMap _ hf.isOpen).measurableSet.compl, preimage_compl,
      T.preimage_image]
    exact hf.all
  · refine ContinuousOn.mul ?_ continuousOn_const
    refine hf.continuous.comp T.symm.continuous.continuousOn ?_
    rintro _ ⟨z, hz, rfl⟩
    rw [T.symm_apply_apply]
    exact hz
  · rintro _ ⟨z, hz, rfl⟩
    rw [T.symm_apply_apply]
    exact mul_nonneg (hf.nonneg z hz) hkpos.le
  · intro s hs hsm
    have hsub : T ⁻¹' s ⊆ U := by
      intro z hz
      obtain ⟨w, hw, e⟩ := hs hz
      rw [← T.injective e]
      exact hw
    rw [hT, Measure.map_apply T.measurable hsm, hf.density _ hsub (T.measurable hsm)]
    have e1 : ∫⁻ z in T ⁻¹' s, ENNReal.ofReal (f z) = ∫⁻ y in s, ENNReal.ofReal (f (T.symm y)) ∂(volume.map T) := by
      rw [T.measurableEmbedding.restrict_map, T.measurableEmbedding.lintegral_map]
      simp only [T.symm_apply_apply]
    rw [e1, hvol, Measure.restrict_smul, lintegral_smul_measure, smul_eq_mul, ← lintegral_const_mul' _ _ ENNReal.ofReal_ne_top]
    refine lintegral_congr fun y => ?_
    rw [mul_comm (f _), ENNReal.ofReal_mul hkpos.le]
  · rintro _ ⟨z, hz, rfl⟩
    have h1 : T.symm (A x + c) = x := T.symm_apply_apply x
    simp only [T.symm_apply_apply, h1]
    exact mul_le_mul_of_nonneg_right (hm z hz) hkpos.le

theorem gaussian_le (m : ℝ) (v : NNReal) (y : ℝ) : gaussianPDFReal m v y ≤ gaussianPDFReal m v m := by
  unfold gaussianPDFReal
  refine mul_le_mul_of_nonneg_left ?_ (by positivity)
  rw [Real.exp_le_exp, sub_self]
  have : 0 ≤ (y - m) ^ 2 / (2 * (v : ℝ)) := by positivity
  rw [neg_div]
  simpa using this

theorem mostProbable_normal (mean scale : Fin n → ℝ) (hs : ∀ i, 0 < scale i) :
    Spec.MostProbable (Measure.pi fun i => gaussianReal (mean i) (scale i ^ 2).toNNReal) mean :=
  ⟨_, _, pi_density fun i => gaussian_density (mean i) (hs i), fun _ _ => mem_univ _, fun _ _ =>
    Finset.prod_le_prod (fun _ _ => gaussianPDFReal_nonneg _ _ _) fun _ _ => gaussian_le _ _ _⟩

/-! ### Squashed -/

theorem squashed_tanh (m : ℝ) {s : ℝ} (hs : 0 < s) (t : ℝ) :
    squashed m s (Real.tanh t) = (√(2 * Real.pi * s ^ 2))⁻¹ * (Real.exp (-(t - m) ^ 2 / (2 * s ^ 2)) * Real.cosh t ^ 2) := by
  have hmem : Real.tanh t ∈ Ioo (-1 : ℝ) 1 := Real.tanh_bijOn.mapsTo (mem_univ t)
  have hc := (Real.cosh_pos t).ne'
  have e : 1 - Real.tanh t ^ 2 = 1 / Real.cosh t ^ 2 := by
    rw [Real.tanh_eq_sinh_div_cosh]
    have := Real.cosh_sq t
    field_simp
    linarith
  rw [squashed, if_pos hmem, Real.artanh_tanh, e, gaussianPDFReal, Real.coe_toNNReal _ (by positivity)]
  field_simp

theorem climbs {m s : ℝ} (hs : 0 < s) (h : ¬ (m = 0 ∧ 2 * s ^ 2 ≤ 1)) {η : ℝ} (hη : 0 < η) :
    ∃ t, |t - m| < η ∧ Real.cosh m ^ 2 < Real.exp (-(t - m) ^ 2 / (2 * s ^ 2)) * Real.cosh t ^ 2 := by
  by_cases hm : m = 0
  · subst hm
    have h2 : 1 < 2 * s ^ 2 := by
      by_contra h'
      exact h ⟨rfl, by linarith⟩
    set c := 1 / (2 * s ^ 2) with hc
    have hc0 : 0 < c := by positivity
    have hc1 : c < 1 := by rw [hc, div_lt_one (by positivity)]; exact h2
    obtain ⟨t, ht0, ht1, ht2⟩ : ∃ t : ℝ, 0 < t ∧ t < η ∧ t ^ 2 < 1 - c := by
      refine ⟨min (η / 2) ((1 - c) / 2), lt_min (by linarith) (by linarith), lt_of_le_of_lt (min_le_left _ _) (by linarith), ?_⟩
      have h1 : min (η / 2) ((1 - c) / 2) ≤ (1 - c) / 2 := min_le_right _ _
      have h0 : 0 < min (η / 2) ((1 - c) / 2) := lt_min (by linarith) (by linarith)
      nlinarith
    refine ⟨t, by rw [sub_zero, abs_of_pos ht0]; exact ht1, ?_⟩
    have e1 : -(t - 0) ^ 2 / (2 * s ^ 2) = -(c * t ^ 2) := by rw [hc]; ring
    rw [e1, Real.cosh_zero, one_pow]
    have g1 : 1 - c * t ^ 2 ≤ Real.exp (-(c * t ^ 2)) := by linarith [Real.add_one_le_exp (-(c * t ^ 2))]
    have g3 : 1 + t ^ 2 ≤ Real.cosh t ^ 2 := by
      have := Real.cosh_sq t
      have h2 : t ≤ Real.sinh t := Real.self_le_sinh_iff.2 ht0.le
      nlinarith
    have hp : 0 < 1 - c * t ^ 2 := by nlinarith
    have ht : 0 < t ^ 2 := by positivity
    calc (1 : ℝ) < (1 - c * t ^ 2) * (1 + t ^ 2) := by nlinarith [mul_pos ht ht, mul_pos ht (show 0 < 1 - c - t ^ 2 by linarith)]
      _ ≤ Real.exp (-(c * t ^ 2)) * Real.cosh t ^ 2 := mul_le_mul g1 g3 (by positivity) (Real.exp_pos _).le
  · by_contra hcon
    push Not at hcon
    have hloc : IsLocalMax (fun t => Real.exp (-(t - m) ^ 2 / (2 * s ^ 2)) * Real.cosh t ^ 2) m := by
      refine Filter.eventually_of_mem (Metric.ball_mem_nhds m hη) fun t ht => ?_
      have := hcon t (by rwa [Metric.mem_ball, Real.dist_eq] at ht)
      simpa using this
    have hd1 : HasDerivAt (fun t : ℝ => -(t - m) ^ 2 / (2 * s ^ 2)) (-(2 * (m - m) ^ (2 - 1) * 1) / (2 * s ^ 2)) m :=
      ((((hasDerivAt_id m).sub_const m).pow 2).neg).div_const _
    have hd := hd1.exp.mul ((Real.hasDerivAt_cosh m).pow 2)
    have hz := hloc.hasDerivAt_eq_zero hd
    simp at hz
    rcases hz with hz | hz
    · exact (Real.cosh_pos m).ne' hz
    · exact hm hz

theorem flat {s : ℝ} (hs : 0 < s) (h : 2 * s ^ 2 ≤ 1) (t : ℝ) :
    Real.exp (-(t - 0) ^ 2 / (2 * s ^ 2)) * Real.cosh t ^ 2 ≤ 1 := by
  have h1 : Real.cosh t ^ 2 ≤ Real.exp (t ^ 2) := by
    have := Real.cosh_le_exp_half_sq t
    have h2 := pow_le_pow_left₀ (Real.cosh_pos t).le this 2
    rwa [← Real.exp_nat_mul, show ((2 : ℕ) : ℝ) * (t ^ 2 / 2) = t ^ 2 by push_cast; ring] at h2
  have h3 : t ^ 2 ≤ t ^ 2 / (2 * s ^ 2) := by
    rw [le_div_iff₀ (by positivity)]
    nlinarith [sq_nonneg t]
  calc _ ≤ Real.exp (-(t - 0) ^ 2 / (2 * s ^ 2)) * Real.exp (t ^ 2) := mul_le_mul_of_nonneg_left h1 (Real.exp_pos _).le
    _ = Real.exp (-(t - 0) ^ 2 / (2 * s ^ 2) + t ^ 2) := (Real.exp_add _ _).symm
    _ ≤ Real.exp 0 := by
      rw [Real.exp_le_exp, sub_zero, neg_div]
      linarith
    _ = 1 := Real.exp_zero

theorem squashed_pos (m : ℝ) {s : ℝ} (hs : 0 < s) (t : ℝ) : 0 < squashed m s (Real.tanh t) := by
  rw [squashed_tanh m hs]
  have := Real.cosh_pos t
  positivity

theorem mostProbable_squashed (mean scale : Fin n → ℝ) (hs : ∀ i, 0 < scale i) :
    Spec.Density (Measure.pi fun i => (gaussianReal (mean i) (scale i ^ 2).toNNReal).map Real.tanh)
      (univ.pi fun _ => Ioo (-1) 1) (fun x => ∏ i, squashed (mean i) (scale i) (x i)) ∧
    (Spec.MostProbable (Measure.pi fun i => (gaussianReal (mean i) (scale i ^ 2).toNNReal).map Real.tanh)
      (fun i => Real.tanh (mean i)) ↔ ∀ i, mean i = 0 ∧ 2 * scale i ^ 2 ≤ 1) := by
  have htc : Continuous Real.tanh := continuous_iff_continuousAt.2 fun t => (tanh_deriv t).continuousAt
  have : ∀ i, IsProbabilityMeasure ((gaussianReal (mean i) (scale i ^ 2).toNNReal).map Real.tanh) := fun i =>
    Measure.isProbabilityMeasure_map htc.measurable.aemeasurable
  have hD := pi_density fun i => squashed_density (mean i) (hs i)
  have hmem : ∀ t, Real.tanh t ∈ Ioo (-1 : ℝ) 1 := fun t => Real.tanh_bijOn.mapsTo (mem_univ t)
  refine ⟨hD, fun ⟨U, f, hf, hx, hm⟩ i => ?_, fun h => ?_⟩
  · by_contra hcon
    have hW : U ∩ univ.pi (fun _ => Ioo (-1) 1) ∈ nhds (fun i => Real.tanh (mean i)) :=
      (hf.isOpen.inter hD.isOpen).mem_nhds ⟨hx, fun j _ => hmem _⟩
    have hcont : Continuous fun t : ℝ => Function.update (fun j => Real.tanh (mean j)) i (Real.tanh t) :=
      continuous_const.update i htc
    have hup : Function.update (fun j => Real.tanh (mean j)) i (Real.tanh (mean i)) = fun j => Real.tanh (mean j) :=
      Function.update_eq_self i _
    have hW' := hcont.continuousAt.preimage_mem_nhds (x := mean i) (by rw [hup]; exact hW)
    obtain ⟨η, hη, hball⟩ := Metric.mem_nhds_iff.1 hW'
    obtain ⟨t, ht1, ht2⟩ := climbs (hs i) hcon hη
    have hy : Function.update (fun j => Real.tanh (mean j)) i (Real.tanh t) ∈ U ∩ univ.pi (fun _ => Ioo (-1) 1) :=
      hball (by rw [Metric.mem_ball, Real.dist_eq]; exact ht1)
    have hle := hm _ hy.1
    rw [density_unique hf hD hy, density_unique hf hD ⟨hx, fun j _ => hmem _⟩] at hle
    revert hle
    simp only [imp_false, not_le]
    refine Finset.prod_lt_prod (fun j _ => squashed_pos _ (hs j) _) (fun j _ => ?_) ⟨i, Finset.mem_univ i, ?_⟩
    · by_cases hj : j = i
      · subst hj
        rw [Function.update_self, squashed_tanh _ (hs j), squashed_tanh _ (hs j)]
        refine mul_le_mul_of_nonneg_left ?_ (by positivity)
        rw [sub_self]
        simpa using ht2.le
      · rw [Function.update_of_ne hj]
    · rw [Function.update_self, squashed_tanh _ (hs i), squashed_tanh _ (hs i)]
      have := hs i
      refine mul_lt_mul_of_pos_left ?_ (by positivity)
      rw [sub_self]
      simpa using ht2
  · refine ⟨_, _, hD, fun i _ => hmem _, fun y hy => ?_⟩
    refine Finset.prod_le_prod (fun i _ => (squashed_density (mean i) (hs i)).nonneg _) fun i _ => ?_
    obtain ⟨t, _, ht⟩ := Real.tanh_bijOn.surjOn (hy i (mem_univ i))
    rw [← ht, squashed_tanh _ (hs i), squashed_tanh _ (hs i), (h i).1]
    refine mul_le_mul_of_nonneg_left ?_ (by positivity)
    have := flat (hs i) (h i).2 t
    simpa using this

theorem mostProbable_affines (ts : List (Transform n)) (hts : ∀ t ∈ ts, ∃ loc scale, t = .affine loc scale ∧ ∀ i, scale i ≠ 0) :
    ∀ {P : Measure (Fin n → ℝ)} {x : Fin n → ℝ}, Spec.MostProbable P x →
      Measurable (fun x => ts.foldl (fun x t => Transform.apply t x) x) ∧
      Spec.MostProbable (P.map fun x => ts.foldl (fun x t => t.apply x) x) (ts.foldl (fun x t => t.apply x) x) := by
  induction ts with
  | nil => intro P x h; exact ⟨measurable_id, by simpa using h⟩
  | cons t ts ih =>
    intro P x h
    obtain ⟨loc, scale, rfl, hsc⟩ := hts t (by simp)
    have hm : Measurable (Transform.apply (.affine loc scale) : (Fin n → ℝ) → Fin n → ℝ) := by
      unfold Transform.apply
      fun_prop
    have h1 : Spec.MostProbable (P.map (Transform.apply (.affine loc scale))) (Transform.apply (.affine loc scale) x) :=
      mostProbable_map h (LinearEquiv.piCongrRight fun i => LinearEquiv.smulOfNeZero ℝ ℝ (scale i) (hsc i)) loc
    obtain ⟨h2, h3⟩ := ih (fun t ht => hts t (by simp [ht])) h1
    refine ⟨h2.comp hm, ?_⟩
    rw [Measure.map_map h2 hm] at h3
    exact h3

/-! ## C108 -/

/-- **C108 (Gaussian policies).** For every Gaussian, with independent components or with any regular covariance, and for everything
made of it by invertible affine transforms, `act_deterministically` chooses a most probable action.  Missing: squashed Gaussians, of
which it is false (`mode_squashed`), and other distributions, for which it raises. -/
theorem mode_most_probable_partial {d : Dist n} (h : Spec.Gaussian d) : ∃ x, mode d = .ok x ∧ Spec.MostProbable (Spec.law d) x := by
  induction h with
  | normal mean scale hs => exact ⟨mean, rfl, mostProbable_normal mean scale hs⟩
  | mvn mean tril hdet =>
    have hu : IsUnit tril.det := isUnit_iff_ne_zero.2 hdet
    refine ⟨mean, rfl, ?_⟩
    have h0 := mostProbable_normal (n := n) (fun _ => 0) (fun _ => 1) fun _ => one_pos
    have := mostProbable_map h0 (Matrix.toLin'OfInv (Matrix.nonsing_inv_mul tril hu) (Matrix.mul_nonsing_inv tril hu)) mean
    have e : (Matrix.toLin'OfInv (Matrix.nonsing_inv_mul tril hu) (Matrix.mul_nonsing_inv tril hu)) (fun _ : Fin n => (0 : ℝ)) = 0 :=
      map_zero _
    rw [e, zero_add] at this
    have e2 : ((1 : ℝ) ^ 2).toNNReal = 1 := by simp
    rw [e2] at this
    have e3 : (fun z => (Matrix.toLin'OfInv (Matrix.nonsing_inv_mul tril hu) (Matrix.mul_nonsing_inv tril hu)) z + mean)
        = fun z => tril.mulVec z + mean := by
      funext z
      show Matrix.toLin' tril z + mean = _
      rw [Matrix.toLin'_apply]
    rw [e3] at this
    exact this
  | independent base _ ih => exact ih
  | transformed base ts _ hts ih =>
    obtain ⟨x, h1, h2⟩ := ih
    exact ⟨_, by simp only [mode, h1], (mostProbable_affines ts hts h2).2⟩

/-- **C108 (squashed policies).** For a Gaussian squashed by tanh, as SAC uses it, `act_deterministically` chooses the squashed mean.
The policy has a continuous density on the open cube; the action chosen is most probable if and only if the mean is zero and no
scale is above `1 / √2`. -/
theorem mode_squashed (mean scale : Fin n → ℝ) (hs : ∀ i, 0 < scale i) :
    mode (Spec.squashedGaussian mean scale) = .ok (fun i => Real.tanh (mean i)) ∧
    (∃ f, Spec.Density (Spec.law (Spec.squashedGaussian mean scale)) (univ.pi fun _ => Ioo (-1) 1) f) ∧
    (Spec.MostProbable (Spec.law (Spec.squashedGaussian mean scale)) (fun i => Real.tanh (mean i)) ↔
      ∀ i, mean i = 0 ∧ 2 * scale i ^ 2 ≤ 1) := by
  have htc : Continuous Real.tanh := continuous_iff_continuousAt.2 fun t => (tanh_deriv t).continuousAt
  have hl : Spec.law (Spec.squashedGaussian mean scale)
      = Measure.pi fun i => (gaussianReal (mean i) (scale i ^ 2).toNNReal).map Real.tanh := by
    have : ∀ i, IsProbabilityMeasure ((gaussianReal (mean i) (scale i ^ 2).toNNReal).map Real.tanh) := fun i =>
      Measure.isProbabilityMeasure_map htc.measurable.aemeasurable
    exact Measure.pi_map_pi (f := fun _ => Real.tanh) fun i => htc.measurable.aemeasurable
  obtain ⟨h1, h2⟩ := mostProbable_squashed mean scale hs
  rw [hl]
  exact ⟨rfl, ⟨_, h1⟩, h2⟩

/-- **C108 (violation).** A concrete case: with mean 1 and scale 1 the action chosen is not a most probable one. -/
theorem mode_squashed_wrong : ∃ x, mode (Spec.squashedGaussian (n := 1) (fun _ => 1) fun _ => 1) = .ok x ∧
    ¬ Spec.MostProbable (Spec.law (Spec.squashedGaussian (n := 1) (fun _ => 1) fun _ => 1)) x := by
  obtain ⟨h1, _, h3⟩ := mode_squashed (n := 1) (fun _ => 1) (fun _ => 1) fun _ => one_pos
  refine ⟨_, h1, fun h => ?_⟩
  exact absurd (h3.1 h 0).1 one_ne_zero

/-- **C108 (categorical policies).** With at least one action, `act_deterministically` chooses an action whose probability, and
whose logit, is not smaller than that of any other. -/
theorem mode_categorical {m : ℕ} (hm : 0 < m) (logits : Fin m → ℝ) : ∃ a : Fin m, categoricalMode (softmaxHead logits) = some a.1 ∧
    (∀ b, softmaxHead logits b ≤ softmaxHead logits a) ∧ ∀ b, logits b ≤ logits a := by
  obtain ⟨g, x, h1, h2, h3⟩ := Value.greedyAction_spec (q := List.ofFn (softmaxHead logits)) (by
    intro h
    have := congrArg List.length h
    simp at this
    omega)
  obtain ⟨hg, hx⟩ := List.getElem?_eq_some_iff.1 h2
  have hg' : g < m := by simpa using hg
  have hb : ∀ b, softmaxHead logits b ≤ softmaxHead logits ⟨g, hg'⟩ := by
    intro b
    have hx' : softmaxHead logits ⟨g, hg'⟩ = x := by simpa using hx
    rw [hx']
    exact h3 _ (by rw [List.mem_ofFn]; exact ⟨b, rfl⟩)
  refine ⟨⟨g, hg'⟩, h1, hb, fun b => ?_⟩
  have := hb b
  unfold softmaxHead Value.softmax at this
  rw [div_le_div_iff_of_pos_right (Finset.sum_pos (fun _ _ => Real.exp_pos _) ⟨b, Finset.mem_univ b⟩), Real.exp_le_exp] at this
  exact this

theorem softplus_pos (x : ℝ) : 0 < softplus x := by
  unfold softplus
  split
  · linarith
  · exact Real.log_pos (by linarith [Real.exp_pos x])

theorem normalOf_eq {loc scale : List ℝ} (h : loc.length = scale.length ∨ scale.length = 1) (hpos : ∀ s ∈ scale, 0 < s) :
    ∃ sc : Fin loc.length → ℝ, normalOf loc scale = .ok ⟨loc.length, .independent (.normal (vec loc) sc)⟩ ∧ (∀ i, 0 < sc i) ∧
      ∀ i : Fin loc.length, (loc.length = scale.length → scale[i.1]? = some (sc i)) ∧
        (scale.length = 1 → scale[0]? = some (sc i)) := by
  by_cases he : loc.length = scale.length
  · refine ⟨fun i => scale.getD i.1 0, ?_, fun i => ?_, fun i => ⟨fun _ => ?_, fun h1 => ?_⟩⟩
    · simp only [normalOf, broadcast, if_pos he]
    · have : i.1 < scale.length := by rw [← he]; exact i.2
      show 0 < scale.getD i.1 0
      rw [List.getD_eq_getElem?_getD, List.getElem?_eq_getElem this]
      exact hpos _ (List.getElem_mem this)
    · have : i.1 < scale.length := by rw [← he]; exact i.2
      show _ = some (scale.getD i.1 0)
      rw [List.getD_eq_getElem?_getD, List.getElem?_eq_getElem this]
      rfl
    · have : i.1 = 0 := by have := i.2; omega
      show _ = some (scale.getD i.1 0)
      rw [this, List.getD_eq_getElem?_getD, List.getElem?_eq_getElem (by omega)]
      rfl
  · have h1 : scale.length = 1 := h.resolve_left he
    obtain ⟨s, rfl⟩ := List.length_eq_one_iff.1 h1
    refine ⟨fun _ => s, ?_, fun i => hpos s (by simp), fun i => ⟨fun h => absurd h he, fun _ => rfl⟩⟩
    simp only [normalOf, broadcast, if_neg he, if_pos h1]
    congr 3
    congr 1
    funext i
    simp

/-- **C108 (Gaussian head with diagonal covariance).** For every row of even length `2k > 0` and every variance function with positive
values, the head returns a Gaussian with `k` independent components, whose means are the first half of the row and whose variances
are the function of the second half; acting deterministically gives the first half.  A row of length 1 raises, and so do rows of
odd length above 3. -/
theorem diagonal_head (varFunc : ℝ → ℝ) (hv : ∀ x, 0 < varFunc x) (mean pre : List ℝ) (hl : mean.length = pre.length)
    (hne : mean ≠ []) :
    (∃ sc : Fin mean.length → ℝ, diagonalHead varFunc (mean ++ pre) = .ok ⟨mean.length, .independent (.normal (vec mean) sc)⟩ ∧
      (∀ i, 0 < sc i ∧ (pre[i.1]?).map varFunc = some (sc i ^ 2)) ∧
      Spec.Gaussian (.independent (.normal (vec mean) sc)) ∧ mode (.independent (.normal (vec mean) sc)) = .ok (vec mean)) ∧
    (∀ x, diagonalHead varFunc [x] = .error .valueError) ∧
    ∀ row : List ℝ, row.length % 2 = 1 → 3 < row.length → diagonalHead varFunc row = .error .runtimeError := by
  refine ⟨?_, fun x => by simp [diagonalHead], fun row h1 h2 => ?_⟩
  · have hpos : 0 < mean.length := List.length_pos_of_ne_nil hne
    have hc : (mean.length + mean.length + 1) / 2 = mean.length := by omega
    have hd : diagonalHead varFunc (mean ++ pre) = normalOf mean (pre.map fun x => √(varFunc x)) := by
      unfold diagonalHead
      simp only [List.length_append, ← hl, hc]
      rw [if_neg (by omega), List.take_left', List.drop_left'] <;> rfl
    obtain ⟨sc, g1, g2, g3⟩ := normalOf_eq (loc := mean) (scale := pre.map fun x => √(varFunc x)) (Or.inl (by simpa using hl)) (by
      intro s hs
      obtain ⟨x, _, rfl⟩ := List.mem_map.1 hs
      exact Real.sqrt_pos.2 (hv x))
    refine ⟨sc, hd.trans g1, fun i => ⟨g2 i, ?_⟩, .independent _ (.normal _ _ g2), rfl⟩
    have := (g3 i).1 (by simpa using hl)
    rw [List.getElem?_map] at this
    cases hp : pre[i.1]? with
    | none => rw [hp] at this; cases this
    | some x =>
      rw [hp] at this
      simp only [Option.map_some, Option.some.injEq] at this ⊢
      rw [← this, Real.sq_sqrt (hv x).le]
  · unfold diagonalHead
    simp only
    rw [if_neg (by omega)]
    unfold normalOf broadcast
    simp only [List.length_take, List.length_map, List.length_drop]
    rw [if_neg (by omega), if_neg (by omega), if_neg (by omega)]

/-- **C108 (a wrong size that is not noticed).** A row of length 3 gives a policy over two-dimensional actions whose components share
one variance. -/
theorem diagonal_head_three (varFunc : ℝ → ℝ) (a b c : ℝ) :
    diagonalHead varFunc [a, b, c] = .ok ⟨2, .independent (.normal (vec [a, b]) fun _ => √(varFunc c))⟩ := by
  have h : diagonalHead varFunc [a, b, c] = normalOf [a, b] [√(varFunc c)] := by
    unfold diagonalHead
    simp
  have h2 : normalOf [a, b] [√(varFunc c)]
      = .ok ⟨2, .independent (.normal (vec [a, b]) fun i => ([√(varFunc c), √(varFunc c)] : List ℝ).getD i.1 0)⟩ := rfl
  have h3 : (fun i : Fin 2 => ([√(varFunc c), √(varFunc c)] : List ℝ).getD i.1 0) = fun _ => √(varFunc c) := by
    funext i
    match i with
    | 0 => rfl
    | 1 => rfl
  rw [h, h2]
  exact congrArg (fun f => Except.ok (⟨2, .independent (.normal (vec [a, b]) f)⟩ : Σ n, Dist n)) h3

/-- **C108 (other Gaussian heads).** With a state-independent variance (one for all components, or one for each) and with a fixed
scale, the head returns a Gaussian with the given means and these variances, and acting deterministically gives the means. -/
theorem other_gaussian_heads (varFunc : ℝ → ℝ) (hv : ∀ x, 0 < varFunc x) (varParam mean : List ℝ)
    (hl : varParam.length = 1 ∨ varParam.length = mean.length) (scale : ℝ) (hs : 0 < scale) :
    (∃ sc : Fin mean.length → ℝ,
      stateIndependentHead varFunc varParam mean = .ok ⟨mean.length, .independent (.normal (vec mean) sc)⟩ ∧
      (∀ i, 0 < sc i ∧ (varParam[if varParam.length = 1 then 0 else i.1]?).map varFunc = some (sc i ^ 2)) ∧
      Spec.Gaussian (.independent (.normal (vec mean) sc)) ∧ mode (.independent (.normal (vec mean) sc)) = .ok (vec mean)) ∧
    fixedHead scale mean = .ok ⟨mean.length, .independent (.normal (vec mean) fun _ => scale)⟩ ∧
    Spec.Gaussian (.independent (.normal (vec mean) fun _ => scale)) := by
  refine ⟨?_, ?_, .independent _ (.normal _ _ fun _ => hs)⟩
  · obtain ⟨sc, g1, g2, g3⟩ := normalOf_eq (loc := mean) (scale := varParam.map fun x => √(varFunc x)) (by
      rcases hl with h | h
      · exact Or.inr (by simpa using h)
      · exact Or.inl (by simpa using h.symm)) (by
      intro s hs
      obtain ⟨x, _, rfl⟩ := List.mem_map.1 hs
      exact Real.sqrt_pos.2 (hv x))
    refine ⟨sc, g1, fun i => ⟨g2 i, ?_⟩, .independent _ (.normal _ _ g2), rfl⟩
    have key : ∀ j : ℕ, (varParam.map fun x => √(varFunc x))[j]? = some (sc i) → (varParam[j]?).map varFunc = some (sc i ^ 2) := by
      intro j hj
      rw [List.getElem?_map] at hj
      cases hp : varParam[j]? with
      | none => rw [hp] at hj; cases hj
      | some x =>
        rw [hp] at hj
        simp only [Option.map_some, Option.some.injEq] at hj ⊢
        rw [← hj, Real.sq_sqrt (hv x).le]
    by_cases h1 : varParam.length = 1
    · rw [if_pos h1]
      exact key 0 ((g3 i).2 (by simpa using h1))
    · rw [if_neg h1]
      exact key i.1 ((g3 i).1 (by simpa using (hl.resolve_left h1).symm))
  · obtain ⟨sc, g1, _, g3⟩ := normalOf_eq (loc := mean) (scale := [scale]) (Or.inr rfl) (by simpa using hs)
    have : sc = fun _ => scale := by
      funext i
      have := (g3 i).2 rfl
      simpa using this.symm
    rw [← this]
    exact g1

/-- **C108 (default variance).** `softplus` is positive, as the heads require. -/
theorem softplus_admissible : ∀ x, 0 < softplus x := softplus_pos

/-- **C108 (deterministic head).** An agent with `act_deterministically` and a `DeterministicHead` raises instead of returning the
only action its policy can take. -/
theorem deterministic_head_unsupported (loc : List ℝ) :
    Spec.law (deterministicHead loc).2 {vec loc} = 1 ∧ mode (deterministicHead loc).2 = .error .runtimeError := by
  refine ⟨?_, rfl⟩
  show Measure.dirac (vec loc) {vec loc} = 1
  simp

/-- A Gaussian with correlated components, rescaled. -/
example : Spec.Gaussian (.transformed (.mvn (fun _ => 3) !![1, 0; 2, 1] : Dist 2) [.affine (fun _ => 1) fun _ => -2]) :=
  .transformed _ _ (.mvn _ _ (by simp [Matrix.det_fin_two])) (by
    intro t ht
    simp only [List.mem_singleton] at ht
    exact ⟨_, _, ht, fun _ => by norm_num⟩)

end Pfrl.Policies
