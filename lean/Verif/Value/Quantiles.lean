import Mathlib.Analysis.Calculus.ParametricIntegral
import Mathlib.Analysis.Calculus.Deriv.MeanValue
import Mathlib.MeasureTheory.Integral.Layercake
import Mathlib.MeasureTheory.Integral.IntervalIntegral.FundThmCalculus
import Mathlib.Probability.Moments.Variance
import Verif.Value.Distributional

/-!
# What an implicit quantile network learns (C132)

Experiences of one step; the environments and the optimal values are those of `Value/Iteration.lean`.  A network is any
function of a state, an action and a threshold.  It is fitted exactly: for every threshold the new network has the least
loss on average over what the environment does and over the thresholds that `torch.rand` draws for the targets.
-/

namespace Pfrl.Value.Iqn

open MeasureTheory ProbabilityTheory Finset
open Pfrl.Batch (Trans Out batchExperiences)
open Pfrl.Returns.PG (Env Outcome Step)

set_option linter.unusedSectionVars false

variable {S O : Type} [Fintype O] {m K : ℕ}

/-! ## Model -/

/-- One number of `torch.rand`: uniform on `[0, 1)`; that 0 is never drawn makes no difference to a mean. -/
noncomputable def unif : Measure ℝ := volume.restrict (Set.Ioo 0 1)

/-- The thresholds drawn for one target value, `pfrl/agents/iqn.py:297-302` and `:313-318`: `K` of them to choose the greedy
action, and one at which the chosen action is evaluated. -/
noncomputable def draws (K : ℕ) : Measure ((Fin K → ℝ) × ℝ) := (Measure.pi fun _ => unif).prod unif

/-- The row of action values that the thresholds `taus` give, `pfrl/action_value.py:196-198`; `z` is what the network
computes for a state, an action and a threshold. -/
noncomputable def qRow (z : S → Fin m → ℝ → ℝ) (taus : Fin K → ℝ) (s : S) : List ℝ :=
  List.ofFn (quantileQ fun k a => z s a (taus k))

/-- `evaluate_actions_as_quantiles` with one threshold, `pfrl/action_value.py:200-211`. -/
noncomputable def quantile (z : S → Fin m → ℝ → ℝ) (tau : ℝ) (s : S) (a : Nat) : List ℝ :=
  if h : a < m then [z s ⟨a, h⟩ tau] else []

/-- A target value of the one-step experience `x`, `pfrl/agents/iqn.py:289-337`. -/
noncomputable def targetOf (gamma : ℝ) (z : S → Fin m → ℝ → ℝ) (x : Step S (Fin m)) (d : (Fin K → ℝ) × ℝ) : ℝ :=
  match batchExperiences id gamma [[Iteration.trans x]] with
  | .error _ => 0
  | .ok out => (((iqnTargets (fun _ => qRow z d.1) (fun _ => quantile z d.2) out).bind List.head?).bind List.head?).getD 0

/-- The distribution of the target values of a state and an action: the environment draws an outcome, the agent draws
thresholds. -/
noncomputable def law (M : Env S (Fin m) O) (gamma : ℝ) (K : ℕ) (z : S → Fin m → ℝ → ℝ) (s : S) (a : Fin m) : Measure ℝ :=
  ∑ o, ENNReal.ofReal (M.prob s a o) • (draws K).map (targetOf gamma z ⟨s, a, M.out s a o⟩)

/-- The mean of `compute_eltwise_huber_quantile_loss` (`pfrl/agents/iqn.py:176-208`) of the prediction `y` for the
threshold `tau`, over target values with distribution `mu`. -/
noncomputable def meanLoss (mu : Measure ℝ) (tau y : ℝ) : ℝ := ∫ t, quantileHuber y t tau ∂mu

/-- `z'` is an exact fit with the target network `z`: for every state, action and threshold it has the least mean loss. -/
def Fit (M : Env S (Fin m) O) (gamma : ℝ) (K : ℕ) (z z' : S → Fin m → ℝ → ℝ) : Prop :=
  ∀ s a, Measurable (z' s a) ∧ ∀ tau ∈ Set.Ioo (0 : ℝ) 1, ∀ y,
    meanLoss (law M gamma K z s a) tau (z' s a tau) ≤ meanLoss (law M gamma K z s a) tau y

/-! ## Specification -/

/-- `q` is a `tau`-quantile: at most `tau` of the mass is below it, at least `tau` is not above it. -/
def Spec.IsQuantile (mu : Measure ℝ) (tau q : ℝ) : Prop := mu.real (Set.Iio q) ≤ tau ∧ tau ≤ mu.real (Set.Iic q)

/-- The expected return that a network stands for: the mean of its quantiles. -/
noncomputable def Spec.value (z : S → Fin m → ℝ → ℝ) (s : S) (a : Fin m) : ℝ := ∫ tau in Set.Ioo 0 1, z s a tau

/-- A network with outputs in `[lo, hi]`. -/
def Spec.Within (lo hi : ℝ) (z : S → Fin m → ℝ → ℝ) : Prop :=
  ∀ s a, Measurable (z s a) ∧ ∀ tau ∈ Set.Ioo (0 : ℝ) 1, z s a tau ∈ Set.Icc lo hi

/-! ## Lemmas: the mean loss -/

instance : IsProbabilityMeasure unif := ⟨by simp [unif]⟩

instance (K : ℕ) : IsProbabilityMeasure (draws K) := by unfold draws; infer_instance

theorem ae_unif {p : ℝ → Prop} (h : ∀ tau ∈ Set.Ioo (0 : ℝ) 1, p tau) : ∀ᵐ tau ∂unif, p tau :=
  (ae_restrict_iff' measurableSet_Ioo).2 (.of_forall h)

section loss
variable {mu : Measure ℝ} [IsProbabilityMeasure mu] {lo hi tau : ℝ}

/-- The gradient of the loss for one target value. -/
noncomputable def slope (tau y t : ℝ) : ℝ := (if t < y then 1 - tau else tau) * max (-1) (min 1 (y - t))

theorem slope_measurable (tau y : ℝ) : Measurable (slope tau y) := by
  unfold slope
  exact (Measurable.ite measurableSet_Iio measurable_const measurable_const).mul (by fun_prop)

theorem slope_abs (h0 : 0 < tau) (h1 : tau < 1) (y t : ℝ) : |slope tau y t| ≤ 1 := by
  unfold slope
  rw [abs_mul]
  have e1 : |(if t < y then 1 - tau else tau)| ≤ 1 := by
    split <;> rw [abs_le] <;> constructor <;> linarith
  have e2 : |max (-1 : ℝ) (min 1 (y - t))| ≤ 1 := by
    rw [abs_le]; exact ⟨le_max_left _ _, max_le (by norm_num) (min_le_left _ _)⟩
  calc _ ≤ (1 : ℝ) * 1 := mul_le_mul e1 e2 (abs_nonneg _) (by norm_num)
    _ = 1 := by norm_num

theorem slope_integrable (tau y : ℝ) : Integrable (slope tau y) mu := by
  refine Integrable.of_bound (slope_measurable tau y).aestronglyMeasurable (|1 - tau| + |tau|) (.of_forall fun t => ?_)
  unfold slope
  rw [Real.norm_eq_abs, abs_mul]
  have e1 : |(if t < y then 1 - tau else tau)| ≤ |1 - tau| + |tau| := by
    split
    · exact le_add_of_nonneg_right (abs_nonneg _)
    · exact le_add_of_nonneg_left (abs_nonneg _)
  have e2 : |max (-1 : ℝ) (min 1 (y - t))| ≤ 1 := by
    rw [abs_le]; exact ⟨le_max_left _ _, max_le (by norm_num) (min_le_left _ _)⟩
  calc _ ≤ (|1 - tau| + |tau|) * 1 := mul_le_mul e1 e2 (abs_nonneg _) (add_nonneg (abs_nonneg _) (abs_nonneg _))
    _ = _ := mul_one _

theorem loss_measurable (tau y : ℝ) : Measurable fun t => quantileHuber y t tau := by
  unfold quantileHuber smoothL1
  refine Measurable.mul ?_ ?_
  · exact continuous_abs.measurable.comp
      (measurable_const.sub (Measurable.ite measurableSet_Iio measurable_const measurable_const))
  · exact Measurable.ite (measurableSet_lt (by fun_prop) measurable_const) (by fun_prop) (by fun_prop)

theorem loss_integrable (h0 : 0 < tau) (h1 : tau < 1) (hs : ∀ᵐ t ∂mu, t ∈ Set.Icc lo hi) (y : ℝ) :
    Integrable (fun t => quantileHuber y t tau) mu := by
  refine Integrable.of_bound (loss_measurable tau y).aestronglyMeasurable ((|y| + |lo| + |hi|) ^ 2 / 2) (hs.mono fun t ht => ?_)
  have hn := (quantile_huber tau h0 h1).1 y t
  rw [Real.norm_eq_abs, abs_of_nonneg hn]
  unfold quantileHuber
  have e1 : |tau - (if t < y then 1 else 0)| ≤ 1 := by
    split <;> rw [abs_le] <;> constructor <;> linarith
  have e2 : |y - t| ≤ |y| + |lo| + |hi| := by
    rw [abs_le]
    have := neg_abs_le lo; have := le_abs_self hi; have := neg_abs_le y; have := le_abs_self y
    have := abs_nonneg lo; have := abs_nonneg hi
    constructor <;> linarith [ht.1, ht.2]
  calc _ ≤ 1 * ((y - t) ^ 2 / 2) := mul_le_mul e1 (smoothL1_le y t) (smoothL1_nonneg y t) (by norm_num)
    _ ≤ _ := by
      rw [one_mul, ← sq_abs]
      have := pow_le_pow_left₀ (abs_nonneg _) e2 2
      linarith

/-- The gradient of the mean loss. -/
theorem meanLoss_deriv (h0 : 0 < tau) (h1 : tau < 1) (hs : ∀ᵐ t ∂mu, t ∈ Set.Icc lo hi) (y : ℝ) :
    HasDerivAt (meanLoss mu tau) (∫ t, slope tau y t ∂mu) y :=
  (hasDerivAt_integral_of_dominated_loc_of_deriv_le (F := fun y t => quantileHuber y t tau) (F' := slope tau)
    (bound := fun _ => 1) (s := Set.univ) Filter.univ_mem
    (.of_forall fun y => (loss_measurable tau y).aestronglyMeasurable) (loss_integrable h0 h1 hs y)
    (slope_measurable tau y).aestronglyMeasurable (.of_forall fun t x _ => slope_abs h0 h1 x t) (integrable_const 1)
    (.of_forall fun t x _ => (quantile_huber tau h0 h1).2.2.2 x t)).2

theorem best_slope (h0 : 0 < tau) (h1 : tau < 1) (hs : ∀ᵐ t ∂mu, t ∈ Set.Icc lo hi) {y : ℝ}
    (hy : ∀ y', meanLoss mu tau y ≤ meanLoss mu tau y') : ∫ t, slope tau y t ∂mu = 0 :=
  IsLocalMin.hasDerivAt_eq_zero (f := meanLoss mu tau) (Filter.Eventually.of_forall hy) (meanLoss_deriv h0 h1 hs y)

/-- At most `tau` of the mass is more than 1 below a best prediction. -/
theorem best_below (h0 : 0 < tau) (h1 : tau < 1) {y : ℝ} (hy : ∫ t, slope tau y t ∂mu = 0) :
    mu.real (Set.Iic (y - 1)) ≤ tau := by
  have hi : Integrable (fun t => Set.indicator (Set.Iic (y - 1)) (fun _ => (1 : ℝ)) t - tau) mu :=
    ((integrable_const (1 : ℝ)).indicator measurableSet_Iic).sub (integrable_const _)
  have h : ∫ t, (Set.indicator (Set.Iic (y - 1)) (fun _ => (1 : ℝ)) t - tau) ∂mu ≤ ∫ t, slope tau y t ∂mu := by
    refine integral_mono hi (slope_integrable tau y) fun t => ?_
    by_cases ht : t ≤ y - 1
    · simp only [Set.indicator, Set.mem_Iic, ht, if_true, slope]
      rw [if_pos (by linarith), min_eq_left (by linarith), max_eq_right (by norm_num), mul_one]
    · simp only [Set.indicator, Set.mem_Iic, ht, if_false, slope]
      by_cases hy : t < y
      · rw [if_pos hy]
        have : 0 ≤ max (-1 : ℝ) (min 1 (y - t)) := le_max_of_le_right (le_min (by norm_num) (by linarith))
        have := mul_nonneg (by linarith : (0 : ℝ) ≤ 1 - tau) this
        linarith
      · rw [if_neg hy]
        have := mul_le_mul_of_nonneg_left (le_max_left (-1 : ℝ) (min 1 (y - t))) h0.le
        linarith
  rw [hy, integral_sub ((integrable_const (1 : ℝ)).indicator measurableSet_Iic) (integrable_const _),
    integral_indicator measurableSet_Iic] at h
  simp at h
  exact h

/-- At most `1 - tau` of the mass is more than 1 above a best prediction. -/
theorem best_above (h0 : 0 < tau) (h1 : tau < 1) {y : ℝ} (hy : ∫ t, slope tau y t ∂mu = 0) :
    mu.real (Set.Ici (y + 1)) ≤ 1 - tau := by
  have hi : Integrable (fun t => (1 - tau) - Set.indicator (Set.Ici (y + 1)) (fun _ => (1 : ℝ)) t) mu :=
    (integrable_const _).sub ((integrable_const (1 : ℝ)).indicator measurableSet_Ici)
  have h : ∫ t, slope tau y t ∂mu ≤ ∫ t, ((1 - tau) - Set.indicator (Set.Ici (y + 1)) (fun _ => (1 : ℝ)) t) ∂mu := by
    refine integral_mono (slope_integrable tau y) hi fun t => ?_
    by_cases ht : y + 1 ≤ t
    · simp only [Set.indicator, Set.mem_Ici, ht, if_true, slope]
      rw [if_neg (by linarith), min_eq_right (by linarith), max_eq_left (by linarith)]
      linarith
    · simp only [Set.indicator, Set.mem_Ici, ht, if_false, slope]
      by_cases hy : t < y
      · rw [if_pos hy]
        have : max (-1 : ℝ) (min 1 (y - t)) ≤ 1 := max_le (by norm_num) (min_le_left _ _)
        have := mul_le_mul_of_nonneg_left this (by linarith : (0 : ℝ) ≤ 1 - tau)
        linarith
      · rw [if_neg hy]
        have : max (-1 : ℝ) (min 1 (y - t)) ≤ 0 := max_le (by norm_num) ((min_le_right _ _).trans (by linarith))
        have := mul_le_mul_of_nonneg_left this h0.le
        linarith
  rw [hy, integral_sub (integrable_const _) ((integrable_const (1 : ℝ)).indicator measurableSet_Ici),
    integral_indicator measurableSet_Ici] at h
  simp at h
  linarith

theorem slope_pos (h1 : tau < 1) (hs : ∀ᵐ t ∂mu, t ∈ Set.Icc lo hi) {y : ℝ} (hy : hi < y) :
    0 < ∫ t, slope tau y t ∂mu := by
  have hc : 0 < (1 - tau) * min 1 (y - hi) := mul_pos (by linarith) (lt_min (by norm_num) (by linarith))
  have : ∫ _, (1 - tau) * min 1 (y - hi) ∂mu ≤ ∫ t, slope tau y t ∂mu := by
    refine integral_mono_ae (integrable_const _) (slope_integrable tau y) (hs.mono fun t ht => ?_)
    unfold slope
    rw [if_pos (by linarith [ht.2])]
    refine mul_le_mul_of_nonneg_left (le_max_of_le_right (min_le_min_left _ (by linarith [ht.2]))) (by linarith)
  simp only [integral_const, probReal_univ, smul_eq_mul, one_mul] at this
  linarith

theorem slope_neg (h0 : 0 < tau) (hs : ∀ᵐ t ∂mu, t ∈ Set.Icc lo hi) {y : ℝ} (hy : y < lo) :
    ∫ t, slope tau y t ∂mu < 0 := by
  have hc : tau * max (-1) (y - lo) < 0 := mul_neg_of_pos_of_neg h0 (max_lt (by norm_num) (by linarith))
  have : ∫ t, slope tau y t ∂mu ≤ ∫ _, tau * max (-1) (y - lo) ∂mu := by
    refine integral_mono_ae (slope_integrable tau y) (integrable_const _) (hs.mono fun t ht => ?_)
    unfold slope
    rw [if_neg (by linarith [ht.1])]
    refine mul_le_mul_of_nonneg_left (max_le_max_left _ ((min_le_right _ _).trans (by linarith [ht.1]))) h0.le
  simp only [integral_const, probReal_univ, smul_eq_mul, one_mul] at this
  linarith

theorem best_mem (h0 : 0 < tau) (h1 : tau < 1) (hs : ∀ᵐ t ∂mu, t ∈ Set.Icc lo hi) {y : ℝ}
    (hy : ∫ t, slope tau y t ∂mu = 0) : y ∈ Set.Icc lo hi := by
  constructor
  · by_contra h
    exact (slope_neg h0 hs (not_le.1 h)).ne hy
  · by_contra h
    exact (slope_pos h1 hs (not_le.1 h)).ne' hy

theorem slope_antitone (y t : ℝ) {tau tau' : ℝ} (h : tau ≤ tau') : slope tau' y t ≤ slope tau y t := by
  unfold slope
  by_cases ht : t < y
  · rw [if_pos ht, if_pos ht]
    exact mul_le_mul_of_nonneg_right (by linarith) (le_max_of_le_right (le_min (by norm_num) (by linarith)))
  · rw [if_neg ht, if_neg ht]
    exact mul_le_mul_of_nonpos_right h (max_le (by norm_num) ((min_le_right _ _).trans (by linarith)))

theorem slope_monotone (h0 : 0 < tau) (h1 : tau < 1) (t : ℝ) {y y' : ℝ} (h : y ≤ y') : slope tau y t ≤ slope tau y' t := by
  have hm : max (-1 : ℝ) (min 1 (y - t)) ≤ max (-1) (min 1 (y' - t)) := max_le_max_left _ (min_le_min_left _ (by linarith))
  unfold slope
  by_cases ht : t < y
  · rw [if_pos ht, if_pos (by linarith)]
    exact mul_le_mul_of_nonneg_left hm (by linarith)
  · rw [if_neg ht]
    by_cases ht' : t < y'
    · rw [if_pos ht']
      have a1 : max (-1 : ℝ) (min 1 (y - t)) ≤ 0 := max_le (by norm_num) ((min_le_right _ _).trans (by linarith))
      have a2 : 0 ≤ max (-1 : ℝ) (min 1 (y' - t)) := le_max_of_le_right (le_min (by norm_num) (by linarith))
      exact (mul_nonpos_of_nonneg_of_nonpos h0.le a1).trans (mul_nonneg (by linarith) a2)
    · rw [if_neg ht']
      exact mul_le_mul_of_nonneg_left hm h0.le

/-- The best predictions can be chosen so that they increase with the threshold. -/
theorem best_exists (hs : ∀ᵐ t ∂mu, t ∈ Set.Icc lo hi) : ∃ w : ℝ → ℝ, Monotone w ∧
    ∀ tau ∈ Set.Ioo (0 : ℝ) 1, ∀ y, meanLoss mu tau (w tau) ≤ meanLoss mu tau y := by
  obtain ⟨t0, ht0⟩ := hs.exists
  have hlh : lo ≤ hi := ht0.1.trans ht0.2
  let D := fun tau y => ∫ t, slope tau y t ∂mu
  let A := fun tau => {y | y ∈ Set.Icc lo hi ∧ (y = hi ∨ 0 ≤ D tau y)}
  have hA : ∀ tau, hi ∈ A tau := fun tau => ⟨⟨hlh, le_rfl⟩, Or.inl rfl⟩
  have hb : ∀ tau, BddBelow (A tau) := fun tau => ⟨lo, fun y hy => hy.1.1⟩
  refine ⟨fun tau => sInf (A tau), fun tau tau' h => ?_, fun tau ht y => ?_⟩
  · refine csInf_le_csInf (hb tau) ⟨hi, hA tau'⟩ fun y hy => ⟨hy.1, hy.2.imp id fun h' => h'.trans ?_⟩
    exact integral_mono (slope_integrable _ _) (slope_integrable _ _) fun t => slope_antitone y t h
  · have hd := fun y => meanLoss_deriv ht.1 ht.2 hs y
    have hc : Continuous (meanLoss mu tau) := continuous_iff_continuousAt.2 fun y => (hd y).continuousAt
    have hdiff : Differentiable ℝ (meanLoss mu tau) := fun y => (hd y).differentiableAt
    have hmono : ∀ y y', y ≤ y' → D tau y ≤ D tau y' := fun y y' h =>
      integral_mono (slope_integrable _ _) (slope_integrable _ _) fun t => slope_monotone ht.1 ht.2 t h
    rcases le_total y (sInf (A tau)) with hy | hy
    · refine antitoneOn_of_deriv_nonpos (convex_Iic (sInf (A tau))) hc.continuousOn hdiff.differentiableOn (fun x hx => ?_)
        hy (Set.self_mem_Iic) hy
      rw [interior_Iic] at hx
      rw [(hd x).deriv]
      by_contra hpos
      push Not at hpos
      rcases lt_or_ge x lo with hx' | hx'
      · exact absurd (slope_neg ht.1 hs hx') (by linarith)
      · have hxh : x ≤ hi := (le_of_lt hx).trans (csInf_le (hb tau) (hA tau))
        have : x ∈ A tau := ⟨⟨hx', hxh⟩, Or.inr hpos.le⟩
        exact absurd (csInf_le (hb tau) this) (not_le.2 hx)
    · refine monotoneOn_of_deriv_nonneg (convex_Ici (sInf (A tau))) hc.continuousOn hdiff.differentiableOn (fun x hx => ?_)
        Set.self_mem_Ici hy hy
      rw [interior_Ici] at hx
      rw [(hd x).deriv]
      obtain ⟨y', hy', hlt⟩ := exists_lt_of_csInf_lt ⟨hi, hA tau⟩ (show sInf (A tau) < x from hx)
      rcases hy'.2 with h | h
      · exact (slope_pos ht.2 hs (h ▸ hlt)).le
      · exact h.trans (hmono y' x hlt.le)

end loss

/-! ## Lemmas: means -/

/-- If one variable is more often large than another, its mean is larger. -/
theorem mean_le {α β : Type*} [MeasurableSpace α] [MeasurableSpace β] {mu : Measure α} {nu : Measure β} [IsProbabilityMeasure mu]
    [IsProbabilityMeasure nu] {f : α → ℝ} {g : β → ℝ} (hf : Measurable f) (hg : Measurable g) {c C : ℝ}
    (hfc : ∀ᵐ x ∂mu, f x ∈ Set.Icc c C) (hgc : ∀ᵐ x ∂nu, g x ∈ Set.Icc c C) (h : ∀ x, mu {a | x < f a} ≤ nu {b | x < g b}) :
    ∫ a, f a ∂mu ≤ ∫ b, g b ∂nu := by
  have hfi : Integrable f mu := Integrable.of_mem_Icc c C hf.aemeasurable hfc
  have hgi : Integrable g nu := Integrable.of_mem_Icc c C hg.aemeasurable hgc
  have hf0 : 0 ≤ᵐ[mu] fun a => f a - c := hfc.mono fun a ha => sub_nonneg.2 ha.1
  have hg0 : 0 ≤ᵐ[nu] fun a => g a - c := hgc.mono fun a ha => sub_nonneg.2 ha.1
  have key : ∫ a, (f a - c) ∂mu ≤ ∫ b, (g b - c) ∂nu := by
    rw [integral_eq_lintegral_of_nonneg_ae hf0 (hf.sub_const c).aestronglyMeasurable,
      integral_eq_lintegral_of_nonneg_ae hg0 (hg.sub_const c).aestronglyMeasurable]
    refine ENNReal.toReal_mono (hgi.sub (integrable_const c)).lintegral_lt_top.ne ?_
    rw [lintegral_eq_lintegral_meas_lt _ hf0 (hf.sub_const c).aemeasurable,
      lintegral_eq_lintegral_meas_lt _ hg0 (hg.sub_const c).aemeasurable]
    refine lintegral_mono fun t => ?_
    simp only [lt_sub_iff_add_lt]
    exact h (t + c)
  rw [integral_sub hfi (integrable_const c), integral_sub hgi (integrable_const c)] at key
  simp at key
  exact key

section
variable {mu : Measure ℝ} [IsProbabilityMeasure mu] {lo hi : ℝ}

theorem unif_ge (p : ℝ) : unif {tau | p ≤ tau} ≤ ENNReal.ofReal (1 - p) := by
  unfold unif
  rw [show {tau : ℝ | p ≤ tau} = Set.Ici p from rfl, Measure.restrict_apply measurableSet_Ici]
  have h : Set.Ici p ∩ Set.Ioo 0 1 ⊆ Set.Icc p 1 := fun x hx => ⟨hx.1, hx.2.2.le⟩
  refine (measure_mono h).trans ?_
  rw [Real.volume_Icc]

theorem unif_le (p : ℝ) : unif {tau | tau ≤ p} ≤ ENNReal.ofReal p := by
  unfold unif
  rw [show {tau : ℝ | tau ≤ p} = Set.Iic p from rfl, Measure.restrict_apply measurableSet_Iic]
  have h : Set.Iic p ∩ Set.Ioo 0 1 ⊆ Set.Icc 0 p := fun x hx => ⟨hx.2.1.le, hx.1⟩
  refine (measure_mono h).trans ?_
  rw [Real.volume_Icc, sub_zero]

/-- The mean of the best predictions is within 1 of the mean of the target values. -/
theorem best_mean (hs : ∀ᵐ t ∂mu, t ∈ Set.Icc lo hi) {z : ℝ → ℝ} (hz : Measurable z)
    (hb : ∀ tau ∈ Set.Ioo (0 : ℝ) 1, ∫ t, slope tau (z tau) t ∂mu = 0) :
    |(∫ tau, z tau ∂unif) - ∫ t, t ∂mu| ≤ 1 := by
  have hm : ∀ᵐ tau ∂unif, z tau ∈ Set.Icc lo hi := ae_unif fun tau ht => best_mem ht.1 ht.2 hs (hb tau ht)
  have hzi : Integrable z unif := Integrable.of_mem_Icc lo hi hz.aemeasurable hm
  have h1 : ∫ tau, (z tau - 1) ∂unif ≤ ∫ t, t ∂mu := by
    refine mean_le (g := fun t => t) (hz.sub_const 1) measurable_id (c := lo - 1) (C := hi) (hm.mono fun t ht => ⟨by linarith [ht.1], by linarith [ht.2]⟩)
      (hs.mono fun t ht => ⟨by linarith [ht.1], ht.2⟩) fun x => ?_
    have e : mu {t | x < t} = ENNReal.ofReal (1 - mu.real (Set.Iic x)) := by
      rw [← probReal_compl_eq_one_sub measurableSet_Iic, ofReal_measureReal, Set.compl_Iic]
      rfl
    rw [e]
    refine (measure_mono_ae (ae_unif fun tau ht hx => ?_)).trans (unif_ge _)
    have hx : x < z tau - 1 := hx
    exact (measureReal_mono (Set.Iic_subset_Iic.2 hx.le)).trans (best_below ht.1 ht.2 (hb tau ht))
  have h2 : ∫ t, t ∂mu ≤ ∫ tau, (z tau + 1) ∂unif := by
    refine mean_le (f := fun t => t) measurable_id (hz.add_const 1) (c := lo) (C := hi + 1)
      (hs.mono fun t ht => ⟨ht.1, by linarith [ht.2]⟩)
      (hm.mono fun t ht => ⟨by linarith [ht.1], by linarith [ht.2]⟩) fun x => ?_
    have hms : MeasurableSet {tau | z tau + 1 ≤ x} := measurableSet_le (hz.add_const 1) measurable_const
    have hc : unif {tau | x < z tau + 1} = 1 - unif {tau | z tau + 1 ≤ x} := by
      rw [← prob_compl_eq_one_sub hms]
      congr 1
      ext tau
      simp
    have e : mu {t | x < t} = 1 - mu (Set.Iic x) := by
      rw [← prob_compl_eq_one_sub measurableSet_Iic, Set.compl_Iic]
      rfl
    rw [hc, e]
    refine tsub_le_tsub_left ?_ _
    rw [← ofReal_measureReal (μ := mu)]
    refine (measure_mono_ae (ae_unif fun tau ht hx => ?_)).trans (unif_le _)
    have hx : z tau + 1 ≤ x := hx
    have := (measureReal_mono (μ := mu) (Set.Ici_subset_Ici.2 hx)).trans (best_above ht.1 ht.2 (hb tau ht))
    have e2 : mu.real (Set.Ici x) = 1 - mu.real (Set.Iio x) := by
      rw [← probReal_compl_eq_one_sub measurableSet_Iio, Set.compl_Iio]
    have : mu.real (Set.Iio x) ≤ mu.real (Set.Iic x) := measureReal_mono Set.Iio_subset_Iic_self
    show tau ≤ mu.real (Set.Iic x)
    linarith
  rw [integral_sub hzi (integrable_const 1)] at h1
  rw [integral_add hzi (integrable_const 1)] at h2
  simp at h1 h2
  rw [abs_le]
  constructor <;> linarith

end


/-! ## Lemmas: quantiles -/

section quantiles
variable {mu : Measure ℝ} [IsProbabilityMeasure mu] {lo hi tau : ℝ}

/-- There is a quantile between any two numbers one of which is too small and the other too large. -/
theorem quantile_between {x y : ℝ} (hxy : x ≤ y) (hx : mu.real (Set.Iio x) ≤ tau) (hy : tau ≤ mu.real (Set.Iic y)) :
    ∃ q, x ≤ q ∧ q ≤ y ∧ Spec.IsQuantile mu tau q := by
  let A := {q | q ≤ y ∧ mu.real (Set.Iio q) ≤ tau}
  have hA : x ∈ A := ⟨hxy, hx⟩
  have hb : BddAbove A := ⟨y, fun q hq => hq.1⟩
  refine ⟨sSup A, le_csSup hb hA, csSup_le ⟨x, hA⟩ fun q hq => hq.1, ?_, ?_⟩
  · -- continuity from below
    obtain ⟨u, hu, hlim, huA⟩ := exists_seq_tendsto_sSup ⟨x, hA⟩ hb
    have hU : Set.Iio (sSup A) = ⋃ n, Set.Iio (u n) := by
      ext t
      simp only [Set.mem_Iio, Set.mem_iUnion]
      constructor
      · intro ht
        exact (hlim.eventually (lt_mem_nhds ht)).exists
      · rintro ⟨n, hn⟩
        exact hn.trans_le (le_csSup hb (huA n))
    have hmono : Monotone fun n => Set.Iio (u n) := fun i j hij => Set.Iio_subset_Iio (hu hij)
    have := tendsto_measure_iUnion_atTop (μ := mu) hmono
    rw [← hU] at this
    have := (ENNReal.tendsto_toReal (measure_ne_top mu _)).comp this
    exact le_of_tendsto this (.of_forall fun n => (huA n).2)
  · by_contra h
    push Not at h
    have hlt : sSup A < y := by
      rcases lt_or_eq_of_le (csSup_le ⟨x, hA⟩ fun q (hq : q ∈ A) => hq.1) with h' | h'
      · exact h'
      · rw [h'] at h; linarith
    have hI : Set.Iic (sSup A) = ⋂ n : ℕ, Set.Iio (sSup A + (y - sSup A) / (n + 1)) := by
      ext t
      simp only [Set.mem_Iic, Set.mem_iInter, Set.mem_Iio]
      constructor
      · intro ht n
        have : 0 < (y - sSup A) / ((n : ℝ) + 1) := div_pos (by linarith) (by positivity)
        linarith
      · intro ht
        by_contra hc
        push Not at hc
        obtain ⟨n, hn⟩ := exists_nat_gt ((y - sSup A) / (t - sSup A))
        have h1 := ht n
        have h2 : 0 < t - sSup A := by linarith
        have h3 : (y - sSup A) / ((n : ℝ) + 1) < t - sSup A := by
          rw [div_lt_iff₀ (by positivity)]
          rw [div_lt_iff₀ h2] at hn
          nlinarith
        linarith
    have hanti : Antitone fun n : ℕ => Set.Iio (sSup A + (y - sSup A) / ((n : ℝ) + 1)) := by
      intro i j hij
      refine Set.Iio_subset_Iio (add_le_add_right ?_ _)
      refine div_le_div_of_nonneg_left (by linarith) (by positivity) ?_
      have : (i : ℝ) ≤ j := by exact_mod_cast hij
      linarith
    have hl := tendsto_measure_iInter_atTop (μ := mu) (fun n : ℕ => (measurableSet_Iio (a := sSup A + (y - sSup A) / ((n : ℝ) + 1))).nullMeasurableSet)
      hanti ⟨0, measure_ne_top mu _⟩
    rw [← hI] at hl
    have hl := (ENNReal.tendsto_toReal (measure_ne_top mu _)).comp hl
    obtain ⟨n, hn⟩ := (hl.eventually (gt_mem_nhds h)).exists
    have hpos : 0 < (y - sSup A) / ((n : ℝ) + 1) := div_pos (by linarith) (by positivity)
    have hle : (y - sSup A) / ((n : ℝ) + 1) ≤ y - sSup A := div_le_self (by linarith) (by simp)
    have : sSup A + (y - sSup A) / ((n : ℝ) + 1) ∈ A := ⟨by linarith, hn.le⟩
    have := le_csSup hb this
    linarith

/-- A best prediction is within 1 of a quantile. -/
theorem best_quantile (h0 : 0 < tau) (h1 : tau < 1) {y : ℝ}
    (hy : ∫ t, slope tau y t ∂mu = 0) : ∃ q, Spec.IsQuantile mu tau q ∧ |y - q| ≤ 1 := by
  have hb := best_below h0 h1 hy
  have ha := best_above h0 h1 hy
  have e2 : mu.real (Set.Ici (y + 1)) = 1 - mu.real (Set.Iio (y + 1)) := by
    rw [← probReal_compl_eq_one_sub measurableSet_Iio, Set.compl_Iio]
  have h3 : mu.real (Set.Iio (y - 1)) ≤ mu.real (Set.Iic (y - 1)) := measureReal_mono Set.Iio_subset_Iic_self
  have h4 : mu.real (Set.Iio (y + 1)) ≤ mu.real (Set.Iic (y + 1)) := measureReal_mono Set.Iio_subset_Iic_self
  obtain ⟨q, q1, q2, q3⟩ := quantile_between (mu := mu) (tau := tau) (x := y - 1) (y := y + 1) (by linarith) (by linarith) (by linarith)
  exact ⟨q, q3, by rw [abs_le]; constructor <;> linarith⟩

end quantiles


/-! ## Lemmas: target values -/

section targets
variable [NeZero m] {gamma lo hi : ℝ} {z : S → Fin m → ℝ → ℝ}

/-- The action chosen with the thresholds `taus`. -/
noncomputable def chosen (z : S → Fin m → ℝ → ℝ) (taus : Fin K → ℝ) (s : S) : ℕ := (greedyAction (qRow z taus s)).getD 0

theorem chosen_spec (z : S → Fin m → ℝ → ℝ) (taus : Fin K → ℝ) (s : S) : ∃ g : Fin m, chosen z taus s = g.1 ∧
    greedyAction (qRow z taus s) = some g.1 ∧
    ∀ b, quantileQ (fun k a => z s a (taus k)) b ≤ quantileQ (fun k a => z s a (taus k)) g := by
  have hne : qRow z taus s ≠ [] := by
    intro h
    have : (qRow z taus s).length = m := by simp [qRow]
    rw [h] at this
    exact NeZero.ne m this.symm
  obtain ⟨g, v, h1, h2, h3⟩ := greedyAction_spec hne
  have hg : g < m := by
    have := (List.getElem?_eq_some_iff.mp h2).1
    simpa [qRow] using this
  refine ⟨⟨g, hg⟩, by simp [chosen, h1], h1, fun b => ?_⟩
  have hv : v = quantileQ (fun k a => z s a (taus k)) ⟨g, hg⟩ := by
    have := h2
    simp [qRow, hg] at this
    exact this.symm
  rw [← hv]
  exact h3 _ ((List.mem_ofFn' _ _).2 ⟨b, rfl⟩)

/-- The quantile of the action with index `n`. -/
noncomputable def atIndex (z : S → Fin m → ℝ → ℝ) (s : S) (n : ℕ) (tau : ℝ) : ℝ := if h : n < m then z s ⟨n, h⟩ tau else 0

theorem target_eq (gamma : ℝ) (z : S → Fin m → ℝ → ℝ) (x : Step S (Fin m)) (d : (Fin K → ℝ) × ℝ) :
    targetOf gamma z x d
      = x.out.reward + gamma * if x.out.done then 0 else atIndex z x.out.next (chosen z d.1 x.out.next) d.2 := by
  choose g g1 g2 g3 using chosen_spec z d.1
  obtain ⟨out, ts, h1, h2, h3, h4⟩ := iqn_targets id gamma (exps := [[Iteration.trans x]]) (by simp) (by simp)
    (fun _ => qRow z d.1) (fun _ => quantile z d.2) (fun _ s => (g s).1) (fun _ s => g2 s)
  obtain ⟨r, tn, r1, r2, r3, r4⟩ := h4 0 _ rfl (by simp [Batch.Spec.TerminalOnlyLast])
  simp only [List.getLast?_singleton, Option.some.injEq] at r1
  subst r1
  have e := r4 0 (z x.out.next (g x.out.next) d.2) (by simp [quantile, Iteration.trans])
  simp only [targetOf, h1, h2, Option.bind_some]
  rw [List.head?_eq_getElem?, r2, Option.bind_some, List.head?_eq_getElem?, e, Option.getD_some]
  simp only [g1, atIndex, Fin.is_lt, dif_pos]
  rfl

theorem argmaxFrom_measurable {X : Type*} [MeasurableSpace X] : ∀ (fs : List (X → ℝ)) (i : ℕ) (bi : X → ℕ) (b : X → ℝ),
    (∀ f ∈ fs, Measurable f) → Measurable bi → Measurable b →
    Measurable fun x => argmaxFrom (bi x) (b x) i (fs.map fun f => f x)
  | [], _, _, _, _, hbi, _ => hbi
  | f :: fs, i, bi, b, hf, hbi, hb => by
    have e : (fun x => argmaxFrom (bi x) (b x) i ((f :: fs).map fun f => f x)) = fun x =>
        if b x < f x then argmaxFrom i (f x) (i + 1) (fs.map fun f => f x)
        else argmaxFrom (bi x) (b x) (i + 1) (fs.map fun f => f x) := by
      funext x
      rw [List.map_cons, argmaxFrom]
    rw [e]
    have hf0 := hf f List.mem_cons_self
    have hfs : ∀ f ∈ fs, Measurable f := fun f h => hf f (List.mem_cons_of_mem _ h)
    exact Measurable.ite (measurableSet_lt hb hf0) (argmaxFrom_measurable fs (i + 1) (fun _ => i) f hfs measurable_const hf0)
      (argmaxFrom_measurable fs (i + 1) bi b hfs hbi hb)

theorem greedy_measurable {X : Type*} [MeasurableSpace X] (fs : List (X → ℝ)) (hf : ∀ f ∈ fs, Measurable f) :
    Measurable fun x => (greedyAction (fs.map fun f => f x)).getD 0 := by
  cases fs with
  | nil => exact measurable_const
  | cons f fs =>
    exact argmaxFrom_measurable fs 1 (fun _ => 0) f (fun g h => hf g (List.mem_cons_of_mem _ h)) measurable_const
      (hf f List.mem_cons_self)

theorem q_measurable (hz : ∀ s a, Measurable (z s a)) (s : S) (a : Fin m) :
    Measurable fun taus : Fin K → ℝ => quantileQ (fun k a => z s a (taus k)) a := by
  unfold quantileQ
  exact (Finset.measurable_sum _ fun k _ => (hz s a).comp (measurable_pi_apply k)).div_const _

theorem chosen_measurable (hz : ∀ s a, Measurable (z s a)) (s : S) : Measurable fun taus : Fin K → ℝ => chosen z taus s := by
  have := greedy_measurable (List.ofFn fun (a : Fin m) (taus : Fin K → ℝ) => quantileQ (fun k a => z s a (taus k)) a)
    (fun f hf => by
      obtain ⟨a, rfl⟩ := (List.mem_ofFn' _ _).1 hf
      exact q_measurable hz s a)
  simp only [List.map_ofFn] at this
  exact this

theorem atIndex_measurable (hz : ∀ s a, Measurable (z s a)) (s : S) (n : ℕ) : Measurable (atIndex z s n) := by
  unfold atIndex
  by_cases h : n < m
  · simp only [dif_pos h]; exact hz s _
  · simp only [dif_neg h]; exact measurable_const

theorem next_measurable (hz : ∀ s a, Measurable (z s a)) (s : S) :
    Measurable fun d : (Fin K → ℝ) × ℝ => atIndex z s (chosen z d.1 s) d.2 := by
  have h : Measurable fun p : ℕ × ℝ => atIndex z s p.1 p.2 :=
    measurable_from_prod_countable_right fun n => atIndex_measurable hz s n
  exact h.comp (((chosen_measurable hz s).comp measurable_fst).prodMk measurable_snd)

theorem target_measurable (hz : ∀ s a, Measurable (z s a)) (gamma : ℝ) (x : Step S (Fin m)) :
    Measurable (targetOf (K := K) gamma z x) := by
  have e : targetOf (K := K) gamma z x = fun d => x.out.reward + gamma * if x.out.done then 0 else
      atIndex z x.out.next (chosen z d.1 x.out.next) d.2 := funext (target_eq gamma z x)
  rw [e]
  refine measurable_const.add (measurable_const.mul ?_)
  by_cases h : x.out.done
  · simp only [h, if_true]; exact measurable_const
  · simp only [h]; exact next_measurable hz _

theorem draws_ae {p : ℝ → Prop} (h : ∀ tau ∈ Set.Ioo (0 : ℝ) 1, p tau) : ∀ᵐ d ∂draws K, p d.2 :=
  Measure.quasiMeasurePreserving_snd.ae (ae_unif h)

theorem next_mem (hz : Spec.Within lo hi z) (s : S) :
    ∀ᵐ d ∂draws K, atIndex z s (chosen z d.1 s) d.2 ∈ Set.Icc lo hi := by
  refine (draws_ae (p := fun tau => ∀ a, z s a tau ∈ Set.Icc lo hi) fun tau ht a => (hz s a).2 tau ht).mono fun d hd => ?_
  obtain ⟨g, g1, -⟩ := chosen_spec z d.1 s
  rw [g1, atIndex, dif_pos g.2]
  exact hd g

end targets

/-! ## Lemmas: the distribution of target values -/

section law
variable [NeZero m] {M : Env S (Fin m) O} {gamma lo hi : ℝ} {z : S → Fin m → ℝ → ℝ}

theorem law_probability (hprob : ∀ s a o, 0 ≤ M.prob s a o) (hz : ∀ s a, Measurable (z s a)) (s : S) (a : Fin m) :
    IsProbabilityMeasure (law M gamma K z s a) := by
  constructor
  unfold law
  rw [Measure.finsetSum_apply]
  have : ∀ o, (ENNReal.ofReal (M.prob s a o) • (draws K).map (targetOf gamma z ⟨s, a, M.out s a o⟩)) Set.univ
      = ENNReal.ofReal (M.prob s a o) := by
    intro o
    rw [Measure.smul_apply, Measure.map_apply (target_measurable hz gamma _) MeasurableSet.univ]
    simp
  simp only [this]
  rw [← ENNReal.ofReal_sum_of_nonneg fun o _ => hprob s a o, M.sum_prob, ENNReal.ofReal_one]

theorem law_mem (h0 : 0 ≤ gamma) (hc : Dist.Spec.Covers M gamma lo hi) (hz : Spec.Within lo hi z) (s : S) (a : Fin m) :
    ∀ᵐ t ∂law M gamma K z s a, t ∈ Set.Icc lo hi := by
  rw [ae_iff]
  unfold law
  rw [Measure.finsetSum_apply]
  refine Finset.sum_eq_zero fun o _ => ?_
  rw [Measure.smul_apply, smul_eq_mul, show {t : ℝ | t ∉ Set.Icc lo hi} = (Set.Icc lo hi)ᶜ from rfl,
    Measure.map_apply (target_measurable (fun s a => (hz s a).1) gamma _) measurableSet_Icc.compl]
  refine mul_eq_zero_of_right _ ?_
  have h := next_mem (K := K) hz (M.out s a o).next
  refine ae_iff.1 (h.mono fun d hd => ?_)
  rw [target_eq]
  have hc := hc s a o
  by_cases hd' : (M.out s a o).done
  · simp only [hd', if_true] at hc ⊢
    exact hc
  · simp only [hd'] at hc ⊢
    exact ⟨hc.1.trans (add_le_add_right (mul_le_mul_of_nonneg_left hd.1 h0) _),
      (add_le_add_right (mul_le_mul_of_nonneg_left hd.2 h0) _).trans hc.2⟩

/-- The value, under `z`, of the action chosen with random thresholds. -/
noncomputable def sampledValue (K : ℕ) (z : S → Fin m → ℝ → ℝ) (s : S) : ℝ :=
  ∫ taus : Fin K → ℝ, (∫ tau, atIndex z s (chosen z taus s) tau ∂unif) ∂Measure.pi fun _ => unif

theorem law_mean (hprob : ∀ s a o, 0 ≤ M.prob s a o) (hz : Spec.Within lo hi z) (s : S) (a : Fin m) :
    ∫ t, t ∂law M gamma K z s a = Iteration.bell M gamma (sampledValue K z) s a := by
  have hm : ∀ s a, Measurable (z s a) := fun s a => (hz s a).1
  have hint : ∀ s, Integrable (fun d : (Fin K → ℝ) × ℝ => atIndex z s (chosen z d.1 s) d.2) (draws K) := fun s =>
    Integrable.of_mem_Icc lo hi (next_measurable hm s).aemeasurable (next_mem hz s)
  have ht : ∀ o, Integrable (fun d : (Fin K → ℝ) × ℝ => targetOf gamma z ⟨s, a, M.out s a o⟩ d) (draws K) := by
    intro o
    simp only [target_eq]
    refine (integrable_const _).add (Integrable.const_mul ?_ _)
    by_cases h : (M.out s a o).done
    · simp only [h, if_true]; exact integrable_const _
    · simp only [h]; exact hint _
  unfold law Iteration.bell
  rw [integral_finsetSum_measure fun o _ => by
    refine Integrable.smul_measure ?_ ENNReal.ofReal_ne_top
    exact (integrable_map_measure measurable_id.aestronglyMeasurable (target_measurable hm gamma _).aemeasurable).2 (ht o)]
  refine Finset.sum_congr rfl fun o _ => ?_
  rw [integral_smul_measure, ENNReal.toReal_ofReal (hprob s a o), smul_eq_mul,
    integral_map (f := fun t => t) (target_measurable hm gamma _).aemeasurable measurable_id.aestronglyMeasurable]
  congr 1
  simp only [target_eq]
  by_cases h : (M.out s a o).done
  · simp [h]
  · simp only [if_neg h]
    rw [integral_add (integrable_const _) ((hint _).const_mul _), integral_const_mul]
    simp only [integral_const, probReal_univ, smul_eq_mul, one_mul]
    congr 2
    unfold draws sampledValue
    rw [integral_prod _ (hint _)]

/-- The mean of a network's quantiles, estimated with `K` random thresholds, is off by at most half the range by the root of `K`. -/
theorem estimate_error (hK : 0 < K) (hz : Spec.Within lo hi z) (s : S) (a : Fin m) :
    Integrable (fun taus : Fin K → ℝ => |quantileQ (fun k a => z s a (taus k)) a - Spec.value z s a|) (Measure.pi fun _ => unif) ∧
    ∫ taus : Fin K → ℝ, |quantileQ (fun k a => z s a (taus k)) a - Spec.value z s a| ∂Measure.pi (fun _ => unif)
      ≤ (hi - lo) / 2 / Real.sqrt K := by
  have hmem := (hz s a).1
  have hKr : (0 : ℝ) < K := by exact_mod_cast hK
  have hae : ∀ᵐ tau ∂unif, z s a tau ∈ Set.Icc lo hi := ae_unif (hz s a).2
  have hlp : MemLp (z s a) 2 unif := memLp_of_bounded hae hmem.aestronglyMeasurable 2
  have hzi : Integrable (z s a) unif := Integrable.of_mem_Icc lo hi hmem.aemeasurable hae
  have hX : Measurable fun taus : Fin K → ℝ => quantileQ (fun k a => z s a (taus k)) a := by
    unfold quantileQ
    exact (Finset.measurable_sum _ fun k _ => hmem.comp (measurable_pi_apply k)).div_const _
  have hXm : ∀ᵐ taus ∂(Measure.pi fun _ : Fin K => unif), quantileQ (fun k a => z s a (taus k)) a ∈ Set.Icc lo hi := by
    have : ∀ᵐ taus ∂(Measure.pi fun _ : Fin K => unif), ∀ k, z s a (taus k) ∈ Set.Icc lo hi :=
      ae_all_iff.2 fun k => (measurePreserving_eval (fun _ : Fin K => unif) k).quasiMeasurePreserving.ae hae
    exact this.mono fun taus h => (quantile_value hK (fun k a => z s a (taus k)) a).2 lo hi h
  have hXlp : MemLp (fun taus : Fin K → ℝ => quantileQ (fun k a => z s a (taus k)) a) 2 (Measure.pi fun _ => unif) :=
    memLp_of_bounded hXm hX.aestronglyMeasurable 2
  have hmean : ∫ taus : Fin K → ℝ, quantileQ (fun k a => z s a (taus k)) a ∂Measure.pi (fun _ => unif) = Spec.value z s a := by
    have hk : ∀ k : Fin K, Integrable (fun taus : Fin K → ℝ => z s a (taus k)) (Measure.pi fun _ => unif) := fun k =>
      (measurePreserving_eval (fun _ : Fin K => unif) k).integrable_comp_of_integrable hzi
    unfold quantileQ
    rw [integral_div, integral_finsetSum _ fun k _ => hk k]
    have : ∀ k : Fin K, ∫ taus : Fin K → ℝ, z s a (taus k) ∂Measure.pi (fun _ => unif) = Spec.value z s a := fun k =>
      integral_comp_eval (μ := fun _ : Fin K => unif) (f := z s a) hmem.aestronglyMeasurable
    rw [Finset.sum_congr rfl fun k _ => this k]
    simp
    field_simp
  have hvar : Var[fun taus : Fin K → ℝ => quantileQ (fun k a => z s a (taus k)) a; Measure.pi fun _ => unif]
      ≤ ((hi - lo) / 2) ^ 2 / K := by
    have e : (fun taus : Fin K → ℝ => quantileQ (fun k a => z s a (taus k)) a)
        = fun taus => (K : ℝ)⁻¹ * (∑ k, fun taus : Fin K → ℝ => z s a (taus k)) taus := by
      funext taus
      simp only [quantileQ, Finset.sum_apply]
      rw [div_eq_inv_mul]
    rw [e, variance_const_mul, variance_sum_pi (μ := fun _ : Fin K => unif) (X := fun _ : Fin K => z s a) fun _ => hlp]
    rw [Finset.sum_const, Finset.card_univ, Fintype.card_fin, nsmul_eq_mul]
    have := variance_le_sq_of_bounded hae hmem.aemeasurable
    have e2 : (K : ℝ)⁻¹ ^ 2 * (K * Var[z s a; unif]) = Var[z s a; unif] / K := by field_simp
    rw [e2]
    exact div_le_div_of_nonneg_right this hKr.le
  have hYm : Measurable fun taus : Fin K → ℝ => |quantileQ (fun k a => z s a (taus k)) a - Spec.value z s a| :=
    continuous_abs.measurable.comp (hX.sub_const _)
  have hYlp : MemLp (fun taus : Fin K → ℝ => |quantileQ (fun k a => z s a (taus k)) a - Spec.value z s a|) 2
      (Measure.pi fun _ => unif) := (hXlp.sub (memLp_const _)).abs
  refine ⟨hYlp.integrable (by norm_num), ?_⟩
  have h1 := variance_eq_sub hYlp
  have h2 := variance_nonneg (fun taus : Fin K → ℝ => |quantileQ (fun k a => z s a (taus k)) a - Spec.value z s a|)
    (Measure.pi fun _ => unif)
  have h3 : ∫ taus : Fin K → ℝ, ((fun taus : Fin K → ℝ => |quantileQ (fun k a => z s a (taus k)) a - Spec.value z s a|) ^ 2) taus
      ∂Measure.pi (fun _ => unif) = Var[fun taus : Fin K → ℝ => quantileQ (fun k a => z s a (taus k)) a; Measure.pi fun _ => unif] := by
    rw [variance_eq_integral hX.aemeasurable, hmean]
    refine integral_congr_ae (.of_forall fun taus => ?_)
    simp
  rw [h3] at h1
  have h4 : (∫ taus : Fin K → ℝ, |quantileQ (fun k a => z s a (taus k)) a - Spec.value z s a| ∂Measure.pi fun _ => unif) ^ 2
      ≤ ((hi - lo) / 2 / Real.sqrt K) ^ 2 := by
    rw [div_pow _ (Real.sqrt K), Real.sq_sqrt hKr.le]
    linarith
  have hnn : (0 : ℝ) ≤ (hi - lo) / 2 / Real.sqrt K := by
    have := (hz s a).2 (1 / 2) ⟨by norm_num, by norm_num⟩
    exact div_nonneg (by linarith [this.1, this.2]) (Real.sqrt_nonneg _)
  exact le_of_sq_le_sq h4 hnn

/-- Choosing with random thresholds loses little. -/
theorem sampled_value (hK : 0 < K) (hz : Spec.Within lo hi z) {V : S → ℝ} (hV : Iteration.Spec.Max (Spec.value z) V) (s : S) :
    |sampledValue K z s - V s| ≤ m * ((hi - lo) / 2 / Real.sqrt K) := by
  have hm : ∀ s a, Measurable (z s a) := fun s a => (hz s a).1
  have hval : ∀ a, Spec.value z s a ∈ Set.Icc lo hi := by
    intro a
    have hae : ∀ᵐ tau ∂unif, z s a tau ∈ Set.Icc lo hi := ae_unif (hz s a).2
    have hzi : Integrable (z s a) unif := Integrable.of_mem_Icc lo hi (hm s a).aemeasurable hae
    have h1 := integral_mono_ae (integrable_const lo) hzi (hae.mono fun t h => h.1)
    have h2 := integral_mono_ae hzi (integrable_const hi) (hae.mono fun t h => h.2)
    simp only [integral_const, probReal_univ, smul_eq_mul, one_mul] at h1 h2
    exact ⟨h1, h2⟩
  choose g g1 g2 g3 using fun taus : Fin K → ℝ => chosen_spec z taus s
  have hin : ∀ taus : Fin K → ℝ, ∫ tau, atIndex z s (chosen z taus s) tau ∂unif = Spec.value z s (g taus) := by
    intro taus
    rw [g1]
    simp only [atIndex, Fin.is_lt, dif_pos]
    rfl
  have hgm : Measurable fun taus : Fin K → ℝ => Spec.value z s (g taus) := by
    have h : Measurable fun n : ℕ => if h : n < m then Spec.value z s ⟨n, h⟩ else 0 := measurable_from_nat
    have e : (fun taus : Fin K → ℝ => Spec.value z s (g taus))
        = fun taus => (fun n : ℕ => if h : n < m then Spec.value z s ⟨n, h⟩ else 0) (chosen z taus s) := by
      funext taus
      simp only [g1, Fin.is_lt, dif_pos]
    rw [e]
    exact h.comp (chosen_measurable hm s)
  have hgi : Integrable (fun taus : Fin K → ℝ => Spec.value z s (g taus)) (Measure.pi fun _ => unif) :=
    Integrable.of_mem_Icc lo hi hgm.aemeasurable (.of_forall fun taus => hval _)
  have hs : sampledValue K z s = ∫ taus : Fin K → ℝ, Spec.value z s (g taus) ∂Measure.pi fun _ => unif := by
    unfold sampledValue
    simp only [hin]
  obtain ⟨b, hb⟩ := (hV s).1
  have hle : ∀ taus : Fin K → ℝ, V s - Spec.value z s (g taus)
      ≤ ∑ a, |quantileQ (fun k a => z s a (taus k)) a - Spec.value z s a| := by
    intro taus
    rw [← hb]
    by_cases h : b = g taus
    · rw [← h, sub_self]
      exact Finset.sum_nonneg fun a _ => abs_nonneg _
    · have h1 : ∑ a ∈ {b, g taus}, |quantileQ (fun k a => z s a (taus k)) a - Spec.value z s a|
          ≤ ∑ a, |quantileQ (fun k a => z s a (taus k)) a - Spec.value z s a| :=
        Finset.sum_le_sum_of_subset_of_nonneg (Finset.subset_univ _) fun a _ _ => abs_nonneg _
      rw [Finset.sum_pair h] at h1
      have h2 := neg_abs_le (quantileQ (fun k a => z s a (taus k)) b - Spec.value z s b)
      have h3 := le_abs_self (quantileQ (fun k a => z s a (taus k)) (g taus) - Spec.value z s (g taus))
      have h4 := g3 taus b
      linarith
  have herr := fun a => estimate_error hK hz s a
  have hup : ∫ taus : Fin K → ℝ, (V s - Spec.value z s (g taus)) ∂Measure.pi (fun _ => unif)
      ≤ ∫ taus : Fin K → ℝ, ∑ a, |quantileQ (fun k a => z s a (taus k)) a - Spec.value z s a| ∂Measure.pi fun _ => unif :=
    integral_mono ((integrable_const _).sub hgi) (integrable_finsetSum _ fun a _ => (herr a).1) hle
  rw [integral_sub (integrable_const _) hgi, integral_finsetSum _ fun a _ => (herr a).1] at hup
  have hsum : ∑ a : Fin m, ∫ taus : Fin K → ℝ, |quantileQ (fun k a => z s a (taus k)) a - Spec.value z s a| ∂Measure.pi (fun _ => unif)
      ≤ m * ((hi - lo) / 2 / Real.sqrt K) := by
    refine (Finset.sum_le_card_nsmul _ _ _ fun a _ => (herr a).2).trans ?_
    simp
  have hlow : ∫ taus : Fin K → ℝ, Spec.value z s (g taus) ∂Measure.pi (fun _ => unif) ≤ V s := by
    have := integral_mono hgi (integrable_const (V s)) fun taus => (hV s).2 ⟨g taus, rfl⟩
    simpa using this
  simp only [integral_const, probReal_univ, smul_eq_mul, one_mul] at hup
  rw [hs, abs_le]
  constructor
  · linarith
  · have : (0 : ℝ) ≤ m * ((hi - lo) / 2 / Real.sqrt K) :=
      (Finset.sum_nonneg fun a _ => integral_nonneg fun taus => abs_nonneg _).trans hsum
    linarith

end law


/-! ## C132 -/

section theorems
variable [NeZero m] {M : Env S (Fin m) O} {gamma lo hi : ℝ} {z z' : S → Fin m → ℝ → ℝ}

theorem fit_slope (hprob : ∀ s a o, 0 ≤ M.prob s a o) (h0 : 0 ≤ gamma) (hc : Dist.Spec.Covers M gamma lo hi)
    (hz : Spec.Within lo hi z) (hfit : Fit M gamma K z z') (s : S) (a : Fin m) {tau : ℝ} (ht : tau ∈ Set.Ioo (0 : ℝ) 1) :
    ∫ t, slope tau (z' s a tau) t ∂law M gamma K z s a = 0 := by
  have := law_probability (K := K) (gamma := gamma) hprob (fun s a => (hz s a).1) s a
  exact best_slope ht.1 ht.2 (law_mem h0 hc hz s a) ((hfit s a).2 tau ht)

/-- **C132 (quantiles).** Whatever network the targets come from: for every threshold, what is fitted is within 1 of a
quantile of the distribution of the target values, and inside the range of the returns. -/
theorem fit_near_quantile (hprob : ∀ s a o, 0 ≤ M.prob s a o) (h0 : 0 ≤ gamma) (hc : Dist.Spec.Covers M gamma lo hi)
    (hz : Spec.Within lo hi z) (hfit : Fit M gamma K z z') (s : S) (a : Fin m) {tau : ℝ} (ht : tau ∈ Set.Ioo (0 : ℝ) 1) :
    (∃ q, Spec.IsQuantile (law M gamma K z s a) tau q ∧ |z' s a tau - q| ≤ 1) ∧ z' s a tau ∈ Set.Icc lo hi := by
  have := law_probability (K := K) (gamma := gamma) hprob (fun s a => (hz s a).1) s a
  have hs := fit_slope hprob h0 hc hz hfit s a ht
  exact ⟨best_quantile ht.1 ht.2 hs, best_mem ht.1 ht.2 (law_mem h0 hc hz s a) hs⟩

/-- **C132 (fits exist).** For every target network there is an exact fit. -/
theorem fit_exists (K : ℕ) (hprob : ∀ s a o, 0 ≤ M.prob s a o) (h0 : 0 ≤ gamma) (hc : Dist.Spec.Covers M gamma lo hi)
    (hz : Spec.Within lo hi z) : ∃ z', Fit M gamma K z z' ∧ Spec.Within lo hi z' := by
  have hw : ∀ s a, ∃ w : ℝ → ℝ, Monotone w ∧ ∀ tau ∈ Set.Ioo (0 : ℝ) 1, ∀ y,
      meanLoss (law M gamma K z s a) tau (w tau) ≤ meanLoss (law M gamma K z s a) tau y := by
    intro s a
    have := law_probability (K := K) (gamma := gamma) hprob (fun s a => (hz s a).1) s a
    exact best_exists (law_mem h0 hc hz s a)
  choose w w1 w2 using hw
  have hfit : Fit M gamma K z w := fun s a => ⟨(w1 s a).measurable, w2 s a⟩
  exact ⟨w, hfit, fun s a => ⟨(w1 s a).measurable, fun tau ht => (fit_near_quantile hprob h0 hc hz hfit s a ht).2⟩⟩

/-- One fit: the expected returns it stands for are those of Bellman's equation up to 1 and the error of choosing actions
with `K` thresholds. -/
theorem fit_value (hK : 0 < K) (hprob : ∀ s a o, 0 ≤ M.prob s a o) (h0 : 0 ≤ gamma) (hc : Dist.Spec.Covers M gamma lo hi)
    (hz : Spec.Within lo hi z) (hfit : Fit M gamma K z z') {V : S → ℝ} (hV : Iteration.Spec.Max (Spec.value z) V) (s : S) (a : Fin m) :
    |Spec.value z' s a - Iteration.bell M gamma V s a| ≤ 1 + gamma * (m * ((hi - lo) / 2 / Real.sqrt K)) := by
  have := law_probability (K := K) (gamma := gamma) hprob (fun s a => (hz s a).1) s a
  have h1 : |Spec.value z' s a - ∫ t, t ∂law M gamma K z s a| ≤ 1 :=
    best_mean (law_mem h0 hc hz s a) (hfit s a).1 fun tau ht => fit_slope hprob h0 hc hz hfit s a ht
  rw [law_mean hprob hz] at h1
  have hd : (0 : ℝ) ≤ m * ((hi - lo) / 2 / Real.sqrt K) := (abs_nonneg _).trans (sampled_value hK hz hV s)
  have h2 := Iteration.bell_abs (M := M) hprob h0 hd (sampled_value hK hz hV) s a
  calc _ ≤ |Spec.value z' s a - Iteration.bell M gamma (sampledValue K z) s a|
        + |Iteration.bell M gamma (sampledValue K z) s a - Iteration.bell M gamma V s a| := abs_sub_le _ _ _
    _ ≤ _ := add_le_add h1 h2

/-- **C132 (values).** If every new network is an exact fit, the expected returns that the networks stand for approach the optimal
action values geometrically, up to `1 / (1 - gamma)` and an error that vanishes as the number `K` of thresholds grows; and so
does acting greedily on them.

What is missing: the error of 1 in every fit, which comes from the Huber loss, see `iqn_prefers_worse`. -/
theorem iqn_iteration_partial [Fintype S] (hK : 0 < K) (hprob : ∀ s a o, 0 ≤ M.prob s a o) (h0 : 0 ≤ gamma) (h1 : gamma < 1)
    (hc : Dist.Spec.Covers M gamma lo hi) {V : S → ℝ} {Q : S → Fin m → ℝ} (hQ : Iteration.Spec.Optimal M gamma V Q)
    {net : ℕ → S → Fin m → ℝ → ℝ} (hstart : Spec.Within lo hi (net 0)) (hfit : ∀ k, Fit M gamma K (net k) (net (k + 1)))
    {ε : ℝ} (hε : ∀ s a, |Spec.value (net 0) s a - Q s a| ≤ ε) (k : ℕ) :
    (∀ s a, |Spec.value (net k) s a - Q s a|
      ≤ gamma ^ k * ε + (1 + gamma * (m * ((hi - lo) / 2 / Real.sqrt K))) / (1 - gamma)) ∧
      ∀ w, Returns.PG.Spec.Proper M w → Iteration.Spec.Greedy w (Spec.value (net k)) → ∀ V' Q', Returns.PG.Spec.Values M w gamma V' Q' →
        ∀ s, V s - 2 * (gamma ^ k * ε + (1 + gamma * (m * ((hi - lo) / 2 / Real.sqrt K))) / (1 - gamma)) / (1 - gamma) ≤ V' s := by
  have hw : ∀ k, Spec.Within lo hi (net k) := by
    intro k
    induction k with
    | zero => exact hstart
    | succ k ih => exact fun s a => ⟨(hfit k s a).1, fun tau ht => (fit_near_quantile hprob h0 hc ih (hfit k) s a ht).2⟩
  refine Iteration.dqn_iteration_partial hprob h0 h1 (q := fun k => Spec.value (net k)) hQ (fun _ _ => 0) hε (fun k s a => ?_) k
  obtain ⟨L, hL⟩ := Iteration.max_exists (Spec.value (net k))
  rw [Iteration.dqnFit_one hL]
  exact fit_value hK hprob h0 hc (hw k) (hfit k) hL s a

end theorems

/-! ## Limits -/

/-- One choice: the first action is rewarded with 7/25, the second one with 1 in one of four cases. -/
noncomputable def gamble : Env Unit (Fin 2) Bool where
  prob _ a o := if a = 0 then 1 / 2 else if o then 1 / 4 else 3 / 4
  out _ a o := ⟨if a = 0 then 7 / 25 else if o then 1 else 0, true, false, ()⟩
  sum_prob _ a := by fin_cases a <;> norm_num

theorem gamble_law (gamma : ℝ) (z : Unit → Fin 2 → ℝ → ℝ) :
    law gamble gamma K z () 0 = Measure.dirac (7 / 25) ∧
    law gamble gamma K z () 1 = ENNReal.ofReal (1 / 4) • Measure.dirac 1 + ENNReal.ofReal (3 / 4) • Measure.dirac 0 := by
  have h : ∀ a o, (draws K).map (targetOf gamma z ⟨(), a, gamble.out () a o⟩) = Measure.dirac (gamble.out () a o).reward := by
    intro a o
    have : targetOf (K := K) gamma z ⟨(), a, gamble.out () a o⟩ = fun _ => (gamble.out () a o).reward := by
      funext d
      rw [target_eq]
      simp [gamble]
    rw [this, Measure.map_const]
    simp
  constructor
  · unfold law
    simp only [h, Fintype.sum_bool]
    simp only [gamble, if_true]
    rw [← add_smul, ← ENNReal.ofReal_add (by norm_num) (by norm_num)]
    norm_num
  · unfold law
    simp only [h, Fintype.sum_bool]
    simp [gamble]

/-- **C132 fails without the error term.** The second action is worth 1/4 and the first one 7/25, but whatever the target network,
discount and number of thresholds, an exact fit values the second action more than the first. -/
theorem iqn_prefers_worse (gamma : ℝ) (z z' : Unit → Fin 2 → ℝ → ℝ) (hfit : Fit gamble gamma K z z') :
    Iteration.Spec.Optimal gamble gamma (fun _ => 7 / 25) (fun _ => ![7 / 25, 1 / 4]) ∧
      (∀ tau ∈ Set.Ioo (0 : ℝ) 1, z' () 0 tau = 7 / 25 ∧ z' () 1 tau = tau / (3 - 2 * tau)) ∧
      Spec.value z' () 0 < Spec.value z' () 1 := by
  have hl := gamble_law (K := K) gamma z
  have hp0 : IsProbabilityMeasure (law gamble gamma K z () 0) := by rw [hl.1]; infer_instance
  have hp1 : IsProbabilityMeasure (law gamble gamma K z () 1) := by
    rw [hl.2]
    constructor
    simp only [Measure.coe_add, Pi.add_apply, Measure.smul_apply, measure_univ, smul_eq_mul, mul_one]
    rw [← ENNReal.ofReal_add (by norm_num) (by norm_num)]
    norm_num
  have hs0 : ∀ᵐ t ∂law gamble gamma K z () 0, t ∈ Set.Icc (7 / 25 : ℝ) (7 / 25) := by
    rw [hl.1]
    exact (ae_dirac_iff measurableSet_Icc).2 (by simp)
  have hs1 : ∀ᵐ t ∂law gamble gamma K z () 1, t ∈ Set.Icc (0 : ℝ) 1 := by
    rw [hl.2, ae_add_measure_iff]
    exact ⟨Measure.ae_smul_measure ((ae_dirac_iff measurableSet_Icc).2 (by simp)) _,
      Measure.ae_smul_measure ((ae_dirac_iff measurableSet_Icc).2 (by simp)) _⟩
  have hz : ∀ tau ∈ Set.Ioo (0 : ℝ) 1, z' () 0 tau = 7 / 25 ∧ z' () 1 tau = tau / (3 - 2 * tau) := by
    intro tau ht
    have b0 := best_mem ht.1 ht.2 hs0 (best_slope ht.1 ht.2 hs0 ((hfit () 0).2 tau ht))
    have e1 := best_slope ht.1 ht.2 hs1 ((hfit () 1).2 tau ht)
    have b1 := best_mem ht.1 ht.2 hs1 e1
    refine ⟨le_antisymm b0.2 b0.1, ?_⟩
    have hi : ∀ x : ℝ, Integrable (slope tau (z' () 1 tau)) (Measure.dirac x) := fun x => slope_integrable _ _
    rw [hl.2, integral_add_measure ((hi 1).smul_measure ENNReal.ofReal_ne_top) ((hi 0).smul_measure ENNReal.ofReal_ne_top),
      integral_smul_measure, integral_smul_measure, integral_dirac, integral_dirac,
      ENNReal.toReal_ofReal (by norm_num), ENNReal.toReal_ofReal (by norm_num)] at e1
    have s1 : slope tau (z' () 1 tau) 1 = tau * (z' () 1 tau - 1) := by
      unfold slope
      rw [if_neg (by linarith [b1.2]), min_eq_right (by linarith [b1.2]), max_eq_right (by linarith [b1.1])]
    have s0 : slope tau (z' () 1 tau) 0 = (1 - tau) * z' () 1 tau := by
      unfold slope
      rw [sub_zero, min_eq_right b1.2, max_eq_right (by linarith [b1.1])]
      by_cases h : 0 < z' () 1 tau
      · rw [if_pos h]
      · have : z' () 1 tau = 0 := le_antisymm (not_lt.1 h) b1.1
        rw [this]
        simp
    rw [s1, s0] at e1
    simp only [smul_eq_mul] at e1
    rw [eq_div_iff (by linarith [ht.2])]
    linarith
  refine ⟨⟨fun s a => ?_, fun s => ⟨⟨0, rfl⟩, ?_⟩⟩, hz, ?_⟩
  · fin_cases a <;> norm_num [gamble]
  · rintro _ ⟨a, rfl⟩
    fin_cases a <;> norm_num
  · have e0 : Spec.value z' () 0 = 7 / 25 := by
      unfold Spec.value
      rw [setIntegral_congr_fun measurableSet_Ioo fun tau ht => (hz tau ht).1]
      simp
    have e1 : (7 : ℝ) / 24 ≤ Spec.value z' () 1 := by
      have hint : IntegrableOn (fun tau : ℝ => tau * (1 / 4 + tau / 2)) (Set.Ioo 0 1) :=
        (Continuous.integrableOn_Icc (by fun_prop)).mono_set Set.Ioo_subset_Icc_self
      have hzi : IntegrableOn (z' () 1) (Set.Ioo 0 1) :=
        Integrable.of_mem_Icc 0 1 (hfit () 1).1.aemeasurable (ae_unif fun tau ht =>
          best_mem ht.1 ht.2 hs1 (best_slope ht.1 ht.2 hs1 ((hfit () 1).2 tau ht)))
      have hle := setIntegral_mono_on hint hzi measurableSet_Ioo fun tau ht => by
        rw [(hz tau ht).2, le_div_iff₀ (by linarith [ht.2])]
        have := ht.1
        nlinarith [mul_nonneg ht.1.le (sq_nonneg (2 * tau - 1))]
      refine le_trans (le_of_eq ?_) hle
      rw [← integral_Ioc_eq_integral_Ioo, ← intervalIntegral.integral_of_le (by norm_num)]
      have hd : ∀ x ∈ Set.uIcc (0 : ℝ) 1, HasDerivAt (fun x => x ^ 2 / 8 + x ^ 3 / 6) (x * (1 / 4 + x / 2)) x := by
        intro x _
        refine ((((hasDerivAt_id x).pow 2).div_const 8).add (((hasDerivAt_id x).pow 3).div_const 6)).congr_deriv ?_
        simp
        ring
      rw [intervalIntegral.integral_eq_sub_of_hasDerivAt hd (Continuous.intervalIntegrable (by fun_prop) _ _)]
      norm_num
    rw [e0]
    linarith

/-! ## Non-vacuity -/

/-- Two states: the first action stays or leaves, each with probability 1/2, and leaving ends the episode with reward 4. -/
noncomputable def exampleEnv : Env Bool (Fin 2) Bool where
  prob _ _ _ := 1 / 2
  out s a o := ⟨if o then 4 else if a = 0 then 1 else 0, o, false, !s⟩
  sum_prob _ _ := by norm_num

theorem example_covers : Dist.Spec.Covers exampleEnv (1 / 2) 0 4 := by
  intro s a o
  fin_cases a <;> cases o <;> norm_num [exampleEnv]

/-- Networks that satisfy the hypotheses exist: from the network that is 2 everywhere, every next one an exact fit. -/
example : ∃ (V : Bool → ℝ) (Q : Bool → Fin 2 → ℝ) (net : ℕ → Bool → Fin 2 → ℝ → ℝ),
    Iteration.Spec.Optimal exampleEnv (1 / 2) V Q ∧ Spec.Within 0 4 (net 0) ∧
    (∀ k, Fit exampleEnv (1 / 2) 32 (net k) (net (k + 1))) ∧ net 0 = fun _ _ _ => 2 := by
  have hprob : ∀ s a o, 0 ≤ exampleEnv.prob s a o := fun _ _ _ => by norm_num [exampleEnv]
  obtain ⟨V, Q, hQ, -⟩ := Iteration.optimal_exists (M := exampleEnv) hprob (by norm_num : (0 : ℝ) ≤ 1 / 2) (by norm_num)
  have step : ∀ z : {z : Bool → Fin 2 → ℝ → ℝ // Spec.Within 0 4 z}, ∃ z' : {z : Bool → Fin 2 → ℝ → ℝ // Spec.Within 0 4 z},
      Fit exampleEnv (1 / 2) 32 z.1 z'.1 := fun z => by
    obtain ⟨z', h1, h2⟩ := fit_exists 32 hprob (by norm_num) example_covers z.2
    exact ⟨⟨z', h2⟩, h1⟩
  choose f hf using step
  have h2 : Spec.Within 0 4 (fun (_ : Bool) (_ : Fin 2) (_ : ℝ) => (2 : ℝ)) := fun _ _ => ⟨measurable_const, fun _ _ => by norm_num⟩
  refine ⟨V, Q, fun k => (f^[k] ⟨_, h2⟩).1, hQ, h2, fun k => ?_, rfl⟩
  simp only [Function.iterate_succ_apply']
  exact hf _

/-- With 400 thresholds, the error of a network in the limit is at most 2.2. -/
example {V : Bool → ℝ} {Q : Bool → Fin 2 → ℝ} (hQ : Iteration.Spec.Optimal exampleEnv (1 / 2) V Q)
    {net : ℕ → Bool → Fin 2 → ℝ → ℝ} (h : Spec.Within 0 4 (net 0)) (hfit : ∀ k, Fit exampleEnv (1 / 2) 400 (net k) (net (k + 1)))
    {ε : ℝ} (hε : ∀ s a, |Spec.value (net 0) s a - Q s a| ≤ ε) (k : ℕ) (s : Bool) (a : Fin 2) :
    |Spec.value (net k) s a - Q s a| ≤ (1 / 2) ^ k * ε + 22 / 10 := by
  have := (iqn_iteration_partial (by norm_num) (fun _ _ _ => by norm_num [exampleEnv]) (by norm_num) (by norm_num) example_covers
    hQ h hfit hε k).1 s a
  have e : Real.sqrt ((400 : ℕ) : ℝ) = 20 := by
    rw [show ((400 : ℕ) : ℝ) = 20 ^ 2 by norm_num]
    exact Real.sqrt_sq (by norm_num)
  rw [e] at this
  norm_num at this ⊢
  exact this

end Pfrl.Value.Iqn
