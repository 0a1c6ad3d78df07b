import Verif.Basic
import Mathlib.Probability.Distributions.Gaussian.Real
import Mathlib.MeasureTheory.Integral.Pi
import Mathlib.MeasureTheory.Integral.Gamma
import Mathlib.MeasureTheory.Measure.Lebesgue.Integral
import Mathlib.Data.Real.Sign

/-!
# Factorised noisy linear layers

Model of `FactorizedNoisyLinear.forward` of `pfrl/nn/noisy_linear.py` in real arithmetic, with the standard normal numbers
that one call draws as a vector of independent Gaussian random variables.
-/

namespace Pfrl.NoisyLinear

open MeasureTheory ProbabilityTheory

variable {inSize outSize : ℕ}

/-! ## Model -/

/-- The layer's parameters: `mu` and `sigma` are linear layers; without `hasbias` there are no biases. -/
structure Layer (inSize outSize : ℕ) where
  hasbias : Bool
  muW : Fin outSize → Fin inSize → ℝ
  muB : Fin outSize → ℝ
  sigmaW : Fin outSize → Fin inSize → ℝ
  sigmaB : Fin outSize → ℝ

/-- `_eps`, `pfrl/nn/noisy_linear.py:53-55`: `torch.abs(torch.sqrt(torch.abs(r))) * torch.sign(r)`. -/
noncomputable def eps (r : ℝ) : ℝ := abs (Real.sqrt (abs r)) * Real.sign r

/-- `eps_x = eps[:in_size]`, `pfrl/nn/noisy_linear.py:63`. -/
noncomputable def epsX (r : Fin (inSize + outSize) → ℝ) (i : Fin inSize) : ℝ := eps (r (Fin.castAdd outSize i))

/-- `eps_y = eps[in_size:]`, `pfrl/nn/noisy_linear.py:64`. -/
noncomputable def epsY (r : Fin (inSize + outSize) → ℝ) (j : Fin outSize) : ℝ := eps (r (Fin.natAdd inSize j))

/-- `W`, `pfrl/nn/noisy_linear.py:65`; `torch.ger` is the outer product. -/
noncomputable def weight (l : Layer inSize outSize) (r : Fin (inSize + outSize) → ℝ) (j : Fin outSize) (i : Fin inSize) : ℝ :=
  l.muW j i + l.sigmaW j i * (epsY r j * epsX r i)

/-- `b`, `pfrl/nn/noisy_linear.py:67`. -/
noncomputable def bias (l : Layer inSize outSize) (r : Fin (inSize + outSize) → ℝ) (j : Fin outSize) : ℝ :=
  l.muB j + l.sigmaB j * epsY r j

/-- `forward` on one row `x`, `pfrl/nn/noisy_linear.py:57-70`. -/
noncomputable def forward (l : Layer inSize outSize) (x : Fin inSize → ℝ) (r : Fin (inSize + outSize) → ℝ)
    (j : Fin outSize) : ℝ :=
  if l.hasbias then ∑ i, weight l r j i * x i + bias l r j else ∑ i, weight l r j i * x i

/-- The distribution of the numbers one call draws: independent standard normal numbers, `torch.normal(mean=0.0, std=1.0)`. -/
noncomputable def draws (n : ℕ) : Measure (Fin n → ℝ) := Measure.pi fun _ => gaussianReal 0 1

/-! ## Specification -/

/-- The linear layer with the parameters `mu`. -/
noncomputable def meanOut (l : Layer inSize outSize) (x : Fin inSize → ℝ) (j : Fin outSize) : ℝ :=
  ∑ i, l.muW j i * x i + if l.hasbias then l.muB j else 0

/-! ## Lemmas -/

instance (n : ℕ) : IsProbabilityMeasure (draws n) := by unfold draws; infer_instance

theorem eps_sq (r : ℝ) : eps r ^ 2 = |r| := by
  unfold eps
  rw [mul_pow, sq_abs, Real.sq_sqrt (abs_nonneg r)]
  rcases lt_trichotomy r 0 with h | h | h
  · rw [Real.sign_of_neg h]; norm_num
  · rw [h]; simp
  · rw [Real.sign_of_pos h]; norm_num

theorem eps_neg (r : ℝ) : eps (-r) = -eps r := by
  unfold eps
  rw [abs_neg, Real.sign_neg]; ring

theorem measurable_eps : Measurable eps := by
  unfold eps
  have : Measurable Real.sign := by
    have : Real.sign = fun r : ℝ => if r < 0 then (-1 : ℝ) else if 0 < r then 1 else 0 := by
      funext r; rfl
    rw [this]
    exact Measurable.ite measurableSet_Iio measurable_const (Measurable.ite measurableSet_Ioi measurable_const measurable_const)
  fun_prop

theorem abs_eps_le (r : ℝ) : |eps r| ≤ 1 + |r| := by
  have h := eps_sq r
  rw [← sq_abs] at h
  nlinarith [abs_nonneg (eps r), abs_nonneg r]

theorem integrable_abs_gauss : Integrable (fun r : ℝ => |r|) (gaussianReal 0 1) := by
  have h := (memLp_id_gaussianReal (μ := 0) (v := 1) 1)
  simp only [ENNReal.coe_one] at h
  exact (memLp_one_iff_integrable.1 h).abs

theorem integrable_eps : Integrable eps (gaussianReal 0 1) := by
  refine Integrable.mono' (g := fun r => 1 + |r|) ((integrable_const 1).add integrable_abs_gauss)
    measurable_eps.aestronglyMeasurable (Filter.Eventually.of_forall fun r => ?_)
  rw [Real.norm_eq_abs]; exact abs_eps_le r

theorem integral_eps : ∫ r, eps r ∂(gaussianReal 0 1) = 0 := by
  have h : ∫ r, eps r ∂((gaussianReal 0 1).map fun x => -x) = ∫ r, eps (-r) ∂(gaussianReal 0 1) :=
    integral_map (by fun_prop) measurable_eps.aestronglyMeasurable
  rw [gaussianReal_map_neg, neg_zero] at h
  simp only [eps_neg, integral_neg] at h
  linarith

/-- The mean of the absolute value of a standard normal number. -/
theorem integral_abs_gauss : ∫ r, |r| ∂(gaussianReal 0 1) = Real.sqrt (2 / Real.pi) := by
  rw [integral_gaussianReal_eq_integral_smul (by norm_num)]
  have h1 : ∀ x : ℝ, gaussianPDFReal 0 1 x • |x| = (fun y : ℝ => (Real.sqrt (2 * Real.pi))⁻¹ * (y ^ (1 : ℝ) *
      Real.exp (-(1 / 2) * y ^ (2 : ℝ)))) |x| := by
    intro x
    simp only [gaussianPDFReal_def, smul_eq_mul, NNReal.coe_one, mul_one, sub_zero, Real.rpow_one, Real.rpow_two, sq_abs]
    rw [show -x ^ 2 / 2 = -(1 / 2) * x ^ 2 by ring]
    ring
  simp only [h1]
  rw [integral_comp_abs (f := fun y : ℝ => (Real.sqrt (2 * Real.pi))⁻¹ * (y ^ (1 : ℝ) *
      Real.exp (-(1 / 2) * y ^ (2 : ℝ)))), integral_const_mul,
    integral_rpow_mul_exp_neg_mul_rpow (by norm_num) (by norm_num) (by norm_num)]
  norm_num
  have h2 : Real.sqrt 2 * Real.sqrt 2 = 2 := Real.mul_self_sqrt (by norm_num)
  field_simp
  linarith

/-- A product of powers of the noise. -/
noncomputable def mon {n : ℕ} (e : Fin n → ℕ) (r : Fin n → ℝ) : ℝ := ∏ k, eps (r k) ^ e k

theorem mon_add {n : ℕ} (e e' : Fin n → ℕ) (r : Fin n → ℝ) : mon (e + e') r = mon e r * mon e' r := by
  unfold mon
  rw [← Finset.prod_mul_distrib]
  exact Finset.prod_congr rfl fun k _ => pow_add _ _ _

theorem mon_single {n : ℕ} (k : Fin n) (r : Fin n → ℝ) : mon (Pi.single k 1) r = eps (r k) := by
  unfold mon
  rw [Finset.prod_eq_single k]
  · simp
  · intro b _ hb; simp [hb]
  · simp

theorem integrable_pow_eps (m : ℕ) (h : m ≤ 2) : Integrable (fun r => eps r ^ m) (gaussianReal 0 1) := by
  interval_cases m
  · simp
  · simpa using integrable_eps
  · simp only [eps_sq]; exact integrable_abs_gauss

theorem integrable_mon {n : ℕ} (e : Fin n → ℕ) (h : ∀ k, e k ≤ 2) : Integrable (mon e) (draws n) :=
  Integrable.fintype_prod (fun k => integrable_pow_eps (e k) (h k))

theorem integral_mon {n : ℕ} (e : Fin n → ℕ) :
    ∫ r, mon e r ∂(draws n) = ∏ k, ∫ x, eps x ^ e k ∂(gaussianReal 0 1) := by
  unfold mon draws
  exact integral_fintype_prod_eq_prod (𝕜 := ℝ) (fun k x => eps x ^ e k)

theorem integral_mon_zero {n : ℕ} (e : Fin n → ℕ) (k : Fin n) (h : e k = 1) : ∫ r, mon e r ∂(draws n) = 0 := by
  rw [integral_mon]
  apply Finset.prod_eq_zero (Finset.mem_univ k)
  rw [h]
  simpa using integral_eps

/-- The exponents of the noise on the weight (`some i`) or the bias (`none`) of output `j`. -/
def expo (j : Fin outSize) : Option (Fin inSize) → Fin (inSize + outSize) → ℕ
  | none => Pi.single (Fin.natAdd inSize j) 1
  | some i => Pi.single (Fin.natAdd inSize j) 1 + Pi.single (Fin.castAdd outSize i) 1

/-- Its coefficient in the output. -/
noncomputable def coef (l : Layer inSize outSize) (x : Fin inSize → ℝ) (j : Fin outSize) : Option (Fin inSize) → ℝ
  | none => if l.hasbias then l.sigmaB j else 0
  | some i => l.sigmaW j i * x i

theorem forward_eq (l : Layer inSize outSize) (x : Fin inSize → ℝ) (r : Fin (inSize + outSize) → ℝ) (j : Fin outSize) :
    forward l x r j = meanOut l x j + ∑ o, coef l x j o * mon (expo j o) r := by
  rw [Fintype.sum_option]
  simp only [expo, coef, mon_add, mon_single]
  unfold forward meanOut
  have h : ∑ i, weight l r j i * x i = ∑ i, l.muW j i * x i + ∑ i, l.sigmaW j i * x i *
      (eps (r (Fin.natAdd inSize j)) * eps (r (Fin.castAdd outSize i))) := by
    rw [← Finset.sum_add_distrib]
    apply Finset.sum_congr rfl
    intro i _
    unfold weight epsY epsX
    ring
  rw [h]
  cases l.hasbias
  · simp
  · simp only [if_true, bias, epsY]; ring

theorem castAdd_ne_natAdd (i : Fin inSize) (j : Fin outSize) : Fin.castAdd outSize i ≠ Fin.natAdd inSize j := by
  intro h
  have := congrArg Fin.val h
  simp at this
  omega

theorem expo_y (j j' : Fin outSize) (o : Option (Fin inSize)) :
    expo j o (Fin.natAdd inSize j') = if j' = j then 1 else 0 := by
  cases o with
  | none =>
    simp only [expo, Pi.single_apply]
    congr 1
    simp
  | some i =>
    simp only [expo, Pi.add_apply, Pi.single_apply, (castAdd_ne_natAdd i j').symm, if_false, add_zero]
    congr 1
    simp

theorem expo_x (j : Fin outSize) (o : Option (Fin inSize)) (i : Fin inSize) :
    expo j o (Fin.castAdd outSize i) = if o = some i then 1 else 0 := by
  cases o with
  | none => simp [expo, castAdd_ne_natAdd]
  | some i' => simp [expo, Pi.single_apply, castAdd_ne_natAdd, eq_comm]

theorem expo_le (j : Fin outSize) (o : Option (Fin inSize)) (k : Fin (inSize + outSize)) : expo j o k ≤ 1 := by
  refine Fin.addCases (fun i => ?_) (fun j' => ?_) k
  · rw [expo_x]; split <;> omega
  · rw [expo_y]; split <;> omega

theorem integrable_noise (l : Layer inSize outSize) (x : Fin inSize → ℝ) (j : Fin outSize) :
    Integrable (fun r => ∑ o, coef l x j o * mon (expo j o) r) (draws (inSize + outSize)) :=
  integrable_finsetSum _ fun o _ => (integrable_mon _ fun k => (expo_le j o k).trans (by omega)).const_mul _

theorem integral_noise (l : Layer inSize outSize) (x : Fin inSize → ℝ) (j : Fin outSize) :
    ∫ r, ∑ o, coef l x j o * mon (expo j o) r ∂(draws (inSize + outSize)) = 0 := by
  rw [integral_finsetSum _ fun o _ => (integrable_mon _ fun k => (expo_le j o k).trans (by omega)).const_mul _]
  apply Finset.sum_eq_zero
  intro o _
  rw [integral_const_mul, integral_mon_zero _ (Fin.natAdd inSize j) (by rw [expo_y]; simp), mul_zero]

/-- Second moments of the monomials. -/
theorem integral_pair (j j' : Fin outSize) (o o' : Option (Fin inSize)) :
    ∫ r, mon (expo j o) r * mon (expo j' o') r ∂(draws (inSize + outSize)) =
      if j = j' ∧ o = o' then (match o with
        | none => Real.sqrt (2 / Real.pi)
        | some _ => 2 / Real.pi) else 0 := by
  simp only [← mon_add]
  by_cases hj : j = j'
  · subst hj
    by_cases ho : o = o'
    · subst ho
      rw [if_pos ⟨rfl, rfl⟩, integral_mon, Fin.prod_univ_add]
      have hx : ∀ i : Fin inSize, ∫ x, eps x ^ (expo j o + expo j o) (Fin.castAdd outSize i) ∂(gaussianReal 0 1) =
          if o = some i then Real.sqrt (2 / Real.pi) else 1 := by
        intro i
        rw [Pi.add_apply, expo_x]
        split
        · simp only [Nat.reduceAdd, eps_sq, integral_abs_gauss]
        · simp
      have hy : ∀ j' : Fin outSize, ∫ x, eps x ^ (expo j o + expo j o) (Fin.natAdd inSize j') ∂(gaussianReal 0 1) =
          if j' = j then Real.sqrt (2 / Real.pi) else 1 := by
        intro j'
        rw [Pi.add_apply, expo_y]
        split
        · simp only [Nat.reduceAdd, eps_sq, integral_abs_gauss]
        · simp
      rw [Finset.prod_congr rfl fun i _ => hx i, Finset.prod_congr rfl fun j' _ => hy j']
      rw [Finset.prod_ite_eq' Finset.univ j]
      cases o with
      | none => simp
      | some i =>
        have : ∀ i' : Fin inSize, (if (some i : Option (Fin inSize)) = some i' then Real.sqrt (2 / Real.pi) else 1) =
            if i = i' then Real.sqrt (2 / Real.pi) else 1 := fun i' => by simp
        rw [Finset.prod_congr rfl fun i' _ => this i', Finset.prod_ite_eq Finset.univ i]
        simp only [Finset.mem_univ, if_true]
        exact Real.mul_self_sqrt (by positivity)
    · rw [if_neg (fun h => ho h.2)]
      have : ∃ i : Fin inSize, (o = some i ∧ o' ≠ some i) ∨ (o ≠ some i ∧ o' = some i) := by
        cases o with
        | none =>
          cases o' with
          | none => exact absurd rfl ho
          | some i' => exact ⟨i', Or.inr ⟨by simp, rfl⟩⟩
        | some i => exact ⟨i, Or.inl ⟨rfl, fun h => ho h.symm⟩⟩
      obtain ⟨i, hi⟩ := this
      apply integral_mon_zero _ (Fin.castAdd outSize i)
      rw [Pi.add_apply, expo_x, expo_x]
      rcases hi with ⟨h1, h2⟩ | ⟨h1, h2⟩ <;> simp [h1, h2]
  · rw [if_neg (fun h => hj h.1)]
    apply integral_mon_zero _ (Fin.natAdd inSize j)
    rw [Pi.add_apply, expo_y, expo_y]
    simp [hj]

/-! ## C97: noise of noisy linear layers -/

/-- C97, mean: for every input, the mean of the layer's output is the output of the linear layer with the parameters `mu`. -/
theorem noisy_mean (l : Layer inSize outSize) (x : Fin inSize → ℝ) (j : Fin outSize) :
    Integrable (fun r => forward l x r j) (draws (inSize + outSize)) ∧
      ∫ r, forward l x r j ∂(draws (inSize + outSize)) = meanOut l x j := by
  simp only [forward_eq]
  refine ⟨(integrable_const _).add (integrable_noise l x j), ?_⟩
  rw [integral_add (integrable_const _) (integrable_noise l x j), integral_noise, integral_const]
  simp

/-- C97, covariance: the covariance of two outputs is zero if they are different, and the variance of an output is
`(2 / π) * ∑ i, (sigma.weight[j, i] * x[i]) ^ 2 + sqrt (2 / π) * sigma.bias[j] ^ 2`. -/
theorem noisy_covariance (l : Layer inSize outSize) (x : Fin inSize → ℝ) (j j' : Fin outSize) :
    ∫ r, (forward l x r j - meanOut l x j) * (forward l x r j' - meanOut l x j') ∂(draws (inSize + outSize)) =
      if j = j' then 2 / Real.pi * ∑ i, (l.sigmaW j i * x i) ^ 2 +
        (if l.hasbias then Real.sqrt (2 / Real.pi) * l.sigmaB j ^ 2 else 0) else 0 := by
  simp only [forward_eq, add_sub_cancel_left, Finset.sum_mul_sum]
  have hint : ∀ o o', Integrable (fun r => coef l x j o * mon (expo j o) r * (coef l x j' o' * mon (expo j' o') r))
      (draws (inSize + outSize)) := by
    intro o o'
    have : (fun r => coef l x j o * mon (expo j o) r * (coef l x j' o' * mon (expo j' o') r)) =
        fun r => coef l x j o * coef l x j' o' * mon (expo j o + expo j' o') r := by
      funext r; rw [mon_add]; ring
    rw [this]
    exact (integrable_mon _ fun k => by
      have := expo_le j o k
      have := expo_le j' o' k
      rw [Pi.add_apply]; omega).const_mul _
  rw [integral_finsetSum _ fun o _ => integrable_finsetSum _ fun o' _ => hint o o']
  have hval : ∀ o o', ∫ r, coef l x j o * mon (expo j o) r * (coef l x j' o' * mon (expo j' o') r)
      ∂(draws (inSize + outSize)) = coef l x j o * coef l x j' o' * (if j = j' ∧ o = o' then (match o with
        | none => Real.sqrt (2 / Real.pi)
        | some _ => 2 / Real.pi) else 0) := by
    intro o o'
    rw [← integral_pair, ← integral_const_mul]
    congr 1
    funext r; ring
  have hsum : ∀ o, ∫ r, ∑ o', coef l x j o * mon (expo j o) r * (coef l x j' o' * mon (expo j' o') r)
      ∂(draws (inSize + outSize)) = if j = j' then coef l x j o ^ 2 * (match o with
        | none => Real.sqrt (2 / Real.pi)
        | some _ => 2 / Real.pi) else 0 := by
    intro o
    rw [integral_finsetSum _ fun o' _ => hint o o', Finset.sum_congr rfl fun o' _ => hval o o']
    by_cases hj : j = j'
    · subst hj
      rw [if_pos rfl, Finset.sum_eq_single o]
      · simp only [and_self, if_true]; ring
      · intro o' _ ho'
        rw [if_neg (fun h => ho' h.2.symm), mul_zero]
      · simp
    · simp [hj]
  rw [Finset.sum_congr rfl fun o _ => hsum o]
  by_cases hj : j = j'
  · simp only [hj, if_true]
    rw [Fintype.sum_option, Finset.mul_sum, add_comm]
    simp only [coef]
    congr 1
    · exact Finset.sum_congr rfl fun i _ => by ring
    · cases l.hasbias <;> simp [mul_comm]
  · simp [hj]

/-- A layer with noise 1/2 on both weights: the mean at `(1, 2)` is 5 and the variance is `(2 / π) * 5 / 4`. -/
example : ∫ r, (forward (⟨false, fun _ i => i.val + 1, fun _ => 0, fun _ _ => 1 / 2, fun _ => 0⟩ : Layer 2 1)
    (fun i => i.val + 1) r 0 - 5) ^ 2 ∂(draws 3) = 2 / Real.pi * (5 / 4) := by
  have h := noisy_covariance (⟨false, fun _ i => i.val + 1, fun _ => 0, fun _ _ => 1 / 2, fun _ => 0⟩ : Layer 2 1)
    (fun i => i.val + 1) 0 0
  simp only [meanOut, Fin.sum_univ_two, if_true] at h
  norm_num at h
  rw [← h]
  congr 1
  funext r
  ring

end Pfrl.NoisyLinear
