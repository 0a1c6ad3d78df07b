import Verif.Basic
import Mathlib.Analysis.SpecialFunctions.Sqrt
import Mathlib.Algebra.BigOperators.Intervals
import Mathlib.Tactic.Linarith
import Mathlib.Tactic.Ring
import Mathlib.Tactic.NormNum
import Mathlib.Tactic.Positivity
import Mathlib.Tactic.FieldSimp

/-!
# Reward filters

Model of `pfrl/utils/reward_filter.py` in real arithmetic.  (In floating point a variance that is negative by rounding would
make `** 0.5` complex; that is not modelled.)
-/

namespace Pfrl.RewardFilter

open Pfrl

/-! ## Model -/

/-- `average_reward` and `average_reward_squared`. -/
structure Filter where
  avg : ℝ
  sq : ℝ

/-- `__init__`, `pfrl/utils/reward_filter.py:2-7`. -/
def Filter.new : Filter := ⟨0, 0⟩

/-- The averages after a reward, `pfrl/utils/reward_filter.py:10-13`. -/
noncomputable def Filter.see (tau : ℝ) (s : Filter) (reward : ℝ) : Filter :=
  ⟨s.avg * (1 - tau) + tau * reward, s.sq * (1 - tau) + tau * reward ^ 2⟩

/-- What `__call__` returns after the averages are updated, `pfrl/utils/reward_filter.py:14-16`: a division by the float
`0.0` raises. -/
noncomputable def Filter.output (scale eps : ℝ) (s : Filter) (reward : ℝ) : Except PyErr ℝ :=
  let var := s.sq - s.avg ^ 2
  let stdev := Real.sqrt (min var eps)
  if stdev = 0 then .error .zeroDivision else .ok (scale * (reward - s.avg) / stdev)

/-- `NormalizedRewardFilter.__call__`, `pfrl/utils/reward_filter.py:9-16`. -/
noncomputable def Filter.normalize (tau scale eps : ℝ) (s : Filter) (reward : ℝ) : Filter × Except PyErr ℝ :=
  (s.see tau reward, (s.see tau reward).output scale eps reward)

/-- `AverageRewardFilter.__call__`, `pfrl/utils/reward_filter.py:24-27`; the state is `average_reward`. -/
noncomputable def subtractAverage (tau : ℝ) (avg reward : ℝ) : ℝ × ℝ :=
  (avg * (1 - tau) + tau * reward, reward - (avg * (1 - tau) + tau * reward))

/-! ## Specification -/

/-- The exponentially weighted sum of a list of numbers, latest last. -/
noncomputable def expSum (tau : ℝ) (xs : List ℝ) : ℝ :=
  ∑ i ∈ Finset.range xs.length, tau * (1 - tau) ^ (xs.length - 1 - i) * xs.getD i 0

/-- The variance of the exponentially weighted distribution that has the remaining weight at zero. -/
noncomputable def expVar (tau : ℝ) (xs : List ℝ) : ℝ := expSum tau (xs.map (· ^ 2)) - expSum tau xs ^ 2

/-! ## Lemmas -/

theorem expSum_concat (tau : ℝ) (xs : List ℝ) (x : ℝ) :
    expSum tau (xs ++ [x]) = expSum tau xs * (1 - tau) + tau * x := by
  unfold expSum
  rw [List.length_append, List.length_singleton, Finset.sum_range_succ, Finset.sum_mul]
  congr 1
  · apply Finset.sum_congr rfl
    intro i hi
    rw [Finset.mem_range] at hi
    rw [List.getD_eq_getElem?_getD, List.getD_eq_getElem?_getD, List.getElem?_append_left hi]
    rw [show xs.length + 1 - 1 - i = (xs.length - 1 - i) + 1 by omega, pow_succ]
    ring
  · simp

/-- The state after a list of rewards. -/
theorem state_eq (tau : ℝ) (rs : List ℝ) :
    rs.foldl (Filter.see tau) Filter.new = ⟨expSum tau rs, expSum tau (rs.map (· ^ 2))⟩ := by
  induction rs using List.reverseRecOn with
  | nil => simp [Filter.new, expSum]
  | append_singleton rs r ih =>
    rw [List.foldl_append, ih]
    simp only [List.foldl_cons, List.foldl_nil, Filter.see, List.map_append, List.map_cons, List.map_nil, expSum_concat]

theorem expVar_concat (tau : ℝ) (rs : List ℝ) (r : ℝ) :
    expVar tau (rs ++ [r]) = (1 - tau) * expVar tau rs + tau * (1 - tau) * (expSum tau rs - r) ^ 2 := by
  unfold expVar
  simp only [List.map_append, List.map_cons, List.map_nil, expSum_concat]
  ring

theorem expSum_zeros (tau : ℝ) (rs : List ℝ) (h : ∀ r ∈ rs, r = 0) : expSum tau rs = 0 := by
  induction rs using List.reverseRecOn with
  | nil => simp [expSum]
  | append_singleton rs r ih =>
    rw [expSum_concat, ih (fun x hx => h x (by simp [hx])), h r (by simp)]; ring

theorem expVar_nonneg (tau : ℝ) (h0 : 0 < tau) (h1 : tau < 1) (rs : List ℝ) : 0 ≤ expVar tau rs := by
  induction rs using List.reverseRecOn with
  | nil => simp [expVar, expSum]
  | append_singleton rs r ih =>
    rw [expVar_concat]
    have : 0 < 1 - tau := by linarith
    positivity

theorem expVar_zero_iff (tau : ℝ) (h0 : 0 < tau) (h1 : tau < 1) (rs : List ℝ) :
    expVar tau rs = 0 ↔ ∀ r ∈ rs, r = 0 := by
  induction rs using List.reverseRecOn with
  | nil => simp [expVar, expSum]
  | append_singleton rs r ih =>
    have hp : 0 < 1 - tau := by linarith
    have hn := expVar_nonneg tau h0 h1 rs
    rw [expVar_concat]
    constructor
    · intro h
      have hb : 0 ≤ tau * (1 - tau) * (expSum tau rs - r) ^ 2 := by positivity
      have ha : 0 ≤ (1 - tau) * expVar tau rs := by positivity
      have h3 : (1 - tau) * expVar tau rs = 0 := by linarith
      have h4 : tau * (1 - tau) * (expSum tau rs - r) ^ 2 = 0 := by linarith
      have h5 : expVar tau rs = 0 := by
        rcases mul_eq_zero.1 h3 with h | h
        · linarith
        · exact h
      have h6 : expSum tau rs - r = 0 := by
        rcases mul_eq_zero.1 h4 with h | h
        · exact absurd h (by positivity)
        · exact pow_eq_zero_iff (by norm_num) |>.1 h
      have hz := ih.1 h5
      have hs := expSum_zeros tau rs hz
      intro x hx
      rcases List.mem_append.1 hx with hx | hx
      · exact hz x hx
      · rw [List.mem_singleton] at hx; rw [hx]; linarith
    · intro h
      have hz : ∀ x ∈ rs, x = 0 := fun x hx => h x (by simp [hx])
      rw [ih.2 hz, expSum_zeros tau rs hz, h r (by simp)]; ring

/-! ## C96: reward filters -/

/-- C96, `AverageRewardFilter`: after any history, the filter returns the reward minus the exponentially weighted average of
all rewards so far, this one included. -/
theorem average_filter (tau : ℝ) (rs : List ℝ) (r : ℝ) :
    (subtractAverage tau (rs.foldl (fun a x => (subtractAverage tau a x).1) 0) r).2 = r - expSum tau (rs ++ [r]) := by
  have key : ∀ rs : List ℝ, rs.foldl (fun a x => (subtractAverage tau a x).1) 0 = expSum tau rs := by
    intro rs
    induction rs using List.reverseRecOn with
    | nil => simp [expSum]
    | append_singleton rs r ih =>
      rw [List.foldl_append, ih, expSum_concat]; rfl
  rw [key, expSum_concat]; rfl

/-- C96, `NormalizedRewardFilter`, exactly: after any history, the filter raises if and only if all rewards so far, this one
included, are zero; otherwise it returns the deviation from the weighted average divided by the square root of the smaller
of the weighted variance and `eps`.  (The full claim, that it never raises, is false: `normalized_filter_raises`.) -/
theorem normalized_filter_partial (tau scale eps : ℝ) (h0 : 0 < tau) (h1 : tau < 1) (heps : 0 < eps) (rs : List ℝ) (r : ℝ) :
    ((rs.foldl (fun s x => (s.normalize tau scale eps x).1) Filter.new).normalize tau scale eps r).2 =
      if ∀ x ∈ rs ++ [r], x = 0 then .error .zeroDivision
      else .ok (scale * (r - expSum tau (rs ++ [r])) / Real.sqrt (min (expVar tau (rs ++ [r])) eps)) := by
  have e : (rs.foldl (fun s x => (s.normalize tau scale eps x).1) Filter.new) = rs.foldl (Filter.see tau) Filter.new := rfl
  have e2 : (rs.foldl (Filter.see tau) Filter.new).see tau r = (rs ++ [r]).foldl (Filter.see tau) Filter.new := by
    rw [List.foldl_append]; rfl
  rw [e]
  simp only [Filter.normalize]
  rw [e2, state_eq]
  unfold Filter.output
  simp only
  have hv : expSum tau ((rs ++ [r]).map (· ^ 2)) - expSum tau (rs ++ [r]) ^ 2 = expVar tau (rs ++ [r]) := rfl
  rw [hv]
  have hn := expVar_nonneg tau h0 h1 (rs ++ [r])
  have hiff : Real.sqrt (min (expVar tau (rs ++ [r])) eps) = 0 ↔ ∀ x ∈ rs ++ [r], x = 0 := by
    rw [← expVar_zero_iff tau h0 h1, Real.sqrt_eq_zero (le_min hn heps.le)]
    constructor
    · intro h
      rcases min_choice (expVar tau (rs ++ [r])) eps with h' | h' <;> rw [h'] at h
      · exact h
      · exact absurd h heps.ne'
    · intro h; rw [h]; exact min_eq_left heps.le
  by_cases h : ∀ x ∈ rs ++ [r], x = 0
  · rw [if_pos h, if_pos (hiff.2 h)]
  · rw [if_neg h, if_neg (fun hh => h (hiff.1 hh))]

/-- The violation: with the default arguments, a first reward of zero raises. -/
theorem normalized_filter_raises : (Filter.new.normalize 1e-3 1 1e-1 0).2 = .error .zeroDivision := by
  have := normalized_filter_partial 1e-3 1 1e-1 (by norm_num) (by norm_num) (by norm_num) [] 0
  simpa using this

/-- C96, size: a returned value is at most `scale` times the larger of `sqrt ((1 - tau) / tau)` and the deviation
divided by `sqrt eps`. -/
theorem normalized_filter_bound (tau scale eps : ℝ) (h0 : 0 < tau) (h1 : tau < 1) (heps : 0 < eps) (hs : 0 ≤ scale)
    (rs : List ℝ) (r y : ℝ)
    (h : ((rs.foldl (fun s x => (s.normalize tau scale eps x).1) Filter.new).normalize tau scale eps r).2 = .ok y) :
    |y| ≤ scale * max (Real.sqrt ((1 - tau) / tau)) (|r - expSum tau (rs ++ [r])| / Real.sqrt eps) := by
  rw [normalized_filter_partial tau scale eps h0 h1 heps] at h
  split at h
  · cases h
  · next hne =>
    cases h
    have hp : 0 < 1 - tau := by linarith
    have hn := expVar_nonneg tau h0 h1 (rs ++ [r])
    have hv : 0 < expVar tau (rs ++ [r]) :=
      lt_of_le_of_ne hn (fun hh => hne ((expVar_zero_iff tau h0 h1 _).1 hh.symm))
    have hdev : tau * (r - expSum tau (rs ++ [r])) ^ 2 ≤ (1 - tau) * expVar tau (rs ++ [r]) := by
      rw [expVar_concat, expSum_concat]
      have := expVar_nonneg tau h0 h1 rs
      have h2 : 0 ≤ (1 - tau) * ((1 - tau) * expVar tau rs) := by positivity
      nlinarith
    rw [abs_div, abs_mul, abs_of_nonneg hs, abs_of_nonneg (Real.sqrt_nonneg _), mul_div_assoc]
    apply mul_le_mul_of_nonneg_left _ hs
    rcases le_total (expVar tau (rs ++ [r])) eps with hle | hle
    · rw [min_eq_left hle]
      apply le_max_of_le_left
      rw [div_le_iff₀ (Real.sqrt_pos.2 hv), ← Real.sqrt_mul (by positivity)]
      apply Real.abs_le_sqrt
      rw [div_mul_eq_mul_div, le_div_iff₀ h0]
      linarith
    · rw [min_eq_right hle]
      exact le_max_right _ _

/-- What a user may not expect of `min`: the first nonzero reward is returned as `scale * sqrt ((1 - tau) / tau)` with its sign,
whatever its size, as long as the weighted variance it causes is at most `eps`. -/
theorem normalized_filter_first (tau scale eps : ℝ) (h0 : 0 < tau) (h1 : tau < 1) (heps : 0 < eps) (rs : List ℝ)
    (hz : ∀ x ∈ rs, x = 0) (r : ℝ) (hr : 0 < r) (hsmall : tau * (1 - tau) * r ^ 2 ≤ eps) :
    ((rs.foldl (fun s x => (s.normalize tau scale eps x).1) Filter.new).normalize tau scale eps r).2 =
      .ok (scale * Real.sqrt ((1 - tau) / tau)) := by
  rw [normalized_filter_partial tau scale eps h0 h1 heps, if_neg (fun h => hr.ne' (h r (by simp)))]
  congr 1
  have hp : 0 < 1 - tau := by linarith
  rw [expVar_concat, (expVar_zero_iff tau h0 h1 rs).2 hz, expSum_concat, expSum_zeros tau rs hz]
  have e : (1 - tau) * 0 + tau * (1 - tau) * (0 - r) ^ 2 = tau * (1 - tau) * r ^ 2 := by ring
  rw [e, min_eq_left hsmall, Real.sqrt_mul (by positivity), Real.sqrt_sq hr.le, mul_div_assoc]
  congr 1
  rw [Real.sqrt_mul h0.le, Real.sqrt_div hp.le]
  have hst : 0 < Real.sqrt tau := Real.sqrt_pos.2 h0
  have hsp : 0 < Real.sqrt (1 - tau) := Real.sqrt_pos.2 hp
  rw [div_eq_div_iff (by positivity) hst.ne']
  have ha := Real.mul_self_sqrt hp.le
  linear_combination (-(r * Real.sqrt tau)) * ha

example : expSum (1 / 2) [4, 0, 2] = 3 / 2 := by
  simp [expSum, Finset.sum_range_succ]; norm_num

example : expVar (1 / 2) [2] = 1 := by
  simp [expVar, expSum]; norm_num

end Pfrl.RewardFilter
