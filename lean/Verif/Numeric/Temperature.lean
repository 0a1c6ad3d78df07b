import Verif.Basic
import Mathlib.Analysis.SpecialFunctions.ExpDeriv
import Mathlib.Analysis.SpecialFunctions.Sqrt
import Mathlib.Analysis.SpecialFunctions.Log.Basic
import Mathlib.Tactic.Linarith
import Mathlib.Tactic.Ring
import Mathlib.Tactic.NormNum
import Mathlib.Tactic.Positivity
import Mathlib.Tactic.FieldSimp

/-!
# The temperature of soft actor-critic

Model of `TemperatureHolder`, `update_temperature` and `temperature` of `pfrl/agents/soft_actor_critic.py` with
the optimiser the agent creates for it: `torch.optim.Adam` with its default moments.  Real arithmetic.
-/

namespace Pfrl.Temperature

open Real

/-! ## Model -/

/-- `log_temperature` and the state of Adam for it: the two moving averages and the number of steps. -/
structure Temp where
  logT : ℝ
  m : ℝ
  v : ℝ
  n : ℕ

/-- `TemperatureHolder(initial_log_temperature=np.log(initial_temperature))` with a new optimiser,
`pfrl/agents/soft_actor_critic.py:157-168`. -/
noncomputable def Temp.new (initial : ℝ) : Temp := ⟨Real.log initial, 0, 0, 0⟩

/-- `temperature_holder()`, `pfrl/agents/soft_actor_critic.py:37-39`. -/
noncomputable def Temp.temperature (s : Temp) : ℝ := Real.exp s.logT

/-- The mean of a list. -/
noncomputable def mean (xs : List ℝ) : ℝ := xs.sum / xs.length

/-- `loss = -torch.mean(self.temperature_holder() * (log_prob + self.entropy_target))`, line 266. -/
noncomputable def loss (target : ℝ) (logProbs : List ℝ) (logT : ℝ) : ℝ :=
  -mean (logProbs.map fun lp => Real.exp logT * (lp + target))

/-- What `loss.backward()` leaves in `log_temperature.grad`, see `hasDerivAt_loss`. -/
noncomputable def grad (target : ℝ) (logProbs : List ℝ) (logT : ℝ) : ℝ :=
  -mean (logProbs.map fun lp => Real.exp logT * (lp + target))

/-- `clip_l2_grad_norm_` for one scalar parameter, `pfrl/utils/clip_l2_grad_norm.py:29-38`. -/
noncomputable def clip (maxNorm : Option ℝ) (g : ℝ) : ℝ :=
  match maxNorm with
  | none => g
  | some c => if c / (|g| + 1e-6) < 1 then g * (c / (|g| + 1e-6)) else g

/-- One step of `torch.optim.Adam` (no weight decay, no AMSGrad) with `betas=(0.9, 0.999)`. -/
noncomputable def adam (lr eps : ℝ) (s : Temp) (g : ℝ) : Temp :=
  let m := 0.9 * s.m + (1 - 0.9) * g
  let v := 0.999 * s.v + (1 - 0.999) * g ^ 2
  let n := s.n + 1
  let denom := Real.sqrt v / Real.sqrt (1 - 0.999 ^ n) + eps
  ⟨s.logT - lr / (1 - 0.9 ^ n) * (m / denom), m, v, n⟩

/-- `update_temperature`, `pfrl/agents/soft_actor_critic.py:264-271`. -/
noncomputable def Temp.update (lr eps : ℝ) (maxNorm : Option ℝ) (target : ℝ) (s : Temp) (logProbs : List ℝ) : Temp :=
  adam lr eps s (clip maxNorm (grad target logProbs s.logT))

/-- `temperature` after a sequence of updates, `pfrl/agents/soft_actor_critic.py:191-197`: the initial value if there is no
entropy target (then `update_temperature` is never called, line 297). -/
noncomputable def temperatureAfter (lr eps : ℝ) (maxNorm : Option ℝ) (entropyTarget : Option ℝ) (initial : ℝ)
    (batches : List (List ℝ)) : ℝ :=
  match entropyTarget with
  | none => initial
  | some target => (batches.foldl (Temp.update lr eps maxNorm target) (Temp.new initial)).temperature

/-! ## Specification -/

/-- The estimate of the policy's entropy a batch gives. -/
noncomputable def entropyEstimate (logProbs : List ℝ) : ℝ := -mean logProbs

/-! ## Lemmas -/

theorem mean_scale (c a : ℝ) (xs : List ℝ) (h : xs ≠ []) :
    mean (xs.map fun x => c * (x + a)) = c * (mean xs + a) := by
  have hl : (xs.length : ℝ) ≠ 0 := by
    have := List.length_pos_iff.2 h
    positivity
  have hs : (xs.map fun x => c * (x + a)).sum = c * (xs.sum + xs.length * a) := by
    clear h hl
    induction xs with
    | nil => simp
    | cons x xs ih => simp only [List.map_cons, List.sum_cons, ih, List.length_cons, Nat.cast_succ]; ring
  unfold mean
  rw [hs, List.length_map]
  field_simp

theorem grad_eq (target : ℝ) (lps : List ℝ) (h : lps ≠ []) (logT : ℝ) :
    grad target lps logT = Real.exp logT * (entropyEstimate lps - target) := by
  rw [grad, mean_scale _ _ _ h, entropyEstimate]; ring

/-- `grad` is the derivative of the loss. -/
theorem hasDerivAt_loss (target : ℝ) (lps : List ℝ) (h : lps ≠ []) (logT : ℝ) :
    HasDerivAt (loss target lps) (grad target lps logT) logT := by
  have e : loss target lps = fun x => Real.exp x * (entropyEstimate lps - target) := by
    funext x
    rw [loss, mean_scale _ _ _ h, entropyEstimate]; ring
  rw [e, grad_eq target lps h]
  exact (Real.hasDerivAt_exp logT).mul_const _

theorem clip_sign (maxNorm : Option ℝ) (hc : ∀ c, maxNorm = some c → 0 < c) (g : ℝ) :
    (g < 0 → clip maxNorm g < 0) ∧ (0 < g → 0 < clip maxNorm g) ∧ (g = 0 → clip maxNorm g = 0) := by
  cases maxNorm with
  | none => simp [clip]
  | some c =>
    have hc' := hc c rfl
    have hp : 0 < c / (|g| + 1e-6) := div_pos hc' (by positivity)
    simp only [clip]
    split
    · exact ⟨fun h => mul_neg_of_neg_of_pos h hp, fun h => mul_pos h hp, fun h => by rw [h, zero_mul]⟩
    · exact ⟨id, id, id⟩

theorem bias1 (n : ℕ) : (0.1 : ℝ) ≤ 1 - 0.9 ^ (n + 1) := by
  have : (0.9 : ℝ) ^ (n + 1) ≤ 0.9 := by
    rw [pow_succ]
    have : (0.9 : ℝ) ^ n ≤ 1 := pow_le_one₀ (by norm_num) (by norm_num)
    nlinarith
  linarith

theorem bias2 (n : ℕ) : (0 : ℝ) < 1 - 0.999 ^ (n + 1) ∧ (1 : ℝ) - 0.999 ^ (n + 1) ≤ 1 := by
  have h1 : (0.999 : ℝ) ^ (n + 1) < 1 := pow_lt_one₀ (by norm_num) (by norm_num) (by omega)
  have h2 : (0 : ℝ) ≤ 0.999 ^ (n + 1) := by positivity
  exact ⟨by linarith, by linarith⟩

/-- The step is a positive multiple of the first moment. -/
theorem adam_step (lr eps : ℝ) (hlr : 0 < lr) (heps : 0 < eps) (s : Temp) (g : ℝ) :
    ∃ k, 0 < k ∧ (adam lr eps s g).logT = s.logT - k * (adam lr eps s g).m := by
  have h1 : (0 : ℝ) < 1 - 0.9 ^ (s.n + 1) := lt_of_lt_of_le (by norm_num) (bias1 s.n)
  have h2 : 0 < Real.sqrt (0.999 * s.v + (1 - 0.999) * g ^ 2) / Real.sqrt (1 - 0.999 ^ (s.n + 1)) + eps := by
    have : 0 ≤ Real.sqrt (0.999 * s.v + (1 - 0.999) * g ^ 2) / Real.sqrt (1 - 0.999 ^ (s.n + 1)) := by positivity
    linarith
  refine ⟨lr / (1 - 0.9 ^ (s.n + 1)) / (Real.sqrt (0.999 * s.v + (1 - 0.999) * g ^ 2) /
    Real.sqrt (1 - 0.999 ^ (s.n + 1)) + eps), by positivity, ?_⟩
  simp only [adam]
  ring

/-- The first moment is bounded by the second. -/
theorem moments (lr eps : ℝ) (s : Temp) (g : ℝ) (hv : 0 ≤ s.v) (h : s.m ^ 2 ≤ 53 * s.v) :
    0 ≤ (adam lr eps s g).v ∧ (adam lr eps s g).m ^ 2 ≤ 53 * (adam lr eps s g).v := by
  simp only [adam]
  refine ⟨by positivity, ?_⟩
  have h1 := sq_nonneg (s.m - 10 / 21 * g)
  have h2 := sq_nonneg g
  norm_num
  ring_nf at h1 h ⊢
  linarith

/-! ## C93: the temperature stays positive, follows the entropy and changes at a bounded rate -/

/-- C93, fixed temperature: without an entropy target, the temperature never changes. -/
theorem temperature_fixed (lr eps : ℝ) (maxNorm : Option ℝ) (initial : ℝ) (batches : List (List ℝ)) :
    temperatureAfter lr eps maxNorm none initial batches = initial := rfl

/-- C93, learned temperature: it starts at the initial temperature and is positive after any sequence of updates. -/
theorem temperature_positive (lr eps : ℝ) (maxNorm : Option ℝ) (target initial : ℝ) (hi : 0 < initial)
    (batches : List (List ℝ)) :
    temperatureAfter lr eps maxNorm (some target) initial [] = initial ∧
      0 < temperatureAfter lr eps maxNorm (some target) initial batches := by
  refine ⟨?_, Real.exp_pos _⟩
  simp [temperatureAfter, Temp.new, Temp.temperature, Real.exp_log hi]

/-- The sign the first moment keeps. -/
theorem direction_aux (lr eps : ℝ) (hlr : 0 < lr) (heps : 0 < eps) (maxNorm : Option ℝ)
    (hc : ∀ c, maxNorm = some c → 0 < c) (target : ℝ) (s : Temp) (lps : List ℝ) (hne : lps ≠ []) :
    (entropyEstimate lps < target → s.m ≤ 0 → (s.update lr eps maxNorm target lps).m < 0 ∧
      s.logT < (s.update lr eps maxNorm target lps).logT) ∧
    (target < entropyEstimate lps → 0 ≤ s.m → 0 < (s.update lr eps maxNorm target lps).m ∧
      (s.update lr eps maxNorm target lps).logT < s.logT) ∧
    (entropyEstimate lps = target → s.m = 0 → (s.update lr eps maxNorm target lps).m = 0 ∧
      (s.update lr eps maxNorm target lps).logT = s.logT) := by
  have hg := grad_eq target lps hne s.logT
  have hpos := Real.exp_pos s.logT
  obtain ⟨c1, c2, c3⟩ := clip_sign maxNorm hc (grad target lps s.logT)
  obtain ⟨k, hk, hstep⟩ := adam_step lr eps hlr heps s (clip maxNorm (grad target lps s.logT))
  have hm : (s.update lr eps maxNorm target lps).m =
      0.9 * s.m + (1 - 0.9) * clip maxNorm (grad target lps s.logT) := rfl
  have hL : (s.update lr eps maxNorm target lps).logT = s.logT - k * (s.update lr eps maxNorm target lps).m := hstep
  refine ⟨fun h hs => ?_, fun h hs => ?_, fun h hs => ?_⟩
  · have : grad target lps s.logT < 0 := by rw [hg]; exact mul_neg_of_pos_of_neg hpos (by linarith)
    have hcl := c1 this
    have hm' : (s.update lr eps maxNorm target lps).m < 0 := by rw [hm]; norm_num; linarith
    exact ⟨hm', by rw [hL]; nlinarith⟩
  · have : 0 < grad target lps s.logT := by rw [hg]; exact mul_pos hpos (by linarith)
    have hcl := c2 this
    have hm' : 0 < (s.update lr eps maxNorm target lps).m := by rw [hm]; norm_num; linarith
    exact ⟨hm', by rw [hL]; nlinarith⟩
  · have : grad target lps s.logT = 0 := by rw [hg, h]; ring
    have hcl := c3 this
    have hm' : (s.update lr eps maxNorm target lps).m = 0 := by rw [hm, hcl, hs]; ring
    exact ⟨hm', by rw [hL, hm']; ring⟩

/-- C93, direction: as long as every batch's entropy estimate has been below the target, each update raises the
temperature; as long as it has been above, each update lowers it; as long as it has been exact, it does not change. -/
theorem temperature_direction (lr eps : ℝ) (hlr : 0 < lr) (heps : 0 < eps) (maxNorm : Option ℝ)
    (hc : ∀ c, maxNorm = some c → 0 < c) (target initial : ℝ) (batches : List (List ℝ)) (last : List ℝ)
    (hne : ∀ b ∈ batches ++ [last], b ≠ []) :
    let T := temperatureAfter lr eps maxNorm (some target) initial
    ((∀ b ∈ batches ++ [last], entropyEstimate b < target) → T batches < T (batches ++ [last])) ∧
    ((∀ b ∈ batches ++ [last], target < entropyEstimate b) → T (batches ++ [last]) < T batches) ∧
    ((∀ b ∈ batches ++ [last], entropyEstimate b = target) → T (batches ++ [last]) = T batches) := by
  intro T
  have key : ∀ (bs : List (List ℝ)) (s : Temp), (∀ b ∈ bs, b ≠ []) →
      ((∀ b ∈ bs, entropyEstimate b < target) → s.m ≤ 0 → (bs.foldl (Temp.update lr eps maxNorm target) s).m ≤ 0) ∧
      ((∀ b ∈ bs, target < entropyEstimate b) → 0 ≤ s.m → 0 ≤ (bs.foldl (Temp.update lr eps maxNorm target) s).m) ∧
      ((∀ b ∈ bs, entropyEstimate b = target) → s.m = 0 →
        (bs.foldl (Temp.update lr eps maxNorm target) s).m = 0) := by
    intro bs
    induction bs with
    | nil => intro s _; exact ⟨fun _ h => h, fun _ h => h, fun _ h => h⟩
    | cons b bs ih =>
      intro s hne
      obtain ⟨d1, d2, d3⟩ := direction_aux lr eps hlr heps maxNorm hc target s b (hne b (by simp))
      obtain ⟨i1, i2, i3⟩ := ih (s.update lr eps maxNorm target b) (fun x hx => hne x (by simp [hx]))
      simp only [List.foldl_cons]
      exact ⟨fun h hs => i1 (fun x hx => h x (by simp [hx])) (d1 (h b (by simp)) hs).1.le,
        fun h hs => i2 (fun x hx => h x (by simp [hx])) (d2 (h b (by simp)) hs).1.le,
        fun h hs => i3 (fun x hx => h x (by simp [hx])) (d3 (h b (by simp)) hs).1⟩
  obtain ⟨k1, k2, k3⟩ := key batches (Temp.new initial) (fun b hb => hne b (by simp [hb]))
  obtain ⟨d1, d2, d3⟩ := direction_aux lr eps hlr heps maxNorm hc target
    (batches.foldl (Temp.update lr eps maxNorm target) (Temp.new initial)) last (hne last (by simp))
  simp only [T, temperatureAfter, Temp.temperature, List.foldl_append, List.foldl_cons, List.foldl_nil]
  refine ⟨fun h => ?_, fun h => ?_, fun h => ?_⟩
  · exact Real.exp_lt_exp.2 (d1 (h last (by simp)) (k1 (fun b hb => h b (by simp [hb])) le_rfl)).2
  · exact Real.exp_lt_exp.2 (d2 (h last (by simp)) (k2 (fun b hb => h b (by simp [hb])) le_rfl)).2
  · rw [(d3 (h last (by simp)) (k3 (fun b hb => h b (by simp [hb])) rfl)).2]

/-- One step changes the log temperature by at most `73 * lr`. -/
theorem step_bound (lr eps : ℝ) (hlr : 0 < lr) (heps : 0 < eps) (s : Temp) (g : ℝ) (hv : 0 ≤ s.v)
    (h : s.m ^ 2 ≤ 53 * s.v) : |(adam lr eps s g).logT - s.logT| ≤ 73 * lr := by
  obtain ⟨hv', hm'⟩ := moments lr eps s g hv h
  have h1 := bias1 s.n
  obtain ⟨h2, h3⟩ := bias2 s.n
  have hmv : |(adam lr eps s g).m| ≤ 7.3 * Real.sqrt (adam lr eps s g).v := by
    rw [← Real.sqrt_sq_eq_abs]
    have : Real.sqrt ((adam lr eps s g).m ^ 2) ≤ Real.sqrt (7.3 ^ 2 * (adam lr eps s g).v) := by
      apply Real.sqrt_le_sqrt
      nlinarith
    rw [Real.sqrt_mul (by norm_num), Real.sqrt_sq (show (0 : ℝ) ≤ 7.3 by norm_num)] at this
    exact this
  have hden : Real.sqrt (adam lr eps s g).v ≤
      Real.sqrt (adam lr eps s g).v / Real.sqrt (1 - 0.999 ^ (s.n + 1)) + eps := by
    have hs1 : Real.sqrt (1 - 0.999 ^ (s.n + 1)) ≤ 1 := Real.sqrt_le_one.2 h3
    have hs0 : 0 < Real.sqrt (1 - 0.999 ^ (s.n + 1)) := Real.sqrt_pos.2 h2
    have : Real.sqrt (adam lr eps s g).v ≤ Real.sqrt (adam lr eps s g).v / Real.sqrt (1 - 0.999 ^ (s.n + 1)) :=
      le_div_self (Real.sqrt_nonneg _) hs0 hs1
    linarith
  have hdpos : 0 < Real.sqrt (adam lr eps s g).v / Real.sqrt (1 - 0.999 ^ (s.n + 1)) + eps := by
    have : 0 ≤ Real.sqrt (adam lr eps s g).v / Real.sqrt (1 - 0.999 ^ (s.n + 1)) := by positivity
    linarith
  have hstep : (adam lr eps s g).logT - s.logT = -(lr / (1 - 0.9 ^ (s.n + 1)) * ((adam lr eps s g).m /
      (Real.sqrt (adam lr eps s g).v / Real.sqrt (1 - 0.999 ^ (s.n + 1)) + eps))) := by
    simp only [adam]; ring
  rw [hstep, abs_neg, abs_mul, abs_div, abs_div, abs_of_pos hlr, abs_of_pos hdpos,
    abs_of_pos (lt_of_lt_of_le (by norm_num) h1)]
  have ha : lr / (1 - 0.9 ^ (s.n + 1)) ≤ 10 * lr := by
    rw [div_le_iff₀ (lt_of_lt_of_le (by norm_num) h1)]
    nlinarith
  have hb : |(adam lr eps s g).m| / (Real.sqrt (adam lr eps s g).v / Real.sqrt (1 - 0.999 ^ (s.n + 1)) + eps) ≤ 7.3 := by
    rw [div_le_iff₀ hdpos]
    nlinarith
  calc _ ≤ 10 * lr * 7.3 := mul_le_mul ha hb (by positivity) (by positivity)
    _ = 73 * lr := by ring

/-- C93, rate: whatever the log probabilities, `n` updates change the temperature by a factor of at most
`exp (73 * lr * n)` in either direction. -/
theorem temperature_rate (lr eps : ℝ) (hlr : 0 < lr) (heps : 0 < eps) (maxNorm : Option ℝ) (target initial : ℝ)
    (hi : 0 < initial) (batches : List (List ℝ)) :
    initial * Real.exp (-(73 * lr * batches.length)) ≤
        temperatureAfter lr eps maxNorm (some target) initial batches ∧
      temperatureAfter lr eps maxNorm (some target) initial batches ≤
        initial * Real.exp (73 * lr * batches.length) := by
  have key : ∀ (bs : List (List ℝ)) (s : Temp), 0 ≤ s.v → s.m ^ 2 ≤ 53 * s.v →
      |(bs.foldl (Temp.update lr eps maxNorm target) s).logT - s.logT| ≤ 73 * lr * bs.length := by
    intro bs
    induction bs with
    | nil => intro s _ _; simp
    | cons b bs ih =>
      intro s hv h
      have hs := step_bound lr eps hlr heps s (clip maxNorm (grad target b s.logT)) hv h
      obtain ⟨hv', hm'⟩ := moments lr eps s (clip maxNorm (grad target b s.logT)) hv h
      have := ih (s.update lr eps maxNorm target b) hv' hm'
      simp only [List.foldl_cons, List.length_cons, Nat.cast_succ]
      have e : (bs.foldl (Temp.update lr eps maxNorm target) (s.update lr eps maxNorm target b)).logT - s.logT =
          ((bs.foldl (Temp.update lr eps maxNorm target) (s.update lr eps maxNorm target b)).logT -
            (s.update lr eps maxNorm target b).logT) + ((s.update lr eps maxNorm target b).logT - s.logT) := by ring
      rw [e]
      refine (abs_add_le _ _).trans ?_
      have hs' : |(s.update lr eps maxNorm target b).logT - s.logT| ≤ 73 * lr := hs
      linarith
  have := key batches (Temp.new initial) le_rfl (by simp [Temp.new])
  rw [abs_le] at this
  simp only [Temp.new] at this
  simp only [temperatureAfter, Temp.temperature]
  constructor
  · calc initial * Real.exp (-(73 * lr * batches.length))
        = Real.exp (Real.log initial + -(73 * lr * batches.length)) := by rw [Real.exp_add, Real.exp_log hi]
      _ ≤ _ := Real.exp_le_exp.2 (by simp only [Temp.new]; linarith)
  · calc _ ≤ Real.exp (Real.log initial + 73 * lr * batches.length) :=
        Real.exp_le_exp.2 (by simp only [Temp.new]; linarith)
      _ = _ := by rw [Real.exp_add, Real.exp_log hi]

/-- Adam's momentum: right after a change of sign, an update can still move the temperature the old way.  The first batch's
entropy is below the target, the second's above, and both updates raise the temperature. -/
theorem temperature_momentum : ∃ b1 b2 : List ℝ, entropyEstimate b1 < 0 ∧ 0 < entropyEstimate b2 ∧
    temperatureAfter 1e-3 1e-8 none (some 0) 1 [b1] < temperatureAfter 1e-3 1e-8 none (some 0) 1 [b1, b2] := by
  obtain ⟨s1, hs1⟩ : ∃ s, s = (Temp.new 1).update 1e-3 1e-8 none 0 [1] := ⟨_, rfl⟩
  refine ⟨[1], [-(0.1 * Real.exp (-s1.logT))], by simp [entropyEstimate, mean],
    by simp only [entropyEstimate, mean, List.sum_singleton, List.length_singleton]; 
       have := Real.exp_pos (-s1.logT); norm_num; linarith, ?_⟩
  simp only [temperatureAfter, Temp.temperature, List.foldl_cons, List.foldl_nil, ← hs1]
  apply Real.exp_lt_exp.2
  have hm1 : s1.m = -0.1 := by
    rw [hs1]
    simp only [Temp.update, adam, clip, grad, Temp.new, mean]
    norm_num
  obtain ⟨k, hk, hstep⟩ := adam_step 1e-3 1e-8 (by norm_num) (by norm_num) s1
    (clip none (grad 0 [-(0.1 * Real.exp (-s1.logT))] s1.logT))
  have hg : clip none (grad 0 [-(0.1 * Real.exp (-s1.logT))] s1.logT) = 0.1 := by
    simp only [clip]
    rw [grad_eq _ _ (by simp)]
    simp only [entropyEstimate, mean, List.sum_singleton, List.length_singleton]
    have : Real.exp s1.logT * Real.exp (-s1.logT) = 1 := by rw [← Real.exp_add]; simp
    norm_num
    linear_combination (1 / 10) * this
  have hm2 : (adam 1e-3 1e-8 s1 (clip none (grad 0 [-(0.1 * Real.exp (-s1.logT))] s1.logT))).m = -0.08 := by
    simp only [adam, hg, hm1]; norm_num
  rw [hm2] at hstep
  show s1.logT < (adam 1e-3 1e-8 s1 (clip none (grad 0 [-(0.1 * Real.exp (-s1.logT))] s1.logT))).logT
  rw [hstep]
  norm_num
  exact hk

/-- A batch whose entropy estimate is below the target `-1`: log probabilities 1 and 3. -/
example : entropyEstimate [1, 3] < -1 ∧ ([1, 3] : List ℝ) ≠ [] := by
  constructor
  · simp only [entropyEstimate, mean]; norm_num
  · simp

end Pfrl.Temperature
