import Verif.Value.Targets
import Mathlib.Probability.Distributions.Gaussian.Real

/-!
# Target policy smoothing of TD3 (C144)

Actions are functions from their coordinates.  Numbers are exact, and the numbers drawn by `torch.randn_like` are arguments.
-/

namespace Pfrl.Value.Smoothing

open MeasureTheory ProbabilityTheory
open Pfrl.Batch (Trans Out batchExperiences)

variable {ι : Type}

/-! ## Model -/

/-- `torch.clamp(x, low, high)`. -/
noncomputable def clamp (x low high : ℝ) : ℝ := min (max x low) high

/-- `default_target_policy_smoothing_func`, `pfrl/agents/td3.py:21-24`, for one row of the batch; `g` are the numbers drawn. -/
noncomputable def smooth (g action : ι → ℝ) : ι → ℝ :=
  let noise : ι → ℝ := fun i => clamp (0.2 * g i) (-0.5) 0.5
  fun i => clamp (action i + noise i) (-1) 1

/-- The targets of `TD3.update_q_func` with the default smoothing, `pfrl/agents/td3.py:181-206`; `g k` are the numbers drawn for row `k`. -/
noncomputable def targets {F A : Type} (policy : F → ι → ℝ) (g : ℕ → ι → ℝ) (q1 q2 : F → (ι → ℝ) → ℝ) (out : Out F A ℝ) : List ℝ :=
  td3Targets (fun _ => policy) (fun k => smooth (g k)) q1 q2 out

/-! ## Specification -/

/-- The action space `[low, high]`, the same in every coordinate. -/
def Spec.Box (low high : ℝ) (a : ι → ℝ) : Prop := ∀ i, low ≤ a i ∧ a i ≤ high

/-- The critic changes by at most `L` times the largest change of a coordinate of the action. -/
def Spec.Lipschitz {F : Type} (L : ℝ) (q : F → (ι → ℝ) → ℝ) : Prop := ∀ f a b ε, (∀ i, |a i - b i| ≤ ε) → |q f a - q f b| ≤ L * ε

/-! ## Lemmas -/

theorem clamp_mem {x low high : ℝ} (h : low ≤ high) : low ≤ clamp x low high ∧ clamp x low high ≤ high :=
  ⟨le_min (le_max_right _ _) h, min_le_right _ _⟩

theorem clamp_eq {x low high : ℝ} (h : low ≤ x ∧ x ≤ high) : clamp x low high = x := by
  rw [clamp, max_eq_left h.1, min_eq_left h.2]

theorem clamp_abs (x y low high : ℝ) : |clamp x low high - clamp y low high| ≤ |x - y| :=
  ((abs_min_sub_min_le_max _ _ _ _).trans (by rw [sub_self, abs_zero, max_eq_left (abs_nonneg _)])).trans (abs_max_sub_max_le_abs _ _ _)

theorem noise_abs (x : ℝ) : |clamp x (-0.5) 0.5| ≤ 1 / 2 := by
  have := clamp_mem (x := x) (low := -0.5) (high := 0.5) (by norm_num)
  rw [abs_le]
  norm_num at this ⊢
  exact this

theorem clamp_neg (x c : ℝ) (hc : 0 ≤ c) : clamp (-x) (-c) c = -clamp x (-c) c := by
  unfold clamp
  rcases le_total x c with h1 | h1 <;> rcases le_total (-c) x with h2 | h2
  · rw [max_eq_left (by linarith), min_eq_left (by linarith), max_eq_left h2, min_eq_left h1]
  · rw [max_eq_left (by linarith), min_eq_right (by linarith), max_eq_right h2, min_eq_left (by linarith), neg_neg]
  · rw [max_eq_right (by linarith), min_eq_left (by linarith), max_eq_left h2, min_eq_right h1]
  · rw [max_eq_right (by linarith), min_eq_left (by linarith), max_eq_left (by linarith), min_eq_right h1]

theorem clamp_continuous (low high : ℝ) : Continuous fun x => clamp x low high := (continuous_id.max continuous_const).min continuous_const

/-- The mean of an odd function of a standard normal number is 0. -/
theorem odd_mean {f : ℝ → ℝ} (hodd : ∀ x, f (-x) = -f x) : ∫ x, f x ∂gaussianReal 0 1 = 0 := by
  have h : (gaussianReal 0 1).map (fun x => -x) = gaussianReal 0 1 := by
    have := gaussianReal_map_neg (μ := 0) (v := 1)
    rwa [neg_zero] at this
  have e : ∫ x, f x ∂gaussianReal 0 1 = ∫ x, f (-x) ∂gaussianReal 0 1 := by
    conv_lhs => rw [← h]
    exact (MeasurableEquiv.neg ℝ).measurableEmbedding.integral_map _
  simp only [hodd, integral_neg] at e
  linarith

theorem backup_abs {S A : Type} {gamma : ℝ} (h0 : 0 ≤ gamma) (h1 : gamma ≤ 1) {V V' : S → ℝ} {d : ℝ} (hd : 0 ≤ d) (h : ∀ s, |V s - V' s| ≤ d)
    (exp : List (Trans S A ℝ)) : |Batch.Spec.backup gamma V exp - Batch.Spec.backup gamma V' exp| ≤ gamma * d := by
  have hgd := mul_nonneg h0 hd
  induction exp with
  | nil => simpa [Batch.Spec.backup] using hgd
  | cons t rest ih =>
    cases rest with
    | nil =>
      simp only [Batch.Spec.backup]
      by_cases ht : t.terminal = true
      · simpa [ht] using hgd
      · simp only [if_neg ht]
        rw [add_sub_add_left_eq_sub, ← mul_sub, abs_mul, abs_of_nonneg h0]
        exact mul_le_mul_of_nonneg_left (h _) h0
    | cons t' rest =>
      by_cases ht : t.terminal = true
      · simpa [Batch.Spec.backup, ht] using hgd
      simp only [Batch.Spec.backup, if_neg ht] at ih ⊢
      rw [add_sub_add_left_eq_sub, ← mul_sub, abs_mul, abs_of_nonneg h0]
      have := mul_le_mul_of_nonneg_left ih h0
      have := mul_le_mul_of_nonneg_right h1 hgd
      linarith

/-! ## C144 -/

/-- **C144 (valid actions, partial).** In the action space `[-1, 1]` the target action is valid and no coordinate is more than 1/2 away from that of the
target policy, whatever numbers are drawn.  Missing: other action spaces, see `smoothing_large` and `smoothing_small`. -/
theorem smoothing_valid_partial (g : ι → ℝ) {a : ι → ℝ} (ha : Spec.Box (-1) 1 a) :
    Spec.Box (-1) 1 (smooth g a) ∧ ∀ i, |smooth g a i - a i| ≤ 1 / 2 := by
  refine ⟨fun i => clamp_mem (by norm_num), fun i => ?_⟩
  have h := clamp_abs (a i + clamp (0.2 * g i) (-0.5) 0.5) (a i) (-1) 1
  rw [clamp_eq (ha i), add_sub_cancel_left] at h
  exact h.trans (noise_abs _)

/-- **C144 (size of the noise).** A coordinate at least 1/2 away from the bounds is moved by a fifth of the number drawn, or by 1/2 if that is more. -/
theorem smoothing_exact {g a : ι → ℝ} {i : ι} (ha : |a i| ≤ 1 / 2) :
    (|g i| ≤ 5 / 2 → smooth g a i = a i + g i / 5) ∧ (5 / 2 ≤ g i → smooth g a i = a i + 1 / 2) ∧ (g i ≤ -(5 / 2) → smooth g a i = a i - 1 / 2) := by
  have h := abs_le.1 ha
  have hs : ∀ n, clamp (0.2 * g i) (-0.5) 0.5 = n → -(1 / 2) ≤ n ∧ n ≤ 1 / 2 → smooth g a i = a i + n := fun n e hn => by
    change clamp (a i + clamp (0.2 * g i) (-0.5) 0.5) (-1) 1 = _
    rw [e]
    exact clamp_eq ⟨by linarith, by linarith⟩
  refine ⟨fun hg => ?_, fun hg => ?_, fun hg => ?_⟩
  · have h' := abs_le.1 hg
    refine hs _ ?_ ⟨by linarith, by linarith⟩
    rw [clamp_eq ⟨by norm_num; linarith, by norm_num; linarith⟩]
    ring
  · refine hs _ ?_ ⟨by norm_num, by norm_num⟩
    rw [clamp, max_eq_left (by norm_num; linarith), min_eq_right (by norm_num; linarith)]
    norm_num
  · rw [sub_eq_add_neg]
    refine hs _ ?_ ⟨by norm_num, by norm_num⟩
    rw [clamp, max_eq_right (by norm_num; linarith), min_eq_left (by norm_num)]
    norm_num

/-- **C144 (unbiased).** With standard normal numbers the mean of a coordinate of the target action is that of the target policy if it is at least 1/2
away from the bounds; near a bound the mean is moved inwards only, by at most 1/2. -/
theorem smoothing_mean {Ω : Type} [MeasurableSpace Ω] {P : Measure Ω} {g : Ω → ι → ℝ} {i : ι} (hm : Measurable fun ω => g ω i)
    (hg : P.map (fun ω => g ω i) = gaussianReal 0 1) {a : ι → ℝ} (ha : Spec.Box (-1) 1 a) :
    (|a i| ≤ 1 / 2 → ∫ ω, smooth (g ω) a i ∂P = a i) ∧
    (0 ≤ a i → a i - 1 / 2 ≤ ∫ ω, smooth (g ω) a i ∂P ∧ ∫ ω, smooth (g ω) a i ∂P ≤ a i) ∧
    (a i ≤ 0 → a i ≤ ∫ ω, smooth (g ω) a i ∂P ∧ ∫ ω, smooth (g ω) a i ∂P ≤ a i + 1 / 2) := by
  have hP : IsProbabilityMeasure P := by
    have : IsProbabilityMeasure (P.map fun ω => g ω i) := by rw [hg]; infer_instance
    exact Measure.isProbabilityMeasure_of_map fun ω => g ω i
  set n : ℝ → ℝ := fun x => clamp (0.2 * x) (-0.5) 0.5 with hn
  have hcont : Continuous n := (clamp_continuous _ _).comp (continuous_const.mul continuous_id)
  have hnb : ∀ x, ‖n x‖ ≤ 1 / 2 := fun x => noise_abs _
  have hint : Integrable (fun ω => n (g ω i)) P :=
    Integrable.of_bound (hcont.measurable.comp hm).aestronglyMeasurable (1 / 2) (Filter.Eventually.of_forall fun ω => hnb _)
  have hn0 : ∫ ω, n (g ω i) ∂P = 0 := by
    have e : ∫ ω, n (g ω i) ∂P = ∫ x, n x ∂(P.map fun ω => g ω i) := by
      rw [integral_map hm.aemeasurable hcont.aestronglyMeasurable]
    rw [e, hg]
    refine odd_mean fun x => ?_
    have := clamp_neg (0.2 * x) 0.5 (by norm_num)
    simp only [hn]
    rw [mul_neg, this]
  have hsc : Continuous fun x => clamp (a i + n x) (-1) 1 := (clamp_continuous _ _).comp (continuous_const.add hcont)
  have hsi : Integrable (fun ω => smooth (g ω) a i) P := by
    refine Integrable.of_bound (hsc.measurable.comp hm).aestronglyMeasurable 1 (Filter.Eventually.of_forall fun ω => ?_)
    have := (smoothing_valid_partial (g ω) ha).1 i
    rw [Real.norm_eq_abs, abs_le]
    exact this
  have hmean : ∫ ω, a i + n (g ω i) ∂P = a i := by
    rw [integral_add (integrable_const _) hint, hn0]
    simp
  have hlow : ∀ c, (∀ ω, c ≤ smooth (g ω) a i) → c ≤ ∫ ω, smooth (g ω) a i ∂P := fun c h => by
    have := integral_mono (integrable_const c) hsi h
    simpa using this
  have hup : ∀ c, (∀ ω, smooth (g ω) a i ≤ c) → ∫ ω, smooth (g ω) a i ∂P ≤ c := fun c h => by
    have := integral_mono hsi (integrable_const c) h
    simpa using this
  have hnear := fun ω => abs_le.1 ((smoothing_valid_partial (g ω) ha).2 i)
  have hnn := fun x => abs_le.1 (hnb x)
  refine ⟨fun h => ?_, fun h => ⟨hlow _ fun ω => by linarith [(hnear ω).1], ?_⟩, fun h => ⟨?_, hup _ fun ω => by linarith [(hnear ω).2]⟩⟩
  · rw [← hmean]
    refine integral_congr_ae (Filter.Eventually.of_forall fun ω => ?_)
    have h1 := abs_le.1 h
    have h2 := hnn (g ω i)
    change clamp (a i + n (g ω i)) (-1) 1 = a i + n (g ω i)
    exact clamp_eq ⟨by linarith, by linarith⟩
  · rw [← hmean]
    refine integral_mono hsi ((integrable_const _).add hint) fun ω => ?_
    have h2 := hnn (g ω i)
    change clamp (a i + n (g ω i)) (-1) 1 ≤ a i + n (g ω i)
    rw [clamp, max_eq_left (by linarith)]
    exact min_le_left _ _
  · rw [← hmean]
    refine integral_mono ((integrable_const _).add hint) hsi fun ω => ?_
    have h2 := hnn (g ω i)
    change a i + n (g ω i) ≤ clamp (a i + n (g ω i)) (-1) 1
    rw [clamp]
    exact le_min (le_max_left _ _) (by linarith)

/-- **C144 (targets, partial).** In the action space `[-1, 1]`, with critics that change by at most `L` per unit of the action, smoothing moves a target by
at most `gamma L / 2` from the backup with the smaller critic at the action of the target policy.  Missing: other action spaces, see
`smoothing_large`. -/
theorem smoothing_targets_partial {S F A : Type} (phi : S → F) {gamma L : ℝ} (h0 : 0 ≤ gamma) (h1 : gamma ≤ 1) (hL : 0 ≤ L) {exps : List (List (Trans S A ℝ))}
    (hne : exps ≠ []) (hexp : ∀ e ∈ exps, e ≠ []) {policy : F → ι → ℝ} (hp : ∀ f, Spec.Box (-1) 1 (policy f)) (g : ℕ → ι → ℝ)
    {q1 q2 : F → (ι → ℝ) → ℝ} (hq1 : Spec.Lipschitz L q1) (hq2 : Spec.Lipschitz L q2) :
    ∃ out, batchExperiences phi gamma exps = .ok out ∧ (targets policy g q1 q2 out).length = exps.length ∧
      ∀ (k : ℕ) (exp : List (Trans S A ℝ)), exps[k]? = some exp → Batch.Spec.TerminalOnlyLast exp → ∃ y, (targets policy g q1 q2 out)[k]? = some y ∧
        |y - Batch.Spec.backup gamma (fun s => min (q1 (phi s) (policy (phi s))) (q2 (phi s) (policy (phi s)))) exp| ≤ gamma * (L / 2) := by
  obtain ⟨out, e1, e2, e3⟩ := td3_targets phi gamma hne hexp (fun _ => policy) (fun k => smooth (g k)) q1 q2
  refine ⟨out, e1, e2, fun k exp hk hl => ⟨_, e3 k exp hk hl, backup_abs h0 h1 (by linarith) (fun s => ?_) exp⟩⟩
  have h := (smoothing_valid_partial (g k) (hp (phi s))).2
  refine (abs_min_sub_min_le_max _ _ _ _).trans (max_le ?_ ?_)
  · have := hq1 (phi s) _ _ _ h
    linarith
  · have := hq2 (phi s) _ _ _ h
    linarith

/-! ## Limits -/

/-- In larger action spaces the target is never computed at the action of the target policy, nor near it: any coordinate of at least 3/2 becomes 1. -/
theorem smoothing_large (g : ι → ℝ) {a : ι → ℝ} {i : ι} (ha : 3 / 2 ≤ a i) : smooth g a i = 1 ∧ a i - smooth g a i ≥ 1 / 2 := by
  have h : smooth g a i = 1 := by
    have := abs_le.1 (noise_abs (0.2 * g i))
    change clamp (a i + clamp (0.2 * g i) (-0.5) 0.5) (-1) 1 = 1
    rw [clamp, max_eq_left (by linarith), min_eq_right (by linarith)]
  exact ⟨h, by rw [h]; linarith⟩

/-- In the action space `[-2, 2]` with the value of an action equal to its only coordinate, and a target policy that takes the best action 2, the target
of a transition without reward is `gamma` instead of `2 gamma`, whatever numbers are drawn. -/
theorem smoothing_large_targets (gamma : ℝ) (g : ℕ → Unit → ℝ) : ∃ out,
    batchExperiences id gamma [[(⟨(), (), 0, (), none, false⟩ : Trans Unit Unit ℝ)]] = .ok out ∧
    targets (fun _ _ => 2) g (fun _ a => a ()) (fun _ a => a ()) out = [gamma] := by
  obtain ⟨out, e1, e2, e3⟩ := td3_targets id gamma (exps := [[(⟨(), (), 0, (), none, false⟩ : Trans Unit Unit ℝ)]]) (by simp) (by simp)
    (fun _ (_ : Unit) (_ : Unit) => (2 : ℝ)) (fun k => smooth (g k)) (fun _ a => a ()) (fun _ a => a ())
  refine ⟨out, e1, ?_⟩
  have h := e3 0 _ rfl (by simp [Batch.Spec.TerminalOnlyLast])
  have hs : ∀ k, smooth (g k) (fun _ => 2) () = 1 := fun k => (smoothing_large (g k) (a := fun _ => (2 : ℝ)) (by norm_num)).1
  obtain ⟨y, hy⟩ := List.length_eq_one_iff.1 e2
  change td3Targets _ _ _ _ _ = _
  rw [hy] at h ⊢
  simpa [Batch.Spec.backup, hs] using h

/-- In smaller action spaces target actions may be outside: in `[-0.4, 0.4]` an action of 0.4 may become 0.9. -/
theorem smoothing_small : ∃ g a : Unit → ℝ, Spec.Box (-0.4) 0.4 a ∧ smooth g a () = 0.9 ∧ ¬ Spec.Box (-0.4) 0.4 (smooth g a) := by
  have h : smooth (fun _ : Unit => (10 : ℝ)) (fun _ => 0.4) () = 0.9 := by
    simp only [smooth, clamp]
    norm_num
  refine ⟨fun _ => 10, fun _ => 0.4, fun i => by norm_num, h, fun hb => ?_⟩
  have := (hb ()).2
  rw [h] at this
  norm_num at this

/-! ## Non-vacuity -/

/-- A coordinate of 1/4 with a draw of 1. -/
example : smooth (fun _ : Unit => 1) (fun _ => 1 / 4) () = 9 / 20 := by
  rw [(smoothing_exact (by rw [abs_of_nonneg] <;> norm_num)).1 (by norm_num)]
  norm_num

/-- A coordinate of 1/4 is kept on average, with standard normal numbers. -/
example : ∫ ω, smooth (fun _ : Unit => ω) (fun _ => 1 / 4) () ∂gaussianReal 0 1 = 1 / 4 :=
  (smoothing_mean (P := gaussianReal 0 1) (g := fun ω (_ : Unit) => ω) (i := ()) measurable_id Measure.map_id (a := fun _ => 1 / 4)
    (fun _ => by norm_num)).1 (by rw [abs_of_nonneg] <;> norm_num)

/-- Two critics and a transition: the target is within 9/20 of `1 + 0.9 * min (0.5) (1)`. -/
example (g : ℕ → Unit → ℝ) : ∃ out, batchExperiences id 0.9 [[(⟨(), (), 1, (), none, false⟩ : Trans Unit Unit ℝ)]] = .ok out ∧
    ∃ y : ℝ, (targets (fun _ _ => 0.5) g (fun _ a => a ()) (fun _ _ => 1) out)[0]? = some y ∧ |y - 1.45| ≤ 0.45 := by
  obtain ⟨out, h1, _, h3⟩ := smoothing_targets_partial (ι := Unit) id (gamma := 0.9) (L := 1) (by norm_num) (by norm_num) zero_le_one
    (exps := [[(⟨(), (), 1, (), none, false⟩ : Trans Unit Unit ℝ)]]) (by simp) (by simp) (policy := fun _ _ => 0.5) (fun _ _ => by norm_num) g
    (q1 := fun _ a => a ()) (q2 := fun _ _ => 1) (fun _ a b ε h => by simpa using h ()) (fun _ a b ε h => by
      have := (abs_nonneg _).trans (h ())
      simpa using this)
  obtain ⟨y, e1, e2⟩ := h3 0 _ rfl (by simp [Batch.Spec.TerminalOnlyLast])
  refine ⟨out, h1, y, e1, ?_⟩
  norm_num [Batch.Spec.backup] at e2 ⊢
  exact e2

end Pfrl.Value.Smoothing
