import Verif.Returns.Disc
import Mathlib.Analysis.SpecialFunctions.Pow.Real
import Mathlib.Algebra.BigOperators.Ring.Finset
import Mathlib.Algebra.Order.BigOperators.Ring.Finset
import Mathlib.Tactic.Linarith
import Mathlib.Tactic.FieldSimp

/-!
# ACER: Retrace targets, trust region, bias correction (C28, C29, C68)
-/

namespace Pfrl.Returns

open Finset

set_option linter.unusedSectionVars false

/-! ## Model of `compute_loss` -/

/-- What one iteration of the loop reads, `pfrl/agents/acer.py:485-500,517`: the reward, the predicted
value and action value, and the importance ratio (`none`: on-policy, no `mu`). -/
structure AcerStep where
  reward : ℝ
  v : ℝ
  q : ℝ
  rho : Option ℝ

/-- Arguments that matter; `numel` is the number of components of an action. -/
structure AcerCfg where
  gamma : ℝ
  discrete : Bool
  numel : ℕ
  useQopc : Bool

/-- What one iteration feeds to the losses, `pfrl/agents/acer.py:507-528`: the advantage of the policy
loss, the target of the Q-function and the target of the V-function (used only if not discrete). -/
structure AcerTargets where
  advantage : ℝ
  qTarget : ℝ
  vTarget : ℝ

/-- `rho`, `pfrl/agents/acer.py:495-500`. -/
def AcerStep.ratio (s : AcerStep) : ℝ := s.rho.getD 1

/-- `c`, `pfrl/agents/acer.py:540-543`. -/
noncomputable def AcerCfg.trace (c : AcerCfg) (s : AcerStep) : ℝ :=
  if c.discrete then min 1 s.ratio else min 1 (s.ratio ^ (1 / (c.numel : ℝ)))

/-- The loop of `compute_loss`, `pfrl/agents/acer.py:484-545`, over the reversed steps; the results are
collected in the order of time. -/
noncomputable def acerLoop (c : AcerCfg) : List AcerStep → ℝ → ℝ → List AcerTargets → List AcerTargets
  | [], _, _, acc => acc
  | s :: rest, qRet, qOpc, acc =>
    let qRet := s.reward + c.gamma * qRet
    let qOpc := s.reward + c.gamma * qOpc
    let advantage := if c.useQopc then qOpc - s.v else qRet - s.v
    let vTarget := min 1 s.ratio * (qRet - s.q) + s.v
    acerLoop c rest (c.trace s * (qRet - s.q) + s.v) (qOpc - s.q + s.v)
      (⟨advantage, qRet, vTarget⟩ :: acc)

/-- `compute_loss(t_start, t_stop, R, …)`, `pfrl/agents/acer.py:461-552`: the targets that enter the
losses (the losses themselves, which are minimised through a network, are not modelled). -/
noncomputable def acerTargets (c : AcerCfg) (R : ℝ) (steps : List AcerStep) : List AcerTargets :=
  acerLoop c steps.reverse R R []

/-! ## Specification -/

/-- Temporal difference errors `r_k + γ V_{k+1} - Q_k`, with `V` after the last step given. -/
def Spec.acerTd (γ R : ℝ) : List AcerStep → List ℝ
  | [] => []
  | s :: rest => (s.reward + γ * (rest.head?.map AcerStep.v).getD R - s.q) :: Spec.acerTd γ R rest

/-- The Retrace expansion for the first of `steps`:
`Q_0 + ∑_k γ^k c_1 ⋯ c_k (r_k + γ V_{k+1} - Q_k)`. -/
def Spec.retrace (γ R : ℝ) (c : AcerStep → ℝ) (steps : List AcerStep) : ℝ :=
  (steps.head?.map AcerStep.q).getD 0 +
    ∑ k ∈ range steps.length,
      γ ^ k * ((steps.tail.take k).map c).prod * (Spec.acerTd γ R steps).getD k 0

/-! ## Lemmas -/

theorem retrace_cons (γ R : ℝ) (c : AcerStep → ℝ) (s s' : AcerStep) (rest : List AcerStep) :
    Spec.retrace γ R c (s :: s' :: rest)
      = s.reward + γ * (c s' * (Spec.retrace γ R c (s' :: rest) - s'.q) + s'.v) := by
  unfold Spec.retrace
  rw [List.length_cons, sum_range_succ']
  simp only [List.head?_cons, Option.map_some, Option.getD_some, List.tail_cons, List.take_succ_cons,
    List.map_cons, List.prod_cons, List.take_zero, List.map_nil, List.prod_nil, pow_zero, one_mul,
    Spec.acerTd, List.getD_cons_succ, List.getD_cons_zero]
  have : ∀ k, γ ^ (k + 1) * (c s' * ((rest.take k).map c).prod)
        * (((s'.reward + γ * (rest.head?.map AcerStep.v).getD R - s'.q) :: Spec.acerTd γ R rest).getD k 0)
      = γ * c s' * (γ ^ k * ((rest.take k).map c).prod
        * (((s'.reward + γ * (rest.head?.map AcerStep.v).getD R - s'.q)
            :: Spec.acerTd γ R rest).getD k 0)) := by
    intro k; ring
  simp only [this, ← mul_sum]
  ring

theorem retrace_single (γ R : ℝ) (c : AcerStep → ℝ) (s : AcerStep) :
    Spec.retrace γ R c [s] = s.reward + γ * R := by
  simp [Spec.retrace, Spec.acerTd]

/-- What the loop carries into the step before `later`. -/
noncomputable def carry (γ R : ℝ) (c : AcerStep → ℝ) (later : List AcerStep) : ℝ :=
  match later with
  | [] => R
  | s :: rest => c s * (Spec.retrace γ R c (s :: rest) - s.q) + s.v

theorem retrace_eq_carry (γ R : ℝ) (c : AcerStep → ℝ) (s : AcerStep) (later : List AcerStep) :
    Spec.retrace γ R c (s :: later) = s.reward + γ * carry γ R c later := by
  cases later with
  | nil => exact retrace_single γ R c s
  | cons s' rest => exact retrace_cons γ R c s s' rest

/-- The targets of all steps, by the specification. -/
noncomputable def specTargets (c : AcerCfg) (R : ℝ) (steps : List AcerStep) : List AcerTargets :=
  (List.range steps.length).map fun i =>
    let s := steps.getD i ⟨0, 0, 0, none⟩
    let ret := Spec.retrace c.gamma R c.trace (steps.drop i)
    let opc := Spec.retrace c.gamma R (fun _ => 1) (steps.drop i)
    ⟨(if c.useQopc then opc else ret) - s.v, ret, min 1 s.ratio * (ret - s.q) + s.v⟩

theorem specTargets_cons (c : AcerCfg) (R : ℝ) (s : AcerStep) (steps : List AcerStep) :
    specTargets c R (s :: steps)
      = ⟨(if c.useQopc then Spec.retrace c.gamma R (fun _ => 1) (s :: steps)
            else Spec.retrace c.gamma R c.trace (s :: steps)) - s.v,
          Spec.retrace c.gamma R c.trace (s :: steps),
          min 1 s.ratio * (Spec.retrace c.gamma R c.trace (s :: steps) - s.q) + s.v⟩
        :: specTargets c R steps := by
  unfold specTargets
  rw [List.length_cons, List.range_succ_eq_map, List.map_cons, List.map_map]
  rfl

theorem acerLoop_spec (c : AcerCfg) (R : ℝ) : ∀ (rev later : List AcerStep),
    acerLoop c rev (carry c.gamma R c.trace later) (carry c.gamma R (fun _ => 1) later)
        (specTargets c R later)
      = specTargets c R (rev.reverse ++ later) := by
  intro rev
  induction rev with
  | nil => intro later; rfl
  | cons s rev ih =>
    intro later
    have := ih (s :: later)
    rw [List.reverse_cons, List.append_assoc, List.singleton_append, ← this, specTargets_cons]
    have hc : ∀ c' : AcerStep → ℝ, carry c.gamma R c' (s :: later)
        = c' s * (Spec.retrace c.gamma R c' (s :: later) - s.q) + s.v := fun _ => rfl
    simp only [acerLoop, hc, ← retrace_eq_carry, one_mul]
    cases c.useQopc <;> rfl

/-! ## C28 -/

/-- **C28.** Whatever the trajectory, rewards, predicted values, importance ratios and bootstrap value
`R`: the target of the Q-function at each step is the Retrace expansion
`Q_i + ∑_k γ^k c_{i+1} ⋯ c_{i+k} (r_{i+k} + γ V_{i+k+1} - Q_{i+k})` with the truncated ratios `c`; the
advantage is that target (or, with `use_Q_opc`, the same expansion without truncated ratios) minus the
value. -/
theorem acer_targets_retrace (c : AcerCfg) (R : ℝ) (steps : List AcerStep) :
    acerTargets c R steps
      = (List.range steps.length).map fun i =>
          let s := steps.getD i ⟨0, 0, 0, none⟩
          let ret := Spec.retrace c.gamma R c.trace (steps.drop i)
          let opc := Spec.retrace c.gamma R (fun _ => 1) (steps.drop i)
          ⟨(if c.useQopc then opc else ret) - s.v, ret, min 1 s.ratio * (ret - s.q) + s.v⟩ := by
  have := acerLoop_spec c R steps.reverse []
  simp only [carry, List.append_nil, List.reverse_reverse] at this
  exact this

/-- The traces are 1 where the ratio is at least 1, in particular for on-policy data, and they are 0
where the ratio is 0. -/
theorem acer_trace (c : AcerCfg) (hn : 1 ≤ c.numel) (s : AcerStep) :
    (1 ≤ s.ratio → c.trace s = 1) ∧ (s.rho = none → c.trace s = 1) ∧
      (s.ratio = 0 → c.trace s = 0) ∧ (0 ≤ s.ratio → 0 ≤ c.trace s ∧ c.trace s ≤ 1) := by
  have hpos : (0 : ℝ) < 1 / (c.numel : ℝ) := by
    have : (1 : ℝ) ≤ (c.numel : ℝ) := by exact_mod_cast hn
    positivity
  have h1 : 1 ≤ s.ratio → c.trace s = 1 := by
    intro h
    unfold AcerCfg.trace
    split
    · exact min_eq_left h
    · exact min_eq_left (Real.one_le_rpow h hpos.le)
  refine ⟨h1, ?_, ?_, ?_⟩
  · intro h; exact h1 (by simp [AcerStep.ratio, h])
  · intro h
    unfold AcerCfg.trace
    rw [h]
    split
    · exact min_eq_right zero_le_one
    · rw [Real.zero_rpow hpos.ne']; exact min_eq_right zero_le_one
  · intro h
    unfold AcerCfg.trace
    split
    · exact ⟨le_min zero_le_one h, min_le_left _ _⟩
    · exact ⟨le_min zero_le_one (Real.rpow_nonneg h _), min_le_left _ _⟩

/-- With traces 1 and action values equal to the values, the target is the n-step return. -/
theorem retrace_n_step (γ R : ℝ) (c : AcerStep → ℝ) (steps : List AcerStep) (hne : steps ≠ [])
    (hc : ∀ s ∈ steps, c s = 1) (hq : ∀ s ∈ steps, s.q = s.v) :
    Spec.retrace γ R c steps
      = Spec.disc γ (steps.map AcerStep.reward) + γ ^ steps.length * R := by
  induction steps with
  | nil => exact absurd rfl hne
  | cons s rest ih =>
    cases rest with
    | nil => rw [retrace_single]; simp
    | cons s' rest =>
      rw [retrace_cons, ih (by simp) (fun x hx => hc x (by simp [hx])) (fun x hx => hq x (by simp [hx])),
        hc s' (by simp), hq s' (by simp), List.map_cons (a := s), disc_cons, List.length_cons (a := s),
        pow_succ]
      ring

/-- With traces 0 the target is the one-step target bootstrapped from the next value. -/
theorem retrace_one_step (γ R : ℝ) (c : AcerStep → ℝ) (s : AcerStep) (rest : List AcerStep)
    (hc : ∀ s ∈ rest, c s = 0) :
    Spec.retrace γ R c (s :: rest) = s.reward + γ * (rest.head?.map AcerStep.v).getD R := by
  cases rest with
  | nil => exact retrace_single γ R c s
  | cons s' rest => rw [retrace_cons, hc s' (by simp)]; simp

/-- If the predicted action values already satisfy `Q_k = r_k + γ V_{k+1}` along the trajectory, the
target is the predicted action value, whatever the ratios. -/
theorem retrace_fixed_point (γ R : ℝ) (c : AcerStep → ℝ) (s : AcerStep) (rest : List AcerStep)
    (h : ∀ d ∈ Spec.acerTd γ R (s :: rest), d = 0) : Spec.retrace γ R c (s :: rest) = s.q := by
  unfold Spec.retrace
  rw [sum_eq_zero]
  · simp
  · intro k _
    have : (Spec.acerTd γ R (s :: rest)).getD k 0 = 0 := by
      rw [List.getD_eq_getElem?_getD]
      cases hk : (Spec.acerTd γ R (s :: rest))[k]? with
      | none => rfl
      | some d => exact h d (List.mem_of_getElem? hk)
    rw [this, mul_zero]

/-- Two off-policy steps with ratios 1/2 and 4. -/
example : (acerTargets ⟨1, true, 1, false⟩ 10 [⟨1, 2, 3, some (1/2)⟩, ⟨4, 5, 6, some 4⟩]).map
    AcerTargets.qTarget = [14, 14] := by
  norm_num [acerTargets, acerLoop, AcerCfg.trace, AcerStep.ratio]

/-! ## Model of `compute_loss_with_kl_constraint` -/

variable {ι : Type _} [Fintype ι] {K : Type _} [Field K] [LinearOrder K] [IsStrictOrderedRing K]

/-- The inner product `sum(torch.dot(...))`, `pfrl/agents/acer.py:234-235`, over all components of all
distribution parameters (the index type stands for "component of parameter"). -/
def vdot (x y : ι → K) : K := ∑ i, x i * y i

/-- `k_factor`, `pfrl/agents/acer.py:236-239`. -/
def kFactor (g k : ι → K) (delta : K) : K :=
  if 0 < vdot k k then max 0 ((vdot k g - delta) / vdot k k) else 0

/-- `z`, `pfrl/agents/acer.py:240`: the gradient that the new loss has with respect to the parameters of
the distribution. -/
def trustRegionStep (g k : ι → K) (delta : K) : ι → K := fun i => g i - kFactor g k delta * k i

/-! ## C29 -/

theorem vdot_self_nonneg (x : ι → K) : 0 ≤ vdot x x :=
  sum_nonneg fun i _ => mul_self_nonneg (x i)

theorem vdot_self_eq_zero {x : ι → K} (h : vdot x x = 0) : x = 0 := by
  funext i
  have := (sum_eq_zero_iff_of_nonneg fun i _ => mul_self_nonneg (x i)).mp h i (mem_univ i)
  exact mul_self_eq_zero.mp this

theorem vdot_sub_smul (k g : ι → K) (f : K) :
    vdot k (fun i => g i - f * k i) = vdot k g - f * vdot k k := by
  unfold vdot
  rw [mul_sum, ← sum_sub_distrib]
  exact sum_congr rfl fun i _ => by ring

/-- `trust_region_projection` in terms of `vdot`. -/
theorem trust_region_vdot (g k : ι → K) (delta : K) (hfeas : ∃ y, vdot k y ≤ delta) :
    vdot k (trustRegionStep g k delta) ≤ delta ∧
      (∀ y, vdot k y ≤ delta → y ≠ trustRegionStep g k delta →
        ∑ i, (trustRegionStep g k delta i - g i) ^ 2 < ∑ i, (y i - g i) ^ 2) ∧
      (vdot k g ≤ delta → trustRegionStep g k delta = g) := by
  -- the factor, and what it satisfies
  have hf : 0 ≤ kFactor g k delta ∧ vdot k g - kFactor g k delta * vdot k k ≤ delta ∧
      kFactor g k delta * (vdot k g - kFactor g k delta * vdot k k - delta) = 0 ∧
      (vdot k g ≤ delta → kFactor g k delta = 0) := by
    unfold kFactor
    by_cases hkk : 0 < vdot k k
    · rw [if_pos hkk]
      have hle : (vdot k g ≤ delta ↔ (vdot k g - delta) / vdot k k ≤ 0) := by
        rw [div_le_iff₀ hkk, zero_mul, sub_nonpos]
      have hmul : (vdot k g - delta) / vdot k k * vdot k k = vdot k g - delta :=
        div_mul_cancel₀ _ hkk.ne'
      by_cases hg : vdot k g ≤ delta
      · rw [max_eq_left (hle.mp hg)]
        exact ⟨le_refl _, by simpa using hg, by simp, fun _ => rfl⟩
      · have h0 : 0 ≤ (vdot k g - delta) / vdot k k := by
          by_contra hc
          exact hg (hle.mpr (not_le.mp hc).le)
        rw [max_eq_right h0]
        refine ⟨h0, ?_, ?_, fun h => absurd h hg⟩
        · rw [hmul]; linarith
        · rw [hmul]; ring
    · rw [if_neg hkk]
      have hk0 : k = 0 := vdot_self_eq_zero (le_antisymm (not_lt.mp hkk) (vdot_self_nonneg k))
      obtain ⟨y, hy⟩ := hfeas
      have : vdot k y = 0 := by rw [hk0]; simp [vdot]
      have hd : 0 ≤ delta := this ▸ hy
      have hg0 : vdot k g = 0 := by rw [hk0]; simp [vdot]
      exact ⟨le_refl _, by rw [hg0]; simpa using hd, by simp, fun _ => rfl⟩
  obtain ⟨f0, f1, f2, f3⟩ := hf
  have hkz : vdot k (trustRegionStep g k delta) = vdot k g - kFactor g k delta * vdot k k :=
    vdot_sub_smul k g _
  refine ⟨by rw [hkz]; exact f1, ?_, ?_⟩
  · intro y hy hne
    have hexp : ∑ i, (y i - g i) ^ 2 = ∑ i, (trustRegionStep g k delta i - g i) ^ 2
        + ∑ i, (y i - trustRegionStep g k delta i) ^ 2
        + 2 * kFactor g k delta * (vdot k (trustRegionStep g k delta) - vdot k y) := by
      unfold vdot
      rw [← sum_sub_distrib, mul_sum, ← sum_add_distrib, ← sum_add_distrib]
      apply sum_congr rfl
      intro i _
      simp only [trustRegionStep]
      ring
    have hpos : 0 < ∑ i, (y i - trustRegionStep g k delta i) ^ 2 := by
      have hnn : 0 ≤ ∑ i, (y i - trustRegionStep g k delta i) ^ 2 :=
        sum_nonneg fun i _ => sq_nonneg _
      rcases hnn.lt_or_eq with h | h
      · exact h
      · exfalso
        apply hne
        funext i
        have := (sum_eq_zero_iff_of_nonneg fun i _ => sq_nonneg _).mp h.symm i (mem_univ i)
        exact sub_eq_zero.mp (pow_eq_zero_iff (two_ne_zero)|>.mp this)
    have hcross : 0 ≤ kFactor g k delta * (vdot k (trustRegionStep g k delta) - vdot k y) := by
      have e : kFactor g k delta * (vdot k (trustRegionStep g k delta) - vdot k y)
          = kFactor g k delta * (delta - vdot k y)
            + kFactor g k delta * (vdot k g - kFactor g k delta * vdot k k - delta) := by
        rw [hkz]; ring
      rw [e, f2, add_zero]
      exact mul_nonneg f0 (sub_nonneg.mpr hy)
    rw [hexp]
    linarith
  · intro h
    funext i
    simp [trustRegionStep, f3 h]

/-- **C29.** Whatever the gradients `g` and `k` and the threshold, as long as some vector satisfies the
constraint `k·y ≤ δ` (always, unless `k = 0` and `δ < 0`): the adjusted gradient satisfies it; it is
strictly closer to `g` than any other vector that satisfies it; and it is `g` itself if `g` satisfies
it. -/
theorem trust_region_projection (g k : ι → K) (delta : K) (hfeas : ∃ y : ι → K, ∑ i, k i * y i ≤ delta) :
    ∑ i, k i * trustRegionStep g k delta i ≤ delta ∧
      (∀ y, ∑ i, k i * y i ≤ delta → y ≠ trustRegionStep g k delta →
        ∑ i, (trustRegionStep g k delta i - g i) ^ 2 < ∑ i, (y i - g i) ^ 2) ∧
      (∑ i, k i * g i ≤ delta → trustRegionStep g k delta = g) :=
  trust_region_vdot g k delta hfeas

/-- `g = (3, 4)`, `k = (1, 0)`, `δ = 1`: the step is `(1, 4)`. -/
example : trustRegionStep (K := ℚ) ![3, 4] ![1, 0] 1 = ![1, 4] := by
  funext i
  fin_cases i <;> simp [trustRegionStep, kFactor, vdot, Fin.sum_univ_two]

/-! ## Model of the off-policy policy gradient -/

/-- `correction_weight` for one action, `pfrl/agents/acer.py:38-41`:
`relu(1 - threshold * (mu/pi)) * pi`. -/
def correctionWeight (threshold pi mu : K) : K := max (1 - threshold * (mu / pi)) 0 * pi

/-- The coefficient of `-log_prob(action)` in the off-policy loss with truncation,
`pfrl/agents/acer.py:91-97`: `min(threshold, rho) * advantage`. -/
def truncatedWeight (threshold pi mu : K) : K := min threshold (pi / mu)

/-- The weight in `compute_policy_gradient_sample_correction`, `pfrl/agents/acer.py:56-67`, for the
action sampled from `pi`. -/
def sampleCorrectionWeight (threshold pi mu : K) : K :=
  if 0 < threshold ∧ 1 / threshold ≤ mu / pi then 0 else max 0 (1 - threshold * (mu / pi))

/-- Coefficients of `-log_prob(a)` in the loss of one off-policy sample whose action is `x`,
`compute_policy_gradient_loss`, `pfrl/agents/acer.py:84-111`, for a categorical policy: the truncated
term for the action taken, the full correction for every action.  The advantage of the action taken is
passed by the caller, the correction uses `Q(a) - v`. -/
def acerGradCoef [DecidableEq ι] (threshold : K) (pi mu q : ι → K) (v advantage : K) (x a : ι) : K :=
  (if a = x then truncatedWeight threshold (pi x) (mu x) * advantage else 0)
    + correctionWeight threshold (pi a) (mu a) * (q a - v)

/-! ## C68 -/

omit [Fintype ι] in
theorem weights_add_up (threshold pi mu : K) (hpi : 0 < pi) (hmu : 0 < mu) :
    mu * truncatedWeight threshold pi mu + correctionWeight threshold pi mu = pi := by
  unfold truncatedWeight correctionWeight
  have hm : mu * (pi / mu) = pi := by field_simp
  have hp : mu / pi * pi = mu := by field_simp
  rcases le_total threshold (pi / mu) with h | h
  · rw [min_eq_left h, max_eq_left]
    · rw [sub_mul, one_mul, mul_assoc, hp]; ring
    · have : threshold * (mu / pi) ≤ 1 := by
        calc threshold * (mu / pi) ≤ pi / mu * (mu / pi) :=
              mul_le_mul_of_nonneg_right h (div_pos hmu hpi).le
          _ = 1 := by field_simp
      linarith
  · rw [min_eq_right h, hm, max_eq_right]
    · ring
    · have : 1 ≤ threshold * (mu / pi) := by
        calc (1 : K) = pi / mu * (mu / pi) := by field_simp
          _ ≤ threshold * (mu / pi) := mul_le_mul_of_nonneg_right h (div_pos hmu hpi).le
      linarith

/-- **C68.** For every number of actions, current and behaviour policy with positive probabilities,
action values and truncation threshold: averaged over the action drawn from the behaviour policy `mu`,
the truncated term plus the bias correction weigh each action by exactly its probability under the
current policy times its advantage, when the advantage of the action taken is its `Q - v`.  Truncation
adds no bias. -/
theorem acer_bias_correction_exact [DecidableEq ι] (threshold : K) (pi mu q : ι → K) (v : K)
    (hpi : ∀ a, 0 < pi a) (hmu : ∀ a, 0 < mu a) (hsum : ∑ a, mu a = 1) (a : ι) :
    ∑ x, mu x * acerGradCoef threshold pi mu q v (q x - v) x a = pi a * (q a - v) := by
  unfold acerGradCoef
  simp only [mul_add, sum_add_distrib, mul_ite, mul_zero]
  rw [sum_ite_eq univ a, if_pos (mem_univ a), ← sum_mul, hsum, one_mul]
  conv_rhs => rw [← weights_add_up threshold (pi a) (mu a) (hpi a) (hmu a)]
  ring

omit [Fintype ι] in
/-- **C68, the weights are bounded.** The coefficient of the action taken never exceeds the threshold, the correction of an
action never exceeds its probability, and where the ratio is at most the threshold nothing is truncated or
corrected. -/
theorem acer_weights_bounded (threshold pi mu : K) (ht : 0 ≤ threshold) (hpi : 0 < pi) (hmu : 0 < mu) :
    0 ≤ truncatedWeight threshold pi mu ∧ truncatedWeight threshold pi mu ≤ threshold ∧
      0 ≤ correctionWeight threshold pi mu ∧ correctionWeight threshold pi mu ≤ pi ∧
      (pi / mu ≤ threshold → truncatedWeight threshold pi mu = pi / mu ∧ correctionWeight threshold pi mu = 0) := by
  have h1 : 0 ≤ truncatedWeight threshold pi mu := le_min ht (div_pos hpi hmu).le
  have h3 : 0 ≤ correctionWeight threshold pi mu := mul_nonneg (le_max_right _ _) hpi.le
  have h := weights_add_up threshold pi mu hpi hmu
  refine ⟨h1, min_le_left _ _, h3, ?_, fun hle => ?_⟩
  · have := mul_nonneg hmu.le h1
    linarith
  · have ht : truncatedWeight threshold pi mu = pi / mu := min_eq_right hle
    refine ⟨ht, ?_⟩
    rw [ht, mul_div_cancel₀ _ hmu.ne'] at h
    linarith

omit [Fintype ι] in
/-- The correction for one sampled action uses the same weight, per unit of probability, as the full
correction, so its average over actions drawn from the current policy is the full correction. -/
theorem sample_correction_matches_full (threshold pi mu : K) :
    pi * sampleCorrectionWeight threshold pi mu = correctionWeight threshold pi mu := by
  unfold sampleCorrectionWeight correctionWeight
  split
  · rename_i h
    have : 1 ≤ threshold * (mu / pi) := by
      have := mul_le_mul_of_nonneg_left h.2 h.1.le
      rwa [mul_one_div, div_self h.1.ne'] at this
    rw [max_eq_right (by linarith)]
    ring
  · rw [max_comm, mul_comm]

/-- Ratio 4, threshold 2: the weight is 2, and half of the probability is left to the correction. -/
example : truncatedWeight (2 : ℚ) (1 / 2) (1 / 8) = 2 ∧ correctionWeight (2 : ℚ) (1 / 2) (1 / 8) = 1 / 4 := by
  constructor <;> norm_num [truncatedWeight, correctionWeight]

/-- Three actions; the second has ratio 4, truncated at 2. -/
example : ∑ x, (![1/2, 1/8, 3/8] : Fin 3 → ℚ) x *
    acerGradCoef 2 ![1/4, 1/2, 1/4] ![1/2, 1/8, 3/8] ![1, 2, 3] 1 ((![1, 2, 3] : Fin 3 → ℚ) x - 1) x 1
    = 1/2 := by
  rw [acer_bias_correction_exact]
  · norm_num
  · intro a; fin_cases a <;> norm_num
  · intro a; fin_cases a <;> norm_num
  · simp [Fin.sum_univ_three]; norm_num

end Pfrl.Returns
