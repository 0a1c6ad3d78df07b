import Mathlib.Analysis.Complex.Trigonometric
import Mathlib.Analysis.SpecialFunctions.Artanh
import Mathlib.MeasureTheory.Measure.Lebesgue.Basic
import Mathlib.Algebra.Order.Field.Basic
import Mathlib.Tactic.Ring
import Mathlib.Tactic.Linarith
import Mathlib.Tactic.FieldSimp
import Mathlib.Tactic.Positivity
import Mathlib.Tactic.NormNum

/-!
# Action bounds and exploration (C50, C51)

Numbers are exact.  Arrays of actions are functions from their indices; all operations are elementwise.
-/

namespace Pfrl.Numeric

/-! ## Model -/

variable {ι : Type _}

/-- `NormalizeActionSpace.action`, `pfrl/wrappers/normalize_action_space.py:17-28`, in the order of the code: add 1,
multiply by half the range, add the lower bound. -/
noncomputable def normalizeAction (low high action : ι → ℝ) : ι → ℝ :=
  let a1 : ι → ℝ := fun i => action i + 1
  let a2 : ι → ℝ := fun i => a1 i * ((high i - low i) / 2)
  fun i => a2 i + low i

/-- `bound_by_tanh`, `pfrl/functions/bound_by_tanh.py:4-21`. -/
noncomputable def boundByTanh (x low high : ι → ℝ) : ι → ℝ :=
  let scale : ι → ℝ := fun i => (high i - low i) / 2
  let loc : ι → ℝ := fun i => (high i + low i) / 2
  fun i => Real.tanh (x i) * scale i + loc i

/-- `LinearDecayEpsilonGreedy.compute_epsilon`, `pfrl/explorers/epsilon_greedy.py:71-76`.  `none`: division of
`t` by `decay_steps = 0`. -/
noncomputable def linearEpsilon (start stop : ℝ) (decaySteps t : Nat) : Option ℝ :=
  if t > decaySteps then some stop
  else if decaySteps = 0 then none
  else some (start + (stop - start) * ((t : ℝ) / (decaySteps : ℝ)))

/-- `ExponentialDecayEpsilonGreedy.compute_epsilon`, `epsilon_greedy.py:120-122`. -/
noncomputable def exponentialEpsilon (start stop decay : ℝ) (t : Nat) : ℝ := max (start * decay ^ t) stop

/-- `select_action_epsilon_greedily`, `epsilon_greedy.py:8-12`, with `u` the number drawn by `np.random.rand()`: the
action and whether it is the greedy one. -/
noncomputable def selectEpsilonGreedily {A : Type _} (u epsilon : ℝ) (random greedy : A) : A × Bool :=
  if u < epsilon then (random, false) else (greedy, true)

/-- `AdditiveGaussian.select_action`, `pfrl/explorers/additive_gaussian.py:26-32`: `a + noise`, clipped to the bounds
that are given (`np.clip` is the minimum with `high` of the maximum with `low`). -/
noncomputable def additiveGaussian (low high : Option (ι → ℝ)) (a noise : ι → ℝ) : ι → ℝ :=
  fun i =>
    let x := a i + noise i
    let x := match low with
      | none => x
      | some l => max x (l i)
    match high with
    | none => x
    | some h => min x (h i)

/-- The state of `AdditiveOU` and the action returned, `pfrl/explorers/additive_ou.py:33-54`, one coordinate.
`start` is the state drawn (or `mu`) in the first call, `w` the noise drawn in later calls. -/
noncomputable def ouStep (mu theta : ℝ) (state : Option ℝ) (start w a : ℝ) : ℝ × ℝ :=
  match state with
  | none => (start, a + start)
  | some x =>
    let x := x + (theta * (mu - x) + w)
    (x, a + x)

/-- The states of the process along a sequence of calls. -/
noncomputable def ouRun (mu theta : ℝ) : Option ℝ → List (ℝ × ℝ × ℝ) → List (ℝ × ℝ)
  | _, [] => []
  | st, c :: cs => ouStep mu theta st c.1 c.2.1 c.2.2 ::
      ouRun mu theta (some (ouStep mu theta st c.1 c.2.1 c.2.2).1) cs

/-! ## Specification -/

/-- The box of actions between two bounds. -/
def Spec.box (low high : ι → ℝ) : Set (ι → ℝ) := {a | ∀ i, low i ≤ a i ∧ a i ≤ high i}

/-! ## C50 -/

theorem normalizeAction_apply (low high a : ι → ℝ) (i : ι) :
    normalizeAction low high a i = (a i + 1) * ((high i - low i) / 2) + low i := rfl

/-- **C50 (normalisation).** For bounds `low ≤ high`, the action passed on is in the original box for every action of
`[-1, 1]^n`; −1 is mapped to the lower and 1 to the upper bound; the map is affine and monotone; and every action of
the box is reached, by exactly one action if the bounds differ. -/
theorem normalize_action_space (low high : ι → ℝ) (hle : ∀ i, low i ≤ high i) :
    (∀ a ∈ Spec.box (fun _ : ι => (-1 : ℝ)) (fun _ => 1), normalizeAction low high a ∈ Spec.box low high) ∧
    normalizeAction low high (fun _ => -1) = low ∧ normalizeAction low high (fun _ => 1) = high ∧
    (∀ (a b : ι → ℝ) (t : ℝ), normalizeAction low high (fun i => (1 - t) * a i + t * b i) =
      fun i => (1 - t) * normalizeAction low high a i + t * normalizeAction low high b i) ∧
    (∀ a b : ι → ℝ, (∀ i, a i ≤ b i) → ∀ i, normalizeAction low high a i ≤ normalizeAction low high b i) ∧
    (∀ b ∈ Spec.box low high, ∃ a ∈ Spec.box (fun _ : ι => (-1 : ℝ)) (fun _ => 1), normalizeAction low high a = b) ∧
    ((∀ i, low i < high i) → ∀ a b : ι → ℝ, normalizeAction low high a = normalizeAction low high b → a = b) := by
  refine ⟨?_, ?_, ?_, ?_, ?_, ?_, ?_⟩
  · intro a ha i
    rw [normalizeAction_apply]
    have h1 := (ha i).1
    have h2 := (ha i).2
    have hw : 0 ≤ (high i - low i) / 2 := by linarith [hle i]
    constructor
    · nlinarith
    · nlinarith
  · funext i; rw [normalizeAction_apply]; ring
  · funext i; rw [normalizeAction_apply]; ring
  · intro a b t
    funext i
    simp only [normalizeAction_apply]
    ring
  · intro a b hab i
    simp only [normalizeAction_apply]
    have hw : 0 ≤ (high i - low i) / 2 := by linarith [hle i]
    nlinarith [hab i]
  · intro b hb
    refine ⟨fun i => if low i = high i then 1 else (b i - low i) / ((high i - low i) / 2) - 1, ?_, ?_⟩
    · intro i
      by_cases h : low i = high i
      · simp [h]
      · have hlt : low i < high i := lt_of_le_of_ne (hle i) h
        have hw : 0 < (high i - low i) / 2 := by linarith
        simp only [h, if_false]
        constructor
        · have : 0 ≤ (b i - low i) / ((high i - low i) / 2) := div_nonneg (by linarith [(hb i).1]) hw.le
          linarith
        · have : (b i - low i) / ((high i - low i) / 2) ≤ 2 := by
            rw [div_le_iff₀ hw]; linarith [(hb i).2]
          linarith
    · funext i
      rw [normalizeAction_apply]
      by_cases h : low i = high i
      · have := (hb i).1; have := (hb i).2
        simp only [h, if_true]
        linarith
      · have hlt : low i < high i := lt_of_le_of_ne (hle i) h
        have hw : (high i - low i) / 2 ≠ 0 := by
          have : 0 < (high i - low i) / 2 := by linarith
          exact this.ne'
        simp only [h, if_false]
        rw [sub_add_cancel, div_mul_cancel₀ _ hw]
        ring
  · intro hlt a b hab
    funext i
    have h := congrFun hab i
    simp only [normalizeAction_apply] at h
    have hw : (high i - low i) / 2 ≠ 0 := by
      have : 0 < (high i - low i) / 2 := by linarith [hlt i]
      exact this.ne'
    have := mul_right_cancel₀ hw (add_right_cancel h)
    linarith

example : normalizeAction (fun _ : Fin 2 => (-3 : ℝ)) (fun _ => 5) (fun i => if i = 0 then 0 else 1 / 2) =
    fun i => if i = 0 then 1 else 3 := by
  funext i
  rw [normalizeAction_apply]
  split <;> norm_num

/-- **C50 (tanh bound).** For bounds `low ≤ high` the value is in the box, strictly inside in the coordinates where
the bounds differ, and every value strictly inside is reached. -/
theorem bound_by_tanh (low high : ι → ℝ) (hle : ∀ i, low i ≤ high i) :
    (∀ x : ι → ℝ, boundByTanh x low high ∈ Spec.box low high) ∧
    (∀ (x : ι → ℝ) (i : ι), low i < high i → low i < boundByTanh x low high i ∧ boundByTanh x low high i < high i) ∧
    (∀ b : ι → ℝ, (∀ i, low i < b i ∧ b i < high i) → ∃ x, boundByTanh x low high = b) := by
  have key : ∀ (x : ι → ℝ) (i : ι), boundByTanh x low high i =
      Real.tanh (x i) * ((high i - low i) / 2) + (high i + low i) / 2 := fun _ _ => rfl
  refine ⟨?_, ?_, ?_⟩
  · intro x i
    rw [key]
    have h1 := Real.tanh_lt_one (x i)
    have h2 := Real.neg_one_lt_tanh (x i)
    have hw : 0 ≤ (high i - low i) / 2 := by linarith [hle i]
    constructor <;> nlinarith
  · intro x i hlt
    rw [key]
    have h1 := Real.tanh_lt_one (x i)
    have h2 := Real.neg_one_lt_tanh (x i)
    have hw : 0 < (high i - low i) / 2 := by linarith
    constructor <;> nlinarith
  · intro b hb
    refine ⟨fun i => Real.artanh ((b i - (high i + low i) / 2) / ((high i - low i) / 2)), ?_⟩
    funext i
    have hw : 0 < (high i - low i) / 2 := by linarith [(hb i).1, (hb i).2]
    have hmem : (b i - (high i + low i) / 2) / ((high i - low i) / 2) ∈ Set.Ioo (-1 : ℝ) 1 := by
      constructor
      · rw [lt_div_iff₀ hw]; linarith [(hb i).1]
      · rw [div_lt_iff₀ hw]; linarith [(hb i).2]
    rw [key, Real.tanh_artanh hmem, div_mul_cancel₀ _ hw.ne']
    ring

/-- **C50 (additive Gaussian noise).** With bounds `low ≤ high` the action returned is in the box, and it is the
noisy action if that is in the box already; without bounds it is the noisy action. -/
theorem additive_gaussian_in_box (low high a noise : ι → ℝ) (hle : ∀ i, low i ≤ high i) :
    additiveGaussian (some low) (some high) a noise ∈ Spec.box low high ∧
    ((fun i => a i + noise i) ∈ Spec.box low high →
      additiveGaussian (some low) (some high) a noise = fun i => a i + noise i) ∧
    (∀ i, low i ≤ additiveGaussian (some low) none a noise i) ∧
    (∀ i, additiveGaussian none (some high) a noise i ≤ high i) ∧
    additiveGaussian none none a noise = fun i => a i + noise i := by
  refine ⟨?_, ?_, ?_, ?_, rfl⟩
  · intro i
    exact ⟨le_min (le_max_right _ _) (hle i), min_le_right _ _⟩
  · intro h
    funext i
    show min (max (a i + noise i) (low i)) (high i) = _
    rw [max_eq_left (h i).1, min_eq_left (h i).2]
  · intro i; exact le_max_right _ _
  · intro i; exact min_le_right _ _

/-! ## C51 -/

/-- **C51 (linear decay).** For `decay_steps > 0` the schedule is defined at every time; it is `start` at time 0 and
`end` from `decay_steps` on; it always lies between the two; and it moves monotonically from `start` to `end`: at a
later time it lies between the earlier value and `end`. -/
theorem linear_decay (start stop : ℝ) {decaySteps : Nat} (h : 0 < decaySteps) :
    ∃ eps : Nat → ℝ, (∀ t, linearEpsilon start stop decaySteps t = some (eps t)) ∧
      eps 0 = start ∧ (∀ t, decaySteps ≤ t → eps t = stop) ∧
      (∀ t, min start stop ≤ eps t ∧ eps t ≤ max start stop) ∧
      (∀ t t', t ≤ t' → min (eps t) stop ≤ eps t' ∧ eps t' ≤ max (eps t) stop) ∧
      (∀ t, t < decaySteps → eps (t + 1) - eps t = (stop - start) / decaySteps) := by
  have hd : (0 : ℝ) < decaySteps := by exact_mod_cast h
  have hcoef : ∀ t : Nat, t ≤ decaySteps → (t : ℝ) / decaySteps ≤ 1 := fun t ht => by
    rw [div_le_one hd]; exact_mod_cast ht
  have hcoef0 : ∀ t : Nat, 0 ≤ (t : ℝ) / (decaySteps : ℝ) := fun t => by positivity
  let eps : Nat → ℝ := fun t => if t > decaySteps then stop else start + (stop - start) * ((t : ℝ) / (decaySteps : ℝ))
  have hend : ∀ t, decaySteps ≤ t → eps t = stop := by
    intro t ht
    show (if t > decaySteps then stop else start + (stop - start) * ((t : ℝ) / (decaySteps : ℝ))) = stop
    rcases Nat.lt_or_ge decaySteps t with hlt | hge
    · rw [if_pos hlt]
    · have : t = decaySteps := by omega
      subst this
      rw [if_neg (by omega), div_self hd.ne']; ring
  have hval : ∀ t, t ≤ decaySteps → eps t = start + (stop - start) * ((t : ℝ) / (decaySteps : ℝ)) := by
    intro t ht
    show (if t > decaySteps then stop else _) = _
    rw [if_neg (by omega)]
  have hbetween : ∀ (x c : ℝ), 0 ≤ c → c ≤ 1 →
      min x stop ≤ x + (stop - x) * c ∧ x + (stop - x) * c ≤ max x stop := by
    intro x c h0 h1
    rcases le_total x stop with hle | hle
    · rw [min_eq_left hle, max_eq_right hle]
      constructor <;> nlinarith
    · rw [min_eq_right hle, max_eq_left hle]
      constructor <;> nlinarith
  refine ⟨eps, ?_, ?_, hend, ?_, ?_, ?_⟩
  · intro t
    unfold linearEpsilon
    by_cases ht : t > decaySteps
    · rw [if_pos ht, hend t (by omega)]
    · rw [if_neg ht, if_neg (by omega), hval t (by omega)]
  · rw [hval 0 (by omega)]; simp
  · intro t
    rcases Nat.lt_or_ge decaySteps t with hlt | hge
    · rw [hend t (by omega)]; exact ⟨min_le_right _ _, le_max_right _ _⟩
    · rw [hval t hge]; exact hbetween _ _ (hcoef0 t) (hcoef t hge)
  · intro t t' htt
    rcases Nat.lt_or_ge t' decaySteps with hlt | hge
    · -- eps t' = eps t + (stop - eps t) * c
      rw [hval t' hlt.le, hval t (by omega)]
      have htd : (0 : ℝ) < decaySteps - t := by
        have : (t : ℝ) < decaySteps := by exact_mod_cast (by omega : t < decaySteps)
        linarith
      have heq : start + (stop - start) * ((t' : ℝ) / decaySteps) =
          (start + (stop - start) * ((t : ℝ) / decaySteps)) +
          (stop - (start + (stop - start) * ((t : ℝ) / decaySteps))) * (((t' : ℝ) - t) / (decaySteps - t)) := by
        field_simp
        ring
      rw [heq]
      apply hbetween
      · apply div_nonneg _ htd.le
        have : (t : ℝ) ≤ t' := by exact_mod_cast htt
        linarith
      · rw [div_le_one htd]
        have : (t' : ℝ) < decaySteps := by exact_mod_cast hlt
        linarith
    · rw [hend t' hge]; exact ⟨min_le_right _ _, le_max_right _ _⟩
  · intro t ht
    rw [hval (t + 1) (by omega), hval t (by omega)]
    push_cast
    field_simp
    ring

/-- **C51 (linear decay, boundary).** With `decay_steps = 0`, which the constructor accepts, the schedule is `end` at
every positive time, and the computation at time 0 raises. -/
theorem linear_decay_zero (start stop : ℝ) :
    linearEpsilon start stop 0 0 = none ∧ ∀ t, 0 < t → linearEpsilon start stop 0 t = some stop := by
  refine ⟨by simp [linearEpsilon], fun t ht => ?_⟩
  unfold linearEpsilon
  rw [if_pos ht]

/-- **C51 (exponential decay).** For the parameters the constructor accepts, the schedule is never below `end` nor
above the larger of `start` and `end`; it starts at the larger of the two; it never increases; and it is `end` from some
time on if `end` is positive. -/
theorem exponential_decay {start stop decay : ℝ} (h0 : 0 ≤ start) (hd0 : 0 < decay) (hd1 : decay < 1) :
    exponentialEpsilon start stop decay 0 = max start stop ∧
    (∀ t, stop ≤ exponentialEpsilon start stop decay t ∧ exponentialEpsilon start stop decay t ≤ max start stop) ∧
    (∀ t t', t ≤ t' → exponentialEpsilon start stop decay t' ≤ exponentialEpsilon start stop decay t) ∧
    (0 < stop → ∃ T, ∀ t, T ≤ t → exponentialEpsilon start stop decay t = stop) := by
  have hmono : ∀ t t' : Nat, t ≤ t' → start * decay ^ t' ≤ start * decay ^ t := fun t t' h =>
    mul_le_mul_of_nonneg_left (pow_le_pow_of_le_one hd0.le hd1.le h) h0
  refine ⟨by simp [exponentialEpsilon], fun t => ⟨le_max_right _ _, ?_⟩, fun t t' h => ?_, fun hs => ?_⟩
  · exact max_le_max (by simpa using hmono 0 t (Nat.zero_le t)) le_rfl
  · exact max_le_max (hmono t t' h) le_rfl
  · rcases h0.eq_or_lt with h | h
    · exact ⟨0, fun t _ => by unfold exponentialEpsilon; rw [← h, zero_mul]; exact max_eq_right hs.le⟩
    · obtain ⟨T, hT⟩ := exists_pow_lt_of_lt_one (div_pos hs h) hd1
      refine ⟨T, fun t ht => max_eq_right ?_⟩
      refine (hmono T t ht).trans ?_
      rw [lt_div_iff₀ h] at hT
      linarith

/-- **C51 (choice).** For a number drawn from `[0, 1)`: the greedy action is taken exactly if the number is at least
epsilon; so always with epsilon 0 and never with epsilon 1; and, the number being uniformly distributed, with probability
`1 - epsilon`. -/
theorem epsilon_greedy_choice {A : Type _} (random greedy : A) {epsilon : ℝ} (h0 : 0 ≤ epsilon) (h1 : epsilon ≤ 1) :
    (∀ u, selectEpsilonGreedily u epsilon random greedy = if epsilon ≤ u then (greedy, true) else (random, false)) ∧
    (epsilon = 0 → ∀ u, 0 ≤ u → selectEpsilonGreedily u epsilon random greedy = (greedy, true)) ∧
    (epsilon = 1 → ∀ u, u < 1 → selectEpsilonGreedily u epsilon random greedy = (random, false)) ∧
    MeasureTheory.volume {u : ℝ | u ∈ Set.Ico (0 : ℝ) 1 ∧
      (selectEpsilonGreedily u epsilon random greedy).2 = true} = ENNReal.ofReal (1 - epsilon) := by
  have key : ∀ u, selectEpsilonGreedily u epsilon random greedy =
      if epsilon ≤ u then (greedy, true) else (random, false) := by
    intro u
    unfold selectEpsilonGreedily
    by_cases h : u < epsilon
    · rw [if_pos h, if_neg (not_le.mpr h)]
    · rw [if_neg h, if_pos (not_lt.mp h)]
  refine ⟨key, ?_, ?_, ?_⟩
  · rintro rfl u hu
    rw [key, if_pos hu]
  · rintro rfl u hu
    rw [key, if_neg (not_le.mpr hu)]
  · have hset : {u : ℝ | u ∈ Set.Ico (0 : ℝ) 1 ∧ (selectEpsilonGreedily u epsilon random greedy).2 = true} =
        Set.Ico epsilon 1 := by
      ext u
      simp only [Set.mem_ofPred_eq, Set.mem_Ico, key]
      constructor
      · rintro ⟨⟨hu0, hu1⟩, hg⟩
        by_cases h : epsilon ≤ u
        · exact ⟨h, hu1⟩
        · rw [if_neg h] at hg; cases hg
      · rintro ⟨h, hu1⟩
        exact ⟨⟨h0.trans h, hu1⟩, by rw [if_pos h]⟩
    rw [hset, Real.volume_Ico]

example : linearEpsilon 1 (1 / 10) 10 5 = some (11 / 20) := by
  unfold linearEpsilon
  norm_num

/-! ## Ornstein-Uhlenbeck noise -/

theorem ouRun_some (mu theta : ℝ) : ∀ (cs : List (ℝ × ℝ × ℝ)) (x : ℝ) (k : Nat) (y : ℝ × ℝ),
    (ouRun mu theta (some x) cs)[k]? = some y →
    y.1 = mu + (1 - theta) ^ (k + 1) * (x - mu) +
      ((List.range (k + 1)).map fun j => (1 - theta) ^ (k - j) * ((cs[j]?.map fun c => c.2.1).getD 0)).sum
  | [], _, _, _, h => by simp [ouRun] at h
  | c :: cs, x, 0, y, h => by
    simp only [ouRun, List.getElem?_cons_zero, Option.some.injEq, ouStep] at h
    rw [← h]
    simp
    ring
  | c :: cs, x, k + 1, y, h => by
    simp only [ouRun, List.getElem?_cons_succ] at h
    have hx : (ouStep mu theta (some x) c.1 c.2.1 c.2.2).1 = x + (theta * (mu - x) + c.2.1) := rfl
    rw [hx] at h
    have := ouRun_some mu theta cs _ k y h
    rw [this, List.range_succ_eq_map (n := k + 1), List.map_cons, List.sum_cons, List.map_map]
    have hsum : ((List.range (k + 1)).map ((fun j => (1 - theta) ^ (k + 1 - j) *
          (((c :: cs)[j]?.map fun c => c.2.1).getD 0)) ∘ Nat.succ)).sum =
        ((List.range (k + 1)).map fun j => (1 - theta) ^ (k - j) * ((cs[j]?.map fun c => c.2.1).getD 0)).sum := by
      congr 1
      apply List.map_congr_left
      intro j hj
      simp only [Function.comp, List.getElem?_cons_succ, Nat.succ_eq_add_one, Nat.add_sub_add_right]
    rw [hsum]
    simp only [Nat.sub_zero, List.getElem?_cons_zero, Option.map_some, Option.getD_some]
    ring

/-- **C50 (Ornstein-Uhlenbeck noise).** After `k` further calls the noise is the mean, plus the initial deviation times
`(1 - theta)^k`, plus each random increment damped once for every call since. -/
theorem ornstein_uhlenbeck (mu theta : ℝ) (c : ℝ × ℝ × ℝ) (cs : List (ℝ × ℝ × ℝ)) :
    (ouRun mu theta none (c :: cs))[0]? = some (c.1, c.2.2 + c.1) ∧
    ∀ (k : Nat) (y : ℝ × ℝ), (ouRun mu theta none (c :: cs))[k + 1]? = some y →
      y.1 = mu + (1 - theta) ^ (k + 1) * (c.1 - mu) +
        ((List.range (k + 1)).map fun j => (1 - theta) ^ (k - j) * ((cs[j]?.map fun c => c.2.1).getD 0)).sum ∧
      ∃ c', cs[k]? = some c' ∧ y.2 = c'.2.2 + y.1 := by
  refine ⟨rfl, fun k y h => ?_⟩
  simp only [ouRun, List.getElem?_cons_succ] at h
  refine ⟨ouRun_some mu theta cs _ k y h, ?_⟩
  have hact : ∀ (cs : List (ℝ × ℝ × ℝ)) (x : ℝ) (k : Nat), (ouRun mu theta (some x) cs)[k]? = some y →
      ∃ c', cs[k]? = some c' ∧ y.2 = c'.2.2 + y.1 := by
    intro cs
    induction cs with
    | nil => intro x k h; simp [ouRun] at h
    | cons c cs ih =>
      intro x k h
      cases k with
      | zero =>
        simp only [ouRun, List.getElem?_cons_zero, Option.some.injEq] at h
        exact ⟨c, rfl, by rw [← h]; rfl⟩
      | succ k =>
        simp only [ouRun, List.getElem?_cons_succ] at h ⊢
        exact ih _ k h
  exact hact cs _ k h

end Pfrl.Numeric
