import Verif.Numeric.Actions
import Mathlib.Probability.Distributions.Gaussian.Real
import Mathlib.Probability.Independence.InfinitePi
import Mathlib.Probability.Moments.Covariance

/-!
# The law of the exploration noise

`AdditiveOU` and `AdditiveGaussian` (`pfrl/explorers/additive_ou.py`, `pfrl/explorers/additive_gaussian.py`) as random
processes.  The random generator is a sequence of arrays of standard normal numbers: `np.random.normal(loc, scale)`
returns `loc + scale * g`.  Numbers are exact (the code rounds the first state to 32 bits).
-/

namespace Pfrl.Numeric.Noise
open MeasureTheory ProbabilityTheory

variable {ι : Type _}

/-! ## Model -/

/-- `np.random.normal(loc, scale)` with `g` the standard normal number drawn by the generator. -/
noncomputable def normal (loc scale g : ℝ) : ℝ := loc + scale * g

/-- The attributes of `AdditiveOU`, `additive_ou.py:20-33`; the action space has the index set `ι`. -/
structure Ou (ι : Type _) where
  mu : ℝ
  theta : ℝ
  sigma : ι → ℝ
  startWithMu : Bool
  state : Option (ι → ℝ)

/-- `AdditiveOU.__init__`, `additive_ou.py:20-33`. -/
def Ou.new (mu theta : ℝ) (sigma : ι → ℝ) (startWithMu : Bool) : Ou ι := ⟨mu, theta, sigma, startWithMu, none⟩

/-- `evolve`, `additive_ou.py:35-39`. -/
noncomputable def Ou.evolve (e : Ou ι) (x g : ι → ℝ) : ι → ℝ :=
  fun i => x i + (e.theta * (e.mu - x i) + normal 0 (e.sigma i) (g i))

/-- The state after the next call, `additive_ou.py:43-53`.  With `start_with_mu` the first call draws nothing. -/
noncomputable def Ou.next (e : Ou ι) (g : ι → ℝ) : ι → ℝ :=
  match e.state with
  | some x => e.evolve x g
  | none =>
    if e.startWithMu then fun _ => e.mu
    else fun i => normal e.mu (e.sigma i / Real.sqrt (2 * e.theta - e.theta ^ 2)) (g i)

/-- `AdditiveOU.select_action`, `additive_ou.py:41-56`: `a` is the greedy action, `g` the numbers drawn. -/
noncomputable def Ou.selectAction (e : Ou ι) (g a : ι → ℝ) : (ι → ℝ) × Ou ι :=
  (fun i => a i + e.next g i, { e with state := some (e.next g) })

/-- The result of call number `k`, with the explorer after it. -/
noncomputable def Ou.calls (e : Ou ι) (g a : ℕ → ι → ℝ) : ℕ → (ι → ℝ) × Ou ι
  | 0 => e.selectAction (g 0) (a 0)
  | k + 1 => (Ou.calls e g a k).2.selectAction (g (k + 1)) (a (k + 1))

/-- One call of `batch_act`: the explorer is asked once for each environment, `pfrl/agents/ddpg.py:270-274`,
`pfrl/agents/td3.py:286-290`; `first` is the number of calls of the explorer made before. -/
noncomputable def Ou.batchAct (g : ℕ → ι → ℝ) : ℕ → List (ι → ℝ) → Ou ι → List (ι → ℝ) × Ou ι
  | _, [], e => ([], e)
  | first, a :: as, e =>
    let r := e.selectAction (g first) a
    let rest := Ou.batchAct g (first + 1) as r.2
    (r.1 :: rest.1, rest.2)

/-- The actions of step `k` of `n` environments, with the explorer after it. -/
noncomputable def Ou.batchCalls (e : Ou ι) (n : ℕ) (g : ℕ → ι → ℝ) (acts : ℕ → List (ι → ℝ)) : ℕ → List (ι → ℝ) × Ou ι
  | 0 => Ou.batchAct g 0 (acts 0) e
  | k + 1 => Ou.batchAct g ((k + 1) * n) (acts (k + 1)) (Ou.batchCalls e n g acts k).2

/-- `AdditiveGaussian.select_action`, `additive_gaussian.py:26-32`, with the numbers drawn. -/
noncomputable def gaussianAction (low high : Option (ι → ℝ)) (scale g a : ι → ℝ) : ι → ℝ :=
  additiveGaussian low high a fun i => normal 0 (scale i) (g i)

/-! ## Specification -/

/-- What is expected of the generator: the numbers `g n ω i` of call `n` and coordinate `i` are standard normal, independent
over the calls, and the sequences of the coordinates are independent of each other. -/
structure Spec.StandardNormals {Ω : Type _} [MeasurableSpace Ω] (P : Measure Ω) (g : ℕ → Ω → ι → ℝ) : Prop where
  meas : ∀ n i, Measurable fun ω => g n ω i
  law : ∀ n i, P.map (fun ω => g n ω i) = gaussianReal 0 1
  calls : ∀ i, iIndepFun (fun n ω => g n ω i) P
  coords : iIndepFun (fun i ω n => g n ω i) P

/-- The noise of call `k`: what is added to the greedy action `a k ω`, which may depend on everything that happened. -/
noncomputable def Spec.noise {Ω : Type _} (e : Ou ι) (g a : ℕ → Ω → ι → ℝ) (k : ℕ) (ω : Ω) (i : ι) : ℝ :=
  (e.calls (fun n => g n ω) (fun n => a n ω) k).1 i - a k ω i

/-! ## Lemmas -/

/-! ### one coordinate -/

/-- Two numbers in front, one number each afterwards. -/
def κ : ℕ → Type
  | 0 => Bool
  | _ + 1 => Unit

def idx : (Σ i, κ i) → ℕ
  | ⟨0, b⟩ => if (show Bool from b) then 1 else 0
  | ⟨i + 1, _⟩ => i + 2

theorem idx_inj : Function.Injective idx := by
  rintro ⟨i, x⟩ ⟨j, y⟩ h
  rcases i with _ | i <;> rcases j with _ | j
  · have : (show Bool from x) = (show Bool from y) := by
      simp only [idx] at h
      revert h
      generalize (show Bool from x) = x'
      generalize (show Bool from y) = y'
      revert x' y'; decide
    exact congrArg (fun z : Bool => (⟨0, z⟩ : Σ i, κ i)) this
  · simp only [idx] at h; split at h <;> omega
  · simp only [idx] at h; split at h <;> omega
  · simp only [idx] at h
    have : i = j := by omega
    subst this
    rfl

/-- Independent standard normal numbers. -/
noncomputable def ν : Measure (ℕ → ℝ) := Measure.infinitePi fun _ => gaussianReal 0 1

instance : IsProbabilityMeasure ν := by unfold ν; infer_instance

def mix (a c : ℝ) : (i : ℕ) → (κ i → ℝ) → ℝ
  | 0, u => a * u (show κ 0 from false) + c * u (show κ 0 from true)
  | _ + 1, u => u ()

theorem mix_meas (a c : ℝ) : ∀ i, Measurable (mix a c i)
  | 0 => by
    show Measurable fun u : κ 0 → ℝ => a * u (show κ 0 from false) + c * u (show κ 0 from true)
    exact ((measurable_pi_apply _).const_mul _).add ((measurable_pi_apply _).const_mul _)
  | i + 1 => measurable_pi_apply (X := fun _ : κ (i + 1) => ℝ) ()

/-- The first two numbers replaced by a combination of them, of variance 1. -/
def turn (a c : ℝ) (z : ℕ → ℝ) : ℕ → ℝ
  | 0 => a * z 0 + c * z 1
  | i + 1 => z (i + 2)

theorem law_mix {a c : ℝ} (h : a ^ 2 + c ^ 2 = 1) : ∀ i,
    (Measure.infinitePi fun _ : κ i => gaussianReal 0 1).map (mix a c i) = gaussianReal 0 1
  | 0 => by
    have hi : iIndepFun (fun (j : κ 0) (u : κ 0 → ℝ) => u j) (Measure.infinitePi fun _ : κ 0 => gaussianReal 0 1) :=
      iIndepFun_infinitePi (X := fun _ x => x) (fun _ => measurable_id)
    have hij : IndepFun (fun u : κ 0 → ℝ => u (show κ 0 from false)) (fun u : κ 0 → ℝ => u (show κ 0 from true))
        (Measure.infinitePi fun _ : κ 0 => gaussianReal 0 1) := hi.indepFun Bool.false_ne_true
    have hl : ∀ (j : κ 0) (b : ℝ), (Measure.infinitePi fun _ : κ 0 => gaussianReal 0 1).map (fun u => b * u j)
        = gaussianReal 0 (.mk (b ^ 2) (sq_nonneg _) * 1) := by
      intro j b
      rw [show (fun u : κ 0 → ℝ => b * u j) = (b * ·) ∘ (fun u : κ 0 → ℝ => u j) from rfl,
        ← Measure.map_map (g := (b * ·)) (f := fun u : κ 0 → ℝ => u j) (by fun_prop) (measurable_pi_apply j), Measure.infinitePi_map_eval, gaussianReal_map_const_mul, mul_zero]
    have hij2 := hij.comp (φ := (a * ·)) (ψ := (c * ·)) (by fun_prop) (by fun_prop)
    have := gaussianReal_add_gaussianReal_of_indepFun hij2 (hl (show κ 0 from false) a) (hl (show κ 0 from true) c)
    have e : (NNReal.mk (a ^ 2) (sq_nonneg _) * 1 + NNReal.mk (c ^ 2) (sq_nonneg _) * 1 : NNReal) = 1 := by
      apply NNReal.coe_injective
      rw [mul_one, mul_one, NNReal.coe_add, NNReal.coe_mk, NNReal.coe_mk, NNReal.coe_one, h]
    rw [add_zero, e] at this
    exact this
  | i + 1 => Measure.infinitePi_map_eval (fun _ : κ (i + 1) => gaussianReal 0 1) ()

theorem turn_eq (a c : ℝ) (z : ℕ → ℝ) : ∀ i, turn a c z i = mix a c i (fun j => z (idx ⟨i, j⟩))
  | 0 => rfl
  | _ + 1 => rfl

theorem turn_meas (a c : ℝ) : Measurable (turn a c) := by
  refine measurable_pi_iff.mpr fun i => ?_
  rcases i with _ | i <;> simp only [turn] <;> fun_prop

theorem law_turn {a c : ℝ} (h : a ^ 2 + c ^ 2 = 1) : ν.map (turn a c) = ν := by
  have h1 : ν.map (fun (z : ℕ → ℝ) p => z (idx p)) = Measure.infinitePi fun _ : (Σ i, κ i) => gaussianReal 0 1 :=
    Measure.map_infinitePi_infinitePi_of_inj idx_inj
  have h2 := Measure.infinitePi_map_piCurry (X := fun (i : ℕ) (_ : κ i) => ℝ) (fun (i : ℕ) (_ : κ i) => gaussianReal 0 1)
  have h3 := Measure.infinitePi_map_pi (μ := fun i => Measure.infinitePi fun _ : κ i => gaussianReal 0 1) (f := mix a c) (mix_meas a c)
  have e : turn a c = (fun (ω : (i : ℕ) → κ i → ℝ) i => mix a c i (ω i)) ∘ (MeasurableEquiv.piCurry fun (i : ℕ) (_ : κ i) => ℝ) ∘
      (fun (z : ℕ → ℝ) p => z (idx p)) := by
    funext z i
    rw [turn_eq]
    rfl
  have m1 : Measurable (fun (ω : (i : ℕ) → κ i → ℝ) i => mix a c i (ω i)) :=
    measurable_pi_iff.mpr fun i => (mix_meas a c i).comp (measurable_pi_apply i)
  have m3 : Measurable (fun (z : ℕ → ℝ) (p : Σ i, κ i) => z (idx p)) := measurable_pi_iff.mpr fun p => measurable_pi_apply _
  rw [e, ← Measure.map_map m1 ((MeasurableEquiv.measurable _).comp m3), ← Measure.map_map (MeasurableEquiv.measurable _) m3, h1]
  rw [show (Measure.infinitePi fun _ : (Σ i, κ i) => gaussianReal 0 1).map (MeasurableEquiv.piCurry fun (i : ℕ) (_ : κ i) => ℝ) = _ from h2, h3]
  unfold ν
  congr 1
  funext i
  exact law_mix h i

/-! ### the process, one coordinate -/

/-- The states of the process of one coordinate: `start` with the first standard normal number, then the steps with the others. -/
def path (mu theta sigma : ℝ) (start : ℝ → ℝ) (z : ℕ → ℝ) : ℕ → ℝ
  | 0 => start (z 0)
  | k + 1 => path mu theta sigma start z k + (theta * (mu - path mu theta sigma start z k) + (0 + sigma * z (k + 1)))

theorem path_meas (mu theta sigma : ℝ) {start : ℝ → ℝ} (hs : Measurable start) : ∀ k, Measurable fun z => path mu theta sigma start z k
  | 0 => by simp only [path]; fun_prop
  | k + 1 => by
    have := path_meas mu theta sigma hs k
    simp only [path]; fun_prop

theorem path_turn {mu theta sigma s c : ℝ} (hc : s * c = sigma) (z : ℕ → ℝ) : ∀ k,
    path mu theta sigma (fun g => mu + s * g) (turn (1 - theta) c z) k = path mu theta sigma (fun g => mu + s * g) z (k + 1)
  | 0 => by simp only [path, turn]; rw [← hc]; ring
  | k + 1 => by
    rw [path, path_turn hc z k, path.eq_2 _ _ _ _ _ (k + 1)]
    rfl

theorem stationary {mu theta sigma s c : ℝ} (hc : s * c = sigma) (h1 : (1 - theta) ^ 2 + c ^ 2 = 1) : ∀ m,
    ν.map (fun z j => path mu theta sigma (fun g => mu + s * g) z (m + j)) = ν.map fun z j => path mu theta sigma (fun g => mu + s * g) z j
  | 0 => by simp
  | m + 1 => by
    have hm : ∀ m, Measurable fun (z : ℕ → ℝ) (j : ℕ) => path mu theta sigma (fun g => mu + s * g) z (m + j) := fun m =>
      measurable_pi_iff.mpr fun j => path_meas mu theta sigma (by fun_prop) _
    rw [← stationary hc h1 m]
    conv_rhs => rw [← law_turn h1]
    rw [Measure.map_map (hm m) (turn_meas _ _)]
    congr 1
    funext z j
    simp only [Function.comp_apply]
    rw [path_turn hc, show m + 1 + j = m + j + 1 by omega]

theorem law_affine (mu s : ℝ) : (gaussianReal 0 1).map (fun g => mu + s * g) = gaussianReal mu (s ^ 2).toNNReal := by
  rw [show (fun g : ℝ => mu + s * g) = (mu + ·) ∘ (s * ·) from rfl, ← Measure.map_map (by fun_prop) (by fun_prop),
    gaussianReal_map_const_mul, gaussianReal_map_const_add]
  congr 1
  · ring
  · apply NNReal.coe_injective
    rw [mul_one, NNReal.coe_mk, Real.coe_toNNReal _ (sq_nonneg _)]

theorem law_path {mu theta sigma s c : ℝ} (hc : s * c = sigma) (h1 : (1 - theta) ^ 2 + c ^ 2 = 1) (k : ℕ) :
    ν.map (fun z => path mu theta sigma (fun g => mu + s * g) z k) = gaussianReal mu (s ^ 2).toNNReal := by
  have hm : ∀ m, Measurable fun (z : ℕ → ℝ) (j : ℕ) => path mu theta sigma (fun g => mu + s * g) z (m + j) := fun m =>
    measurable_pi_iff.mpr fun j => path_meas mu theta sigma (by fun_prop) _
  have := congrArg (fun μ : Measure (ℕ → ℝ) => μ.map fun y => y 0) (stationary (mu := mu) hc h1 k)
  rw [Measure.map_map (by fun_prop) (hm k), Measure.map_map (by fun_prop) (by simpa using hm 0)] at this
  refine this.trans ?_
  rw [show ((fun y : ℕ → ℝ => y 0) ∘ fun z j => path mu theta sigma (fun g => mu + s * g) z j) = (fun g => mu + s * g) ∘ (fun z : ℕ → ℝ => z 0) from rfl,
    ← Measure.map_map (by fun_prop) (by fun_prop), ν, Measure.infinitePi_map_eval, law_affine]

theorem memLp_coord (n : ℕ) : MemLp (fun z : ℕ → ℝ => z n) 2 ν := by
  have h : MemLp id 2 (gaussianReal 0 1) := memLp_id_gaussianReal 2
  have e : ν.map (fun z : ℕ → ℝ => z n) = gaussianReal 0 1 := Measure.infinitePi_map_eval _ _
  rw [← e] at h
  exact h.comp_measurePreserving ⟨by fun_prop, rfl⟩

theorem memLp_step {X Y : (ℕ → ℝ) → ℝ} (hX : MemLp X 2 ν) (hY : MemLp Y 2 ν) (mu theta sigma : ℝ) :
    MemLp (fun z => X z + (theta * (mu - X z) + (0 + sigma * Y z))) 2 ν := by
  have h : MemLp (fun z => ((1 - theta) * X z + sigma * Y z) + theta * mu) 2 ν :=
    ((hX.const_mul _).add (hY.const_mul _)).add (memLp_const _)
  have e : (fun z => X z + (theta * (mu - X z) + (0 + sigma * Y z))) = fun z => ((1 - theta) * X z + sigma * Y z) + theta * mu := by
    funext z
    ring
  rw [e]
  exact h

theorem memLp_path {mu theta sigma : ℝ} {start : ℝ → ℝ} (hs : MemLp (fun z : ℕ → ℝ => start (z 0)) 2 ν) (k : ℕ) :
    MemLp (fun z => path mu theta sigma start z k) 2 ν := by
  induction k with
  | zero => exact hs
  | succ k ih => exact memLp_step ih (memLp_coord (k + 1)) mu theta sigma

theorem cov_coord {m n : ℕ} (h : m ≠ n) : cov[fun z : ℕ → ℝ => z m, fun z => z n; ν] = 0 := by
  have hi : iIndepFun (fun (j : ℕ) (u : ℕ → ℝ) => u j) ν := iIndepFun_infinitePi (X := fun _ x => x) (fun _ => measurable_id)
  exact (hi.indepFun h).covariance_eq_zero (memLp_coord m) (memLp_coord n)

theorem cov_step {X Y Z : (ℕ → ℝ) → ℝ} (hX : MemLp X 2 ν) (hY : MemLp Y 2 ν) (hZ : MemLp Z 2 ν) (mu theta sigma : ℝ) :
    cov[fun z => X z + (theta * (mu - X z) + (0 + sigma * Y z)), Z; ν] = (1 - theta) * cov[X, Z; ν] + sigma * cov[Y, Z; ν] := by
  have e : (fun z => X z + (theta * (mu - X z) + (0 + sigma * Y z))) = fun z => (((1 - theta) • X + sigma • Y) z + theta * mu) := by
    funext z
    simp only [Pi.add_apply, Pi.smul_apply, smul_eq_mul]
    ring
  have hXY : MemLp ((1 - theta) • X + sigma • Y) 2 ν := (hX.const_smul _).add (hY.const_smul _)
  rw [e, covariance_add_const_left (hXY.integrable one_le_two), covariance_add_left (hX.const_smul _) (hY.const_smul _) hZ,
    covariance_smul_left, covariance_smul_left]

theorem cov_path_coord {mu theta sigma s : ℝ} : ∀ (k n : ℕ), k < n → cov[fun z => path mu theta sigma (fun g => mu + s * g) z k, fun z => z n; ν] = 0
  | 0, n, h => by
    simp only [path]
    rw [covariance_const_add_left (((memLp_coord 0).const_mul s).integrable one_le_two), covariance_const_mul_left, cov_coord (by omega), mul_zero]
  | k + 1, n, h => by
    have hs : MemLp (fun z : ℕ → ℝ => mu + s * z 0) 2 ν := (memLp_const mu).add ((memLp_coord 0).const_mul s)
    simp only [path]
    rw [cov_step (memLp_path hs k) (memLp_coord _) (memLp_coord _), cov_path_coord k n (by omega), cov_coord (by omega)]
    ring

theorem cov_path {mu theta sigma s c : ℝ} (hc : s * c = sigma) (h1 : (1 - theta) ^ 2 + c ^ 2 = 1) (k : ℕ) : ∀ m,
    cov[fun z => path mu theta sigma (fun g => mu + s * g) z k, fun z => path mu theta sigma (fun g => mu + s * g) z (k + m); ν] = (1 - theta) ^ m * s ^ 2
  | 0 => by
    have hm := path_meas mu theta sigma (start := fun g => mu + s * g) (by fun_prop) k
    rw [Nat.add_zero, covariance_self hm.aemeasurable, pow_zero, one_mul]
    have := variance_map (μ := ν) (X := id) (Y := fun z => path mu theta sigma (fun g => mu + s * g) z k) (by fun_prop) hm.aemeasurable
    rw [law_path hc h1, variance_id_gaussianReal, Real.coe_toNNReal _ (sq_nonneg _)] at this
    exact this.symm
  | m + 1 => by
    have hs : MemLp (fun z : ℕ → ℝ => mu + s * z 0) 2 ν := (memLp_const mu).add ((memLp_coord 0).const_mul s)
    have e : (fun z => path mu theta sigma (fun g => mu + s * g) z (k + (m + 1))) = fun z => path mu theta sigma (fun g => mu + s * g) z (k + m) +
        (theta * (mu - path mu theta sigma (fun g => mu + s * g) z (k + m)) + (0 + sigma * z (k + m + 1))) := rfl
    rw [covariance_comm, e, cov_step (memLp_path hs _) (memLp_coord _) (memLp_path hs _), covariance_comm (fun z : ℕ → ℝ => z (k + m + 1)),
      cov_path_coord k _ (by omega), covariance_comm, cov_path hc h1 k m]
    ring

/-! ### starting at `mu` -/

theorem path_congr {mu theta sigma : ℝ} {start : ℝ → ℝ} {z z' : ℕ → ℝ} : ∀ k, (∀ n ≤ k, z n = z' n) →
    path mu theta sigma start z k = path mu theta sigma start z' k
  | 0, h => by simp only [path, h 0 le_rfl]
  | k + 1, h => by
    simp only [path]
    rw [path_congr k fun n hn => h n (by omega), h (k + 1) le_rfl]

theorem indep_path {mu theta sigma : ℝ} {start : ℝ → ℝ} (hs : Measurable start) (k : ℕ) :
    IndepFun (fun z => path mu theta sigma start z k) (fun z => z (k + 1)) ν := by
  have hi : iIndepFun (fun (j : ℕ) (u : ℕ → ℝ) => u j) ν := iIndepFun_infinitePi (X := fun _ x => x) (fun _ => measurable_id)
  have := hi.indepFun_finset (Finset.range (k + 1)) {k + 1} (by simp) (fun _ => by fun_prop)
  let ext : (Finset.range (k + 1) → ℝ) → ℕ → ℝ := fun t n => if h : n ∈ Finset.range (k + 1) then t ⟨n, h⟩ else 0
  have hext : Measurable ext := by
    refine measurable_pi_iff.mpr fun n => ?_
    by_cases h : n ∈ Finset.range (k + 1)
    · simp only [ext, h, dif_pos]; fun_prop
    · simp only [ext, h, dif_neg, not_false_eq_true]; fun_prop
  have hψ : Measurable (fun t : (({k + 1} : Finset ℕ) → ℝ) => t ⟨k + 1, by simp⟩) := measurable_pi_apply _
  have h2 := this.comp (φ := fun t => path mu theta sigma start (ext t) k) (ψ := fun t : (({k + 1} : Finset ℕ) → ℝ) => t ⟨k + 1, by simp⟩)
    ((path_meas mu theta sigma hs k).comp hext) hψ
  refine IndepFun.congr h2 (Filter.Eventually.of_forall fun z => ?_) (Filter.Eventually.of_forall fun z => rfl)
  exact path_congr k fun n hn => by simp [ext, show ¬ k < n by omega]

/-- Variance after `k` steps from a fixed start. -/
theorem law_from_mu {mu theta sigma v : ℝ} (hv : v * (1 - (1 - theta) ^ 2) = sigma ^ 2) (hpos : ∀ k : ℕ, 0 ≤ v * (1 - (1 - theta) ^ (2 * k))) : ∀ k,
    ν.map (fun z => path mu theta sigma (fun _ => mu) z k) = gaussianReal mu (v * (1 - (1 - theta) ^ (2 * k))).toNNReal
  | 0 => by simp [path, Measure.map_const]
  | k + 1 => by
    have ih := law_from_mu (mu := mu) hv hpos k
    have hm := path_meas mu theta sigma (start := fun _ => mu) (by fun_prop) k
    have h1 : ν.map (fun z => (1 - theta) * path mu theta sigma (fun _ => mu) z k)
        = gaussianReal ((1 - theta) * mu) (NNReal.mk ((1 - theta) ^ 2) (sq_nonneg _) * (v * (1 - (1 - theta) ^ (2 * k))).toNNReal) := by
      rw [← gaussianReal_map_const_mul, ← ih, Measure.map_map (by fun_prop) hm]
      rfl
    have h2 : ν.map (fun z : ℕ → ℝ => theta * mu + sigma * z (k + 1)) = gaussianReal (theta * mu) (sigma ^ 2).toNNReal := by
      rw [← law_affine, show (fun z : ℕ → ℝ => theta * mu + sigma * z (k + 1)) = (fun g => theta * mu + sigma * g) ∘ (fun z : ℕ → ℝ => z (k + 1)) from rfl,
        ← Measure.map_map (by fun_prop) (by fun_prop), ν, Measure.infinitePi_map_eval]
    have hind := (indep_path (mu := mu) (theta := theta) (sigma := sigma) (start := fun _ => mu) (by fun_prop) k).comp
      (φ := fun x => (1 - theta) * x) (ψ := fun x => theta * mu + sigma * x) (by fun_prop) (by fun_prop)
    have := gaussianReal_add_gaussianReal_of_indepFun hind h1 h2
    have e : (fun z => path mu theta sigma (fun _ => mu) z (k + 1)) = ((fun x => (1 - theta) * x) ∘ fun z => path mu theta sigma (fun _ => mu) z k) +
        ((fun x => theta * mu + sigma * x) ∘ fun z : ℕ → ℝ => z (k + 1)) := by
      funext z
      simp only [path, Pi.add_apply, Function.comp_apply]
      ring
    rw [e, this]
    congr 1
    · ring
    · apply NNReal.coe_injective
      rw [NNReal.coe_add, NNReal.coe_mul, NNReal.coe_mk, Real.coe_toNNReal _ (hpos k), Real.coe_toNNReal _ (sq_nonneg _), Real.coe_toNNReal _ (hpos _), ← hv]
      ring

/-! ### from the explorer to the process -/

theorem state_path (mu theta : ℝ) (sigma : ι → ℝ) (b : Bool) (g a : ℕ → ι → ℝ) : ∀ k,
    ∃ x, ((Ou.new mu theta sigma b).calls g a k).2 = ⟨mu, theta, sigma, b, some x⟩ ∧
      (∀ i, ((Ou.new mu theta sigma b).calls g a k).1 i = a k i + x i) ∧
      ∀ i, x i = path mu theta (sigma i) (fun z => if b then mu else mu + sigma i / Real.sqrt (2 * theta - theta ^ 2) * z) (fun n => g n i) k
  | 0 => ⟨_, rfl, fun _ => rfl, fun i => by cases b <;> rfl⟩
  | k + 1 => by
    obtain ⟨x, h1, h2, h3⟩ := state_path mu theta sigma b g a k
    refine ⟨_, by rw [Ou.calls, h1]; rfl, fun i => by rw [Ou.calls, h1]; rfl, fun i => ?_⟩
    simp only [path]
    rw [← h3 i]
    rfl

theorem noise_path {Ω : Type _} (mu theta : ℝ) (sigma : ι → ℝ) (b : Bool) (g a : ℕ → Ω → ι → ℝ) (k : ℕ) (ω : Ω) (i : ι) :
    Spec.noise (Ou.new mu theta sigma b) g a k ω i
      = path mu theta (sigma i) (fun z => if b then mu else mu + sigma i / Real.sqrt (2 * theta - theta ^ 2) * z) (fun n => g n ω i) k := by
  obtain ⟨x, _, h2, h3⟩ := state_path mu theta sigma b (fun n => g n ω) (fun n => a n ω) k
  rw [Spec.noise, h2 i, ← h3 i]
  ring

theorem seq_law {Ω : Type _} [MeasurableSpace Ω] {P : Measure Ω} {g : ℕ → Ω → ι → ℝ} (h : Spec.StandardNormals P g) (i : ι) :
    P.map (fun ω n => g n ω i) = ν := by
  rw [(h.calls i).map_fun_eq_infinitePi_map (fun n => h.meas n i), ν]
  congr 1
  funext n
  exact h.law n i

theorem seq_meas {Ω : Type _} [MeasurableSpace Ω] {P : Measure Ω} {g : ℕ → Ω → ι → ℝ} (h : Spec.StandardNormals P g) (i : ι) :
    Measurable (fun ω n => g n ω i) := measurable_pi_iff.mpr fun n => h.meas n i

theorem stable {theta sigma : ℝ} (h0 : 0 < theta) (h2 : theta < 2) :
    0 < 2 * theta - theta ^ 2 ∧ sigma / Real.sqrt (2 * theta - theta ^ 2) * Real.sqrt (2 * theta - theta ^ 2) = sigma ∧
    (1 - theta) ^ 2 + Real.sqrt (2 * theta - theta ^ 2) ^ 2 = 1 ∧
    (sigma / Real.sqrt (2 * theta - theta ^ 2)) ^ 2 = sigma ^ 2 / (2 * theta - theta ^ 2) := by
  have hp : 0 < 2 * theta - theta ^ 2 := by nlinarith
  have hs := Real.sqrt_pos.mpr hp
  refine ⟨hp, div_mul_cancel₀ _ hs.ne', ?_, ?_⟩
  · rw [Real.sq_sqrt hp.le]; ring
  · rw [div_pow, Real.sq_sqrt hp.le]

/-! ## C123 -/

/-- **C123** (Ornstein-Uhlenbeck).  With `0 < theta < 2` and without `start_with_mu`, whatever the greedy actions are and
however they depend on the past, the noise added to each coordinate is a stationary process: seen from any call on, it has the
law it has from the first call on.  Every value is normal with mean `mu` and variance `sigma² / (2 theta - theta²)`, the
covariance of two values `m` calls apart is `(1 - theta)^m` times the variance, and the coordinates are independent. -/
theorem ou_stationary {Ω : Type _} [MeasurableSpace Ω] {P : Measure Ω} {g : ℕ → Ω → ι → ℝ} (hg : Spec.StandardNormals P g)
    (a : ℕ → Ω → ι → ℝ) (mu : ℝ) {theta : ℝ} (h0 : 0 < theta) (h2 : theta < 2) (sigma : ι → ℝ) :
    let noise := Spec.noise (Ou.new mu theta sigma false) g a
    (∀ i m, P.map (fun ω j => noise (m + j) ω i) = P.map (fun ω j => noise j ω i)) ∧
    (∀ i k, P.map (fun ω => noise k ω i) = gaussianReal mu (sigma i ^ 2 / (2 * theta - theta ^ 2)).toNNReal) ∧
    (∀ i k m, cov[fun ω => noise k ω i, fun ω => noise (k + m) ω i; P] = (1 - theta) ^ m * (sigma i ^ 2 / (2 * theta - theta ^ 2))) ∧
    iIndepFun (fun i ω k => noise k ω i) P := by
  intro noise
  have hn : ∀ k ω i, noise k ω i = path mu theta (sigma i) (fun z => mu + sigma i / Real.sqrt (2 * theta - theta ^ 2) * z) (fun n => g n ω i) k := by
    intro k ω i
    exact noise_path mu theta sigma false g a k ω i
  have hpm : ∀ i k, Measurable fun z => path mu theta (sigma i) (fun z => mu + sigma i / Real.sqrt (2 * theta - theta ^ 2) * z) z k :=
    fun i k => path_meas mu theta (sigma i) (by fun_prop) k
  refine ⟨fun i m => ?_, fun i k => ?_, fun i k m => ?_, ?_⟩
  · obtain ⟨_, e1, e2, _⟩ := stable (sigma := sigma i) h0 h2
    have := stationary (mu := mu) e1 e2 m
    rw [← seq_law hg i, Measure.map_map (measurable_pi_iff.mpr fun j => hpm i (m + j)) (seq_meas hg i),
      Measure.map_map (measurable_pi_iff.mpr fun j => hpm i j) (seq_meas hg i)] at this
    simp only [hn]
    exact this
  · obtain ⟨_, e1, e2, e3⟩ := stable (sigma := sigma i) h0 h2
    have := law_path (mu := mu) e1 e2 k
    rw [← seq_law hg i, Measure.map_map (hpm i k) (seq_meas hg i), e3] at this
    simp only [hn]
    exact this
  · obtain ⟨_, e1, e2, e3⟩ := stable (sigma := sigma i) h0 h2
    have := cov_path (mu := mu) e1 e2 k m
    rw [← seq_law hg i, covariance_map (hpm i k).aestronglyMeasurable (hpm i (k + m)).aestronglyMeasurable (seq_meas hg i).aemeasurable, e3] at this
    simp only [hn]
    exact this
  · have := hg.coords.comp (fun i (z : ℕ → ℝ) (k : ℕ) => path mu theta (sigma i) (fun z => mu + sigma i / Real.sqrt (2 * theta - theta ^ 2) * z) z k)
      (fun i => measurable_pi_iff.mpr fun k => hpm i k)
    simp only [hn]
    exact this

/-- **C123** (`start_with_mu`).  With `start_with_mu` the noise starts at `mu` and its value in call `k` is normal with mean
`mu` and variance `(1 - (1 - theta)^(2k))` times the stationary one, which it approaches. -/
theorem ou_from_mu {Ω : Type _} [MeasurableSpace Ω] {P : Measure Ω} {g : ℕ → Ω → ι → ℝ} (hg : Spec.StandardNormals P g)
    (a : ℕ → Ω → ι → ℝ) (mu : ℝ) {theta : ℝ} (h0 : 0 < theta) (h2 : theta < 2) (sigma : ι → ℝ) (i : ι) :
    let noise := Spec.noise (Ou.new mu theta sigma true) g a
    let variance := fun k : ℕ => (1 - (1 - theta) ^ (2 * k)) * (sigma i ^ 2 / (2 * theta - theta ^ 2))
    (∀ ω, noise 0 ω i = mu) ∧
    (∀ k, P.map (fun ω => noise k ω i) = gaussianReal mu (variance k).toNNReal) ∧ (∀ k, 0 ≤ variance k) ∧
    Filter.Tendsto variance Filter.atTop (nhds (sigma i ^ 2 / (2 * theta - theta ^ 2))) := by
  intro noise variance
  have hn : ∀ k ω i, noise k ω i = path mu theta (sigma i) (fun _ => mu) (fun n => g n ω i) k := by
    intro k ω i
    exact noise_path mu theta sigma true g a k ω i
  obtain ⟨hp, _⟩ := stable (sigma := sigma i) h0 h2
  have hq : |(1 - theta) ^ 2| < 1 := by
    rw [abs_of_nonneg (sq_nonneg _)]
    nlinarith
  have hpos : ∀ k : ℕ, 0 ≤ variance k := by
    intro k
    refine mul_nonneg ?_ (by positivity)
    rw [pow_mul]
    have := pow_le_one₀ (n := k) (sq_nonneg (1 - theta)) (by rw [abs_of_nonneg (sq_nonneg _)] at hq; exact hq.le)
    linarith
  refine ⟨fun ω => by rw [hn]; rfl, fun k => ?_, hpos, ?_⟩
  · have hv : sigma i ^ 2 / (2 * theta - theta ^ 2) * (1 - (1 - theta) ^ 2) = sigma i ^ 2 := by
      rw [show 1 - (1 - theta) ^ 2 = 2 * theta - theta ^ 2 by ring, div_mul_cancel₀ _ hp.ne']
    have := law_from_mu (mu := mu) hv (fun k => by rw [mul_comm]; exact hpos k) k
    rw [← seq_law hg i, Measure.map_map (path_meas mu theta (sigma i) (by fun_prop) k) (seq_meas hg i), mul_comm] at this
    simp only [hn]
    exact this
  · have h1 := tendsto_pow_atTop_nhds_zero_of_abs_lt_one hq
    have h3 := ((h1.const_sub 1).mul_const (sigma i ^ 2 / (2 * theta - theta ^ 2)))
    simp only [sub_zero, one_mul, ← pow_mul] at h3
    exact h3

theorem batchAct_spec (g : ℕ → ι → ℝ) (A : ℕ → ι → ℝ) : ∀ (as : List (ι → ℝ)) (first : ℕ) (e0 e : Ou ι),
    (∀ j, (h : j < as.length) → A (first + j) = as[j]) →
    (∀ a', e.selectAction (g first) a' = match first with | 0 => e0.selectAction (g 0) a' | k + 1 => (e0.calls g A k).2.selectAction (g (k + 1)) a') →
    (Ou.batchAct g first as e).1 = (List.range as.length).map (fun j => (e0.calls g A (first + j)).1) ∧
    (as ≠ [] → (Ou.batchAct g first as e).2 = (e0.calls g A (first + as.length - 1)).2)
  | [], _, _, _, _, _ => ⟨rfl, fun h => absurd rfl h⟩
  | a :: as, first, e0, e, hA, he => by
    have ha : A first = a := hA 0 (by simp)
    have hfirst : e.selectAction (g first) a = e0.calls g A first := by
      rw [he, ← ha]
      cases first <;> rfl
    obtain ⟨k1, k2⟩ := batchAct_spec g A as (first + 1) e0 (e0.calls g A first).2 (fun j h => by
      rw [show first + 1 + j = first + (j + 1) by omega, hA (j + 1) (by simpa using h)]
      rfl) (fun a' => rfl)
    have hb : Ou.batchAct g first (a :: as) e = ((e0.calls g A first).1 :: (Ou.batchAct g (first + 1) as (e0.calls g A first).2).1,
        (Ou.batchAct g (first + 1) as (e0.calls g A first).2).2) := by
      rw [Ou.batchAct, hfirst]
    rw [hb]
    refine ⟨?_, fun _ => ?_⟩
    · rw [List.length_cons, List.range_succ_eq_map, List.map_cons, List.map_map, k1]
      simp only [Nat.add_zero, Function.comp_def]
      congr 1
      exact List.map_congr_left fun j _ => by rw [show first + 1 + j = first + (j + 1) by omega]
    · cases as with
      | nil => simp [Ou.batchAct]
      | cons b bs =>
        rw [k2 (by simp)]
        simp only [List.length_cons]
        rw [show first + 1 + (bs.length + 1) - 1 = first + (bs.length + 1 + 1) - 1 by omega]

/-- **C123** (several environments).  When `n` environments share the explorer, the actions of step `k` are those of its
calls number `k n`, ..., `k n + n - 1`: environment `j` gets the greedy action plus the noise of call `k n + j`.  So the noises
of one environment `m` steps apart have the covariance of values `m n` calls apart, and environments `j ≤ j'` get correlated
noises in the same step. -/
theorem ou_shared_by_environments {Ω : Type _} [MeasurableSpace Ω] {P : Measure Ω} {g : ℕ → Ω → ι → ℝ} (hg : Spec.StandardNormals P g)
    {n : ℕ} (hn : 0 < n) (acts : ℕ → Ω → List (ι → ℝ)) (hacts : ∀ k ω, (acts k ω).length = n) (mu : ℝ) {theta : ℝ} (h0 : 0 < theta) (h2 : theta < 2)
    (sigma : ι → ℝ) :
    ∃ noise : ℕ → ℕ → Ω → ι → ℝ,
      (∀ k ω j, ∀ a ∈ (acts k ω)[j]?, (((Ou.new mu theta sigma false).batchCalls n (fun c => g c ω) (fun s => acts s ω) k).1)[j]? =
        some fun i => a i + noise k j ω i) ∧
      (∀ i k j, j < n → P.map (fun ω => noise k j ω i) = gaussianReal mu (sigma i ^ 2 / (2 * theta - theta ^ 2)).toNNReal) ∧
      (∀ i k m j, j < n → cov[fun ω => noise k j ω i, fun ω => noise (k + m) j ω i; P] = (1 - theta) ^ (m * n) * (sigma i ^ 2 / (2 * theta - theta ^ 2))) ∧
      (∀ i k j j', j ≤ j' → j' < n → cov[fun ω => noise k j ω i, fun ω => noise k j' ω i; P] = (1 - theta) ^ (j' - j) * (sigma i ^ 2 / (2 * theta - theta ^ 2))) := by
  classical
  let A : ℕ → Ω → ι → ℝ := fun c ω => ((acts (c / n) ω)[c % n]?).getD fun _ => 0
  obtain ⟨_, s2, s3, _⟩ := ou_stationary hg A mu h0 h2 sigma
  refine ⟨fun k j => Spec.noise (Ou.new mu theta sigma false) g A (k * n + j), ?_, fun i k j _ => s2 i _, fun i k m j _ => ?_, fun i k j j' hj _ => ?_⟩
  · intro k ω j a ha
    have hjn : j < n := by
      have := (List.getElem?_eq_some_iff.mp ha).1
      rw [hacts] at this
      exact this
    have hA : ∀ k j, (h : j < (acts k ω).length) → A (k * n + j) ω = (acts k ω)[j] := by
      intro k j h
      have h' : j < n := by rw [hacts] at h; exact h
      have e1 : (k * n + j) / n = k := by
        rw [Nat.mul_comm, Nat.mul_add_div hn, Nat.div_eq_of_lt h', Nat.add_zero]
      have e2 : (k * n + j) % n = j := by
        rw [Nat.mul_comm, Nat.mul_add_mod, Nat.mod_eq_of_lt h']
      show ((acts ((k * n + j) / n) ω)[(k * n + j) % n]?).getD _ = _
      rw [e1, e2, List.getElem?_eq_getElem h]
      rfl
    have key : ∀ k, ((Ou.new mu theta sigma false).batchCalls n (fun c => g c ω) (fun s => acts s ω) k).1
          = (List.range n).map (fun j => ((Ou.new mu theta sigma false).calls (fun c => g c ω) (fun c => A c ω) (k * n + j)).1) ∧
        ((Ou.new mu theta sigma false).batchCalls n (fun c => g c ω) (fun s => acts s ω) k).2
          = ((Ou.new mu theta sigma false).calls (fun c => g c ω) (fun c => A c ω) (k * n + n - 1)).2 := by
      intro k
      induction k with
      | zero =>
        have := batchAct_spec (fun c => g c ω) (fun c => A c ω) (acts 0 ω) 0 (Ou.new mu theta sigma false) (Ou.new mu theta sigma false)
          (fun j h => by have := hA 0 j h; rw [Nat.zero_mul] at this; exact this) (fun _ => rfl)
        rw [hacts] at this
        refine ⟨?_, ?_⟩
        · rw [Nat.zero_mul]; exact this.1
        · rw [Nat.zero_mul]; exact this.2 (fun h => by have := hacts 0 ω; rw [h] at this; simp at this; omega)
      | succ k ih =>
        have := batchAct_spec (fun c => g c ω) (fun c => A c ω) (acts (k + 1) ω) ((k + 1) * n) (Ou.new mu theta sigma false)
          ((Ou.new mu theta sigma false).batchCalls n (fun c => g c ω) (fun s => acts s ω) k).2
          (fun j h => hA (k + 1) j h) (fun a' => by
            rw [ih.2]
            obtain ⟨m, hm⟩ : ∃ m, (k + 1) * n = m + 1 := ⟨(k + 1) * n - 1, by
              have : 0 < (k + 1) * n := Nat.mul_pos (by omega) hn
              omega⟩
            have hm' : k * n + n - 1 = m := by
              have : (k + 1) * n = k * n + n := Nat.succ_mul k n
              omega
            rw [hm, hm'])
        rw [hacts] at this
        exact ⟨this.1, this.2 (fun h => by have := hacts (k + 1) ω; rw [h] at this; simp at this; omega)⟩
    rw [(key k).1, List.getElem?_map, List.getElem?_range hjn, Option.map_some]
    congr 1
    funext i
    have e : A (k * n + j) ω = a := by
      have h' : j < (acts k ω).length := by rw [hacts]; exact hjn
      rw [hA k j h']
      rw [Option.mem_def, List.getElem?_eq_getElem h'] at ha
      exact Option.some.inj ha
    simp only [Spec.noise, e]
    ring
  · have := s3 i (k * n + j) (m * n)
    rw [show k * n + j + m * n = (k + m) * n + j by ring] at this
    exact this
  · have := s3 i (k * n + j) (j' - j)
    rw [show k * n + j + (j' - j) = k * n + j' by omega] at this
    exact this

/-- **C123** (Gaussian).  The action that `AdditiveGaussian` returns for a greedy action `a` has independent coordinates; without
bounds coordinate `i` is normal with mean `a i` and standard deviation `scale i`; with bounds it is between them, and below
every number between the bounds with the probability of the normal distribution. -/
theorem gaussian_action_law {Ω : Type _} [MeasurableSpace Ω] {P : Measure Ω} {g : ℕ → Ω → ι → ℝ} (hg : Spec.StandardNormals P g)
    (n : ℕ) (scale a : ι → ℝ) :
    (∀ i, P.map (fun ω => gaussianAction none none scale (g n ω) a i) = gaussianReal (a i) (scale i ^ 2).toNNReal) ∧
    (∀ low high : ι → ℝ, (∀ i, low i ≤ high i) → (∀ ω i, low i ≤ gaussianAction (some low) (some high) scale (g n ω) a i ∧
        gaussianAction (some low) (some high) scale (g n ω) a i ≤ high i) ∧
      ∀ i x, low i ≤ x → x < high i → P {ω | gaussianAction (some low) (some high) scale (g n ω) a i ≤ x} =
        gaussianReal (a i) (scale i ^ 2).toNNReal (Set.Iic x)) ∧
    (∀ low high : Option (ι → ℝ), iIndepFun (fun i ω => gaussianAction low high scale (g n ω) a i) P) := by
  have hlaw : ∀ i, P.map (fun ω => a i + scale i * g n ω i) = gaussianReal (a i) (scale i ^ 2).toNNReal := by
    intro i
    rw [← law_affine, ← hg.law n i, Measure.map_map (by fun_prop) (hg.meas n i)]
    rfl
  refine ⟨fun i => ?_, fun low high hle => ⟨fun ω i => ?_, fun i x hx hx' => ?_⟩, fun low high => ?_⟩
  · rw [← hlaw i]
    congr 1
    funext ω
    simp [gaussianAction, additiveGaussian, normal]
  · simp only [gaussianAction, additiveGaussian]
    exact ⟨le_min (le_max_right _ _) (hle i), min_le_right _ _⟩
  · rw [← hlaw i, Measure.map_apply (by have := hg.meas n i; fun_prop) measurableSet_Iic]
    congr 1
    ext ω
    simp only [gaussianAction, additiveGaussian, normal, Set.mem_ofPred_eq, Set.mem_preimage, Set.mem_Iic, zero_add, min_le_iff, max_le_iff]
    constructor
    · rintro (h | h)
      · exact h.1
      · exact absurd h (not_le.mpr hx')
    · exact fun h => .inl ⟨h, hx⟩
  · have := hg.coords.comp (fun i (z : ℕ → ℝ) => gaussianAction low high scale (fun _ => z n) a i) (fun i => by
      rcases low with _ | low <;> rcases high with _ | high <;> simp only [gaussianAction, additiveGaussian, normal] <;> fun_prop)
    exact this

/-! ## Non-vacuity -/

/-- A generator as expected: the product of standard normal distributions. -/
theorem generator_exists (ι : Type) : ∃ (P : Measure (ι → ℕ → ℝ)), IsProbabilityMeasure P ∧ Spec.StandardNormals P fun n ω i => ω i n := by
  refine ⟨Measure.infinitePi fun _ => ν, inferInstance, ?_, ?_, ?_, ?_⟩
  · intro n i; fun_prop
  · intro n i
    rw [show (fun ω : ι → ℕ → ℝ => ω i n) = (fun z : ℕ → ℝ => z n) ∘ (fun ω => ω i) from rfl, ← Measure.map_map (by fun_prop) (by fun_prop),
      Measure.infinitePi_map_eval, ν, Measure.infinitePi_map_eval]
  · intro i
    have hi : iIndepFun (fun (j : ℕ) (u : ℕ → ℝ) => u j) ν := iIndepFun_infinitePi (X := fun _ x => x) (fun _ => measurable_id)
    have e : (Measure.infinitePi fun _ : ι => ν).map (fun ω => ω i) = ν := Measure.infinitePi_map_eval _ _
    rw [iIndepFun_iff_map_fun_eq_infinitePi_map (fun n => by fun_prop)] at hi ⊢
    have h1 : ∀ n, (Measure.infinitePi fun _ : ι => ν).map (fun ω => ω i n) = ν.map fun u => u n := by
      intro n
      conv_rhs => rw [← e]
      rw [Measure.map_map (by fun_prop) (by fun_prop)]
      rfl
    simp only [h1]
    rw [← hi]
    conv_rhs => rw [← e]
    rw [Measure.map_map (by fun_prop) (by fun_prop)]
    rfl
  · exact iIndepFun_infinitePi (X := fun _ x => x) (fun _ => measurable_id)

/-- The default settings of `AdditiveOU` for two action coordinates: variance `0.09 / 0.2775`. -/
example : ∃ (P : Measure (Fin 2 → ℕ → ℝ)), IsProbabilityMeasure P ∧ ∀ k, P.map (fun ω =>
    Spec.noise (Ou.new 0 (15 / 100) (fun _ : Fin 2 => 3 / 10) false) (fun n ω i => ω i n) (fun _ _ _ => 1) k ω 1)
      = gaussianReal 0 (12 / 37 : ℝ).toNNReal := by
  obtain ⟨P, h1, h2⟩ := generator_exists (Fin 2)
  refine ⟨P, h1, fun k => ?_⟩
  have := (ou_stationary h2 (fun _ _ _ => 1) 0 (theta := 15 / 100) (by norm_num) (by norm_num) fun _ => 3 / 10).2.1 1 k
  rw [this]
  norm_num

end Pfrl.Numeric.Noise
