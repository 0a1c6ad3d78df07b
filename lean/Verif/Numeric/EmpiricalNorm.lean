import Mathlib.Analysis.SpecialFunctions.Pow.NNReal
import Mathlib.Algebra.BigOperators.Group.List.Basic
import Mathlib.Algebra.BigOperators.Ring.List
import Mathlib.Algebra.Order.BigOperators.Group.List
import Mathlib.Tactic.Ring
import Mathlib.Tactic.Linarith
import Mathlib.Tactic.LinearCombination
import Mathlib.Tactic.Positivity
import Mathlib.Tactic.FieldSimp
import Mathlib.Tactic.NormNum

/-!
# `EmpiricalNormalization` (C56, C70)

A batch is the list of its samples; a sample is a function from the indices of its elements.  Numbers are exact.
-/

namespace Pfrl.EmpNorm

variable {ι : Type _}

/-! ## Model -/

/-- `_mean`, `_var`, `count` and `_cached_std_inverse`, `pfrl/nn/empirical_normalization.py:34-45`. -/
structure St (ι : Type _) where
  mean : ι → ℝ
  var : ι → ℝ
  count : Nat
  cache : Option (ι → ℝ)

/-- The parameters `eps`, `until` and `clip_threshold`. -/
structure Cfg where
  eps : ℝ
  until_ : Option Nat
  clip : Option ℝ

/-- The state after the constructor. -/
def init : St ι := ⟨fun _ => 0, fun _ => 1, 0, none⟩

/-- The mean over the batch, as computed by `torch.var_mean`. -/
noncomputable def batchMean (x : List (ι → ℝ)) : ι → ℝ := fun i => (x.map fun s => s i).sum / (x.length : ℝ)

/-- The variance over the batch (`unbiased=False`), as computed by `torch.var_mean`. -/
noncomputable def batchVar (x : List (ι → ℝ)) : ι → ℝ :=
  fun i => (x.map fun s => (s i - batchMean x i) ^ 2).sum / (x.length : ℝ)

/-- `experience`, `empirical_normalization.py:61-84`. -/
noncomputable def experience (cfg : Cfg) (st : St ι) (x : List (ι → ℝ)) : St ι :=
  match cfg.until_ with
  | some u => if st.count ≥ u then st else learn st x
  | none => learn st x
where
  /-- Lines 68-86. -/
  learn (st : St ι) (x : List (ι → ℝ)) : St ι :=
    let countX := x.length
    if countX = 0 then st
    else
      let count := st.count + countX
      let rate : ℝ := (countX : ℝ) / (count : ℝ)
      let deltaMean : ι → ℝ := fun i => batchMean x i - st.mean i
      let mean : ι → ℝ := fun i => st.mean i + rate * deltaMean i
      let var : ι → ℝ := fun i =>
        st.var i + rate * (batchVar x i - st.var i + deltaMean i * (batchMean x i - mean i))
      ⟨mean, var, count, none⟩

/-- `_std_inverse`, lines 55-60: the value and the state with the cache filled. -/
noncomputable def stdInverse (cfg : Cfg) (st : St ι) : (ι → ℝ) × St ι :=
  match st.cache with
  | some c => (c, st)
  | none =>
    let c : ι → ℝ := fun i => (Real.sqrt (st.var i + cfg.eps))⁻¹
    (c, ⟨st.mean, st.var, st.count, some c⟩)

/-- `torch.clamp(x, -c, c)`. -/
noncomputable def clamp (c x : ℝ) : ℝ := min (max x (-c)) c

/-- `forward`, lines 88-107. -/
noncomputable def forward (cfg : Cfg) (st : St ι) (x : List (ι → ℝ)) (update : Bool) : St ι × List (ι → ℝ) :=
  let st := if update then experience cfg st x else st
  let inv := stdInverse cfg st
  let y := x.map fun s => fun i => (s i - st.mean i) * inv.1 i
  (inv.2, match cfg.clip with
    | some c => y.map fun s => fun i => clamp c (s i)
    | none => y)

/-- `inverse`, lines 109-111. -/
noncomputable def inverse (cfg : Cfg) (st : St ι) (y : List (ι → ℝ)) : List (ι → ℝ) :=
  y.map fun s => fun i => s i * Real.sqrt (st.var i + cfg.eps) + st.mean i

/-- What can be done with a normaliser.  `load` is `load_state_dict` with the given buffers: the cache is not a buffer. -/
inductive Op (ι : Type _) where
  | experience (x : List (ι → ℝ))
  | forward (x : List (ι → ℝ)) (update : Bool)
  | load (mean var : ι → ℝ) (count : Nat)

/-- One operation: the state and what is returned. -/
noncomputable def step (cfg : Cfg) (st : St ι) : Op ι → St ι × Option (List (ι → ℝ))
  | .experience x => (experience cfg st x, none)
  | .forward x update => ((forward cfg st x update).1, some (forward cfg st x update).2)
  | .load mean var count => (⟨mean, var, count, st.cache⟩, none)

/-- The state after a sequence of operations. -/
noncomputable def run (cfg : Cfg) : St ι → List (Op ι) → St ι
  | st, [] => st
  | st, op :: ops => run cfg (step cfg st op).1 ops

/-! ## Specification -/

/-- The samples learnt from: all batches given for learning, until (with `until`) at least that many samples have been
seen. -/
def Spec.learned (until_ : Option Nat) (ops : List (Op ι)) : List (ι → ℝ) :=
  ops.foldl (fun acc op =>
    let more : List (ι → ℝ) := match op with
      | .experience x => x
      | .forward x true => x
      | _ => []
    match until_ with
    | none => acc ++ more
    | some u => if acc.length < u then acc ++ more else acc) []

/-- The mean of some samples. -/
noncomputable def Spec.mean (data : List (ι → ℝ)) (i : ι) : ℝ := (data.map fun s => s i).sum / (data.length : ℝ)

/-- The (population) variance of some samples. -/
noncomputable def Spec.variance (data : List (ι → ℝ)) (i : ι) : ℝ :=
  (data.map fun s => (s i - Spec.mean data i) ^ 2).sum / (data.length : ℝ)

/-- Operations without loading. -/
def Spec.NoLoad (ops : List (Op ι)) : Prop := ∀ m v c, Op.load m v c ∉ ops

/-! ## Lemmas -/

theorem sum_sq_dev (l : List (ι → ℝ)) (i : ι) (m : ℝ) :
    (l.map fun s => (s i - m) ^ 2).sum =
      (l.map fun s => (s i) ^ 2).sum - 2 * m * (l.map fun s => s i).sum + l.length * m ^ 2 := by
  induction l with
  | nil => simp
  | cons s l ih =>
    simp only [List.map_cons, List.sum_cons, ih, List.length_cons]
    push_cast
    ring

theorem mean_mul (data : List (ι → ℝ)) (i : ι) (h : 0 < data.length) :
    (data.length : ℝ) * Spec.mean data i = (data.map fun s => s i).sum := by
  unfold Spec.mean
  have : (data.length : ℝ) ≠ 0 := by exact_mod_cast h.ne'
  field_simp

theorem var_mul (data : List (ι → ℝ)) (i : ι) (h : 0 < data.length) :
    (data.length : ℝ) * (Spec.variance data i + Spec.mean data i ^ 2) = (data.map fun s => (s i) ^ 2).sum := by
  unfold Spec.variance
  rw [sum_sq_dev]
  have h0 : (data.length : ℝ) ≠ 0 := by exact_mod_cast h.ne'
  have h1 := mean_mul data i h
  rw [← h1]
  field_simp
  ring

/-- The running statistics are those of `data` (0 and 1 if there is none). -/
structure Tracks (st : St ι) (data : List (ι → ℝ)) : Prop where
  count : st.count = data.length
  mean : ∀ i, 0 < data.length → st.mean i = Spec.mean data i
  var : ∀ i, 0 < data.length → st.var i = Spec.variance data i
  init : data.length = 0 → st.mean = (fun _ => 0) ∧ st.var = fun _ => 1

theorem batchMean_eq (x : List (ι → ℝ)) : batchMean x = Spec.mean x := rfl
theorem batchVar_eq (x : List (ι → ℝ)) : batchVar x = Spec.variance x := rfl

theorem combine (n k m1 v1 m2 v2 : ℝ) (hk : 0 < k) (hn : 0 ≤ n) :
    (n + k) * (m1 + k / (n + k) * (m2 - m1)) = n * m1 + k * m2 ∧
    (n + k) * ((v1 + k / (n + k) * (v2 - v1 + (m2 - m1) * (m2 - (m1 + k / (n + k) * (m2 - m1))))) +
      (m1 + k / (n + k) * (m2 - m1)) ^ 2) = n * (v1 + m1 ^ 2) + k * (v2 + m2 ^ 2) := by
  have h : n + k ≠ 0 := by positivity
  constructor
  · field_simp
    ring
  · field_simp
    ring

theorem tracks_learn {st : St ι} {data : List (ι → ℝ)} (h : Tracks st data) (x : List (ι → ℝ)) :
    Tracks (experience.learn st x) (data ++ x) := by
  unfold experience.learn
  by_cases hx : x.length = 0
  · have : x = [] := List.length_eq_zero_iff.mp hx
    subst this
    simpa using h
  · simp only [hx, if_false]
    have hxpos : 0 < x.length := by omega
    have hk : (0 : ℝ) < x.length := by exact_mod_cast hxpos
    have hlen : 0 < (data ++ x).length := by simp; omega
    have hnk : (((data ++ x).length : ℕ) : ℝ) = (data.length : ℝ) + x.length := by simp
    have hne : ((data.length : ℝ) + x.length) ≠ 0 := by positivity
    -- sums of old data, in terms of the state
    have hS1 : ∀ i, (data.map fun s => s i).sum = data.length * st.mean i := by
      intro i
      rcases Nat.eq_zero_or_pos data.length with h0 | hpos
      · have : data = [] := List.length_eq_zero_iff.mp h0
        subst this; simp
      · rw [h.mean i hpos, mean_mul data i hpos]
    have hS2 : ∀ i, (data.map fun s => (s i) ^ 2).sum = data.length * (st.var i + st.mean i ^ 2) := by
      intro i
      rcases Nat.eq_zero_or_pos data.length with h0 | hpos
      · have : data = [] := List.length_eq_zero_iff.mp h0
        subst this; simp
      · rw [h.mean i hpos, h.var i hpos, var_mul data i hpos]
    have hcomb := fun i => combine (data.length : ℝ) x.length (st.mean i) (st.var i) (batchMean x i) (batchVar x i) hk
      (Nat.cast_nonneg _)
    have hmean : ∀ i, st.mean i + (x.length : ℝ) / (data.length + x.length) * (batchMean x i - st.mean i) =
        Spec.mean (data ++ x) i := by
      intro i
      have h1 := mean_mul (data ++ x) i hlen
      rw [hnk, List.map_append, List.sum_append, hS1 i, ← mean_mul x i hxpos] at h1
      have h2 := (hcomb i).1
      rw [batchMean_eq] at h2 ⊢
      exact mul_left_cancel₀ hne (h2.trans h1.symm)
    refine ⟨?_, ?_, ?_, ?_⟩
    · simp [h.count]
    · intro i _
      rw [← hmean i, h.count]
      push_cast
      rfl
    · intro i _
      have h1 := var_mul (data ++ x) i hlen
      rw [hnk, List.map_append, List.sum_append, hS2 i, ← var_mul x i hxpos, ← batchMean_eq x, ← batchVar_eq x] at h1
      have h2 := (hcomb i).2
      rw [← hmean i] at h1
      have h3 := mul_left_cancel₀ hne (h2.trans h1.symm)
      simp only [h.count]
      push_cast
      linarith
    · intro h0; omega

theorem tracks_experience {cfg : Cfg} {st : St ι} {data : List (ι → ℝ)} (h : Tracks st data) (x : List (ι → ℝ)) :
    Tracks (experience cfg st x) (match cfg.until_ with
      | none => data ++ x
      | some u => if data.length < u then data ++ x else data) := by
  unfold experience
  cases cfg.until_ with
  | none => exact tracks_learn h x
  | some u =>
    simp only
    rw [h.count]
    by_cases hu : data.length ≥ u
    · rw [if_pos hu, if_neg (by omega)]; exact h
    · rw [if_neg hu, if_pos (by omega)]; exact tracks_learn h x

/-- The cache, if there is one, belongs to the current variance. -/
def CacheOk (cfg : Cfg) (st : St ι) : Prop :=
  ∀ c, st.cache = some c → c = fun i => (Real.sqrt (st.var i + cfg.eps))⁻¹

theorem cache_experience {cfg : Cfg} {st : St ι} (h : CacheOk cfg st) (x : List (ι → ℝ)) :
    CacheOk cfg (experience cfg st x) := by
  have hl : CacheOk cfg (experience.learn st x) := by
    unfold experience.learn
    by_cases hx : x.length = 0
    · simp only [hx, if_true]; exact h
    · simp only [hx, if_false]
      intro c hc; cases hc
  unfold experience
  split
  · split
    · exact h
    · exact hl
  · exact hl

theorem stdInverse_spec {cfg : Cfg} {st : St ι} (h : CacheOk cfg st) :
    (stdInverse cfg st).1 = (fun i => (Real.sqrt (st.var i + cfg.eps))⁻¹) ∧ CacheOk cfg (stdInverse cfg st).2 ∧
    (stdInverse cfg st).2.mean = st.mean ∧ (stdInverse cfg st).2.var = st.var ∧
    (stdInverse cfg st).2.count = st.count := by
  unfold stdInverse
  cases hc : st.cache with
  | some c => exact ⟨h c hc, h, rfl, rfl, rfl⟩
  | none => exact ⟨rfl, fun c hc => by cases hc; rfl, rfl, rfl, rfl⟩

theorem tracks_congr {st st' : St ι} {data : List (ι → ℝ)} (h : Tracks st data) (h1 : st'.mean = st.mean)
    (h2 : st'.var = st.var) (h3 : st'.count = st.count) : Tracks st' data :=
  ⟨h3.trans h.count, fun i hi => by rw [h1]; exact h.mean i hi, fun i hi => by rw [h2]; exact h.var i hi,
    fun h0 => by rw [h1, h2]; exact h.init h0⟩

theorem run_spec (cfg : Cfg) : ∀ (ops : List (Op ι)) (st : St ι) (data : List (ι → ℝ)), Spec.NoLoad ops →
    Tracks st data → CacheOk cfg st →
    Tracks (run cfg st ops) (ops.foldl (fun acc op =>
      let more : List (ι → ℝ) := match op with
        | .experience x => x
        | .forward x true => x
        | _ => []
      match cfg.until_ with
      | none => acc ++ more
      | some u => if acc.length < u then acc ++ more else acc) data) ∧ CacheOk cfg (run cfg st ops)
  | [], _, _, _, h, hc => ⟨h, hc⟩
  | op :: ops, st, data, hl, h, hc => by
    have hl' : Spec.NoLoad ops := fun m v c hmem => hl m v c (List.mem_cons_of_mem _ hmem)
    unfold run
    rw [List.foldl_cons]
    cases op with
    | experience x => exact run_spec cfg ops _ _ hl' (tracks_experience h x) (cache_experience hc x)
    | load m v c => exact absurd (List.mem_cons_self ..) (hl m v c)
    | forward x update =>
      cases update with
      | true =>
        obtain ⟨_, h2, h3, h4, h5⟩ := stdInverse_spec (cache_experience hc x)
        exact run_spec cfg ops _ _ hl' (tracks_congr (tracks_experience h x) h3 h4 h5) h2
      | false =>
        obtain ⟨_, h2, h3, h4, h5⟩ := stdInverse_spec hc
        refine run_spec cfg ops _ _ hl' ?_ h2
        have := tracks_congr h h3 h4 h5
        cases cfg.until_ with
        | none => simp only [List.append_nil]; exact this
        | some u =>
          simp only [List.append_nil, ite_self]
          exact this

/-! ## C56 -/

/-- **C56 (statistics).** After any sequence of `experience` and `forward` calls, with any batch sizes, `count` is the
number of samples learnt from, and if there is one, `mean` and `var` are the mean and the population variance of all
these samples together, however they were divided into batches. -/
theorem running_statistics (cfg : Cfg) (ops : List (Op ι)) (hl : Spec.NoLoad ops) :
    (run cfg init ops).count = (Spec.learned cfg.until_ ops).length ∧
    (0 < (Spec.learned cfg.until_ ops).length → ∀ i,
      (run cfg init ops).mean i = Spec.mean (Spec.learned cfg.until_ ops) i ∧
      (run cfg init ops).var i = Spec.variance (Spec.learned cfg.until_ ops) i) ∧
    ((Spec.learned cfg.until_ ops).length = 0 →
      (run cfg init ops).mean = (fun _ => 0) ∧ (run cfg init ops).var = fun _ => 1) := by
  obtain ⟨h, _⟩ := run_spec cfg ops init [] hl ⟨rfl, by simp, by simp, fun _ => ⟨rfl, rfl⟩⟩ (fun c hc => by cases hc)
  exact ⟨h.count, fun hpos i => ⟨h.mean i hpos, h.var i hpos⟩, h.init⟩

/-- **C56 (until).** Once at least `until` samples have been learnt, nothing changes any more. -/
theorem frozen_after_until (cfg : Cfg) {u : Nat} (hu : cfg.until_ = some u) (ops ops' : List (Op ι))
    (h : u ≤ (Spec.learned cfg.until_ ops).length) : Spec.learned cfg.until_ (ops ++ ops') = Spec.learned cfg.until_ ops := by
  unfold Spec.learned at h ⊢
  rw [List.foldl_append]
  generalize List.foldl _ [] ops = acc at h ⊢
  induction ops' with
  | nil => rfl
  | cons op ops' ih =>
    rw [List.foldl_cons]
    simp only [hu] at h ih ⊢
    rw [if_neg (by omega)]
    exact ih

/-- **C56 (normalisation).** What `forward` returns after any such history is computed from the current
statistics (after learning, with `update=True`): `(x - mean) / sqrt(var + eps)`, cut at `±clip_threshold` if given. -/
theorem forward_normalizes (cfg : Cfg) (ops : List (Op ι)) (hl : Spec.NoLoad ops) (x : List (ι → ℝ)) (update : Bool) :
    (forward cfg (run cfg init ops) x update).2 = x.map fun s => fun i =>
      let y := (s i - (run cfg init (ops ++ [.forward x update])).mean i) /
        Real.sqrt ((run cfg init (ops ++ [.forward x update])).var i + cfg.eps)
      match cfg.clip with
      | some c => min (max y (-c)) c
      | none => y := by
  obtain ⟨_, hc⟩ := run_spec cfg ops init [] hl ⟨rfl, by simp, by simp, fun _ => ⟨rfl, rfl⟩⟩ (fun c hc => by cases hc)
  have hrun : ∀ (ops : List (Op ι)) (st : St ι) (op : Op ι), run cfg st (ops ++ [op]) =
      (step cfg (run cfg st ops) op).1 := by
    intro ops
    induction ops with
    | nil => intro st op; rfl
    | cons o ops ih => intro st op; exact ih _ op
  rw [hrun]
  generalize run cfg init ops = st at hc
  show (forward cfg st x update).2 = x.map fun s => fun i =>
      let y := (s i - (forward cfg st x update).1.mean i) / Real.sqrt ((forward cfg st x update).1.var i + cfg.eps)
      match cfg.clip with
      | some c => min (max y (-c)) c
      | none => y
  unfold forward
  simp only
  have hst' : CacheOk cfg (if update then experience cfg st x else st) := by
    cases update with
    | true => exact cache_experience hc x
    | false => exact hc
  generalize (if update then experience cfg st x else st) = st' at hst'
  obtain ⟨h1, _, h3, h4, _⟩ := stdInverse_spec hst'
  rw [h1, h3, h4]
  cases cfg.clip with
  | none =>
    simp only [div_eq_mul_inv]
  | some c =>
    simp only [List.map_map, div_eq_mul_inv]
    rfl

theorem variance_nonneg (data : List (ι → ℝ)) (i : ι) : 0 ≤ Spec.variance data i := by
  unfold Spec.variance
  apply div_nonneg _ (Nat.cast_nonneg _)
  apply List.sum_nonneg
  intro y hy
  obtain ⟨s, _, rfl⟩ := List.mem_map.mp hy
  positivity

/-- **C56 (inverse).** With a positive `eps`, after any such history, `inverse` undoes `forward` (without update)
exactly on the elements that are not cut by `clip_threshold`. -/
theorem inverse_undoes_forward (cfg : Cfg) (heps : 0 < cfg.eps) (ops : List (Op ι)) (hl : Spec.NoLoad ops)
    (x : List (ι → ℝ))
    (hclip : ∀ c, cfg.clip = some c → ∀ s ∈ x, ∀ i,
      |(s i - (run cfg init ops).mean i) / Real.sqrt ((run cfg init ops).var i + cfg.eps)| ≤ c) :
    inverse cfg (forward cfg (run cfg init ops) x false).1 (forward cfg (run cfg init ops) x false).2 = x := by
  obtain ⟨ht, hc⟩ := run_spec cfg ops init [] hl ⟨rfl, by simp, by simp, fun _ => ⟨rfl, rfl⟩⟩ (fun c hc => by cases hc)
  have hvar : ∀ i, 0 < (run cfg init ops).var i + cfg.eps := by
    intro i
    rcases Nat.eq_zero_or_pos (Spec.learned cfg.until_ ops).length with h0 | hpos
    · have := (ht.init h0).2
      rw [this]; linarith
    · have := ht.var i hpos
      rw [this]
      have := variance_nonneg (Spec.learned cfg.until_ ops) i
      unfold Spec.learned at this
      linarith
  generalize run cfg init ops = st at hc hvar hclip
  obtain ⟨h1, _, h3, h4, _⟩ := stdInverse_spec hc
  unfold inverse forward
  simp only [Bool.false_eq_true, if_false]
  rw [h1, h3, h4]
  have hback : ∀ s : ι → ℝ, (fun i => (s i - st.mean i) * (Real.sqrt (st.var i + cfg.eps))⁻¹ *
      Real.sqrt (st.var i + cfg.eps) + st.mean i) = s := by
    intro s
    funext i
    have : Real.sqrt (st.var i + cfg.eps) ≠ 0 := (Real.sqrt_pos.mpr (hvar i)).ne'
    field_simp
    ring
  cases hcl : cfg.clip with
  | none =>
    simp only [List.map_map, Function.comp_def]
    conv_rhs => rw [← List.map_id' x]
    exact List.map_congr_left fun s _ => hback s
  | some c =>
    simp only [List.map_map, Function.comp_def]
    conv_rhs => rw [← List.map_id' x]
    apply List.map_congr_left
    intro s hs
    have : ∀ i, clamp c ((s i - st.mean i) * (Real.sqrt (st.var i + cfg.eps))⁻¹) =
        (s i - st.mean i) * (Real.sqrt (st.var i + cfg.eps))⁻¹ := by
      intro i
      have := hclip c hcl s hs i
      rw [div_eq_mul_inv, abs_le] at this
      unfold clamp
      rw [max_eq_left this.1, min_eq_left this.2]
    simp only [this]
    exact hback s

/-- Three samples in two batches: the mean is 3, the variance 8/3. -/
example : (run ⟨1 / 100, none, none⟩ init [Op.experience [fun _ : Unit => 1, fun _ => 3], .forward [fun _ => 5] true]).mean ()
    = 3 := by
  have h := (running_statistics ⟨1 / 100, none, none⟩
    [Op.experience [fun _ : Unit => 1, fun _ => 3], .forward [fun _ => 5] true]
    (by intro m v c; simp)).2.1 (by simp [Spec.learned]) ()
  rw [h.1]
  simp [Spec.learned, Spec.mean]
  norm_num

/-! ## C70 -/

/-- **C70 (partial).** A normaliser that has not been used (or not since it last learnt) gives, after loading, the
outputs of the normaliser that was saved. -/
theorem load_restores_partial (cfg : Cfg) (saved : List (Op ι)) (hl : Spec.NoLoad saved) (st : St ι)
    (hst : st.cache = none) (x : List (ι → ℝ)) (update : Bool) :
    (forward cfg (step cfg st (.load (run cfg init saved).mean (run cfg init saved).var (run cfg init saved).count)).1 x
      update).2 = (forward cfg (run cfg init saved) x update).2 := by
  obtain ⟨_, hc⟩ := run_spec cfg saved init [] hl ⟨rfl, by simp, by simp, fun _ => ⟨rfl, rfl⟩⟩ (fun c hc => by cases hc)
  generalize run cfg init saved = s at hc
  -- states that agree up to an admissible cache give the same outputs
  have key : ∀ s1 s2 : St ι, CacheOk cfg s1 → CacheOk cfg s2 → s1.mean = s2.mean → s1.var = s2.var →
      s1.count = s2.count → (forward cfg s1 x update).2 = (forward cfg s2 x update).2 := by
    intro s1 s2 c1 c2 hm hv hn
    have hexp : CacheOk cfg (if update then experience cfg s1 x else s1) ∧
        CacheOk cfg (if update then experience cfg s2 x else s2) ∧
        (if update then experience cfg s1 x else s1).mean = (if update then experience cfg s2 x else s2).mean ∧
        (if update then experience cfg s1 x else s1).var = (if update then experience cfg s2 x else s2).var := by
      cases update with
      | false => exact ⟨c1, c2, hm, hv⟩
      | true =>
        refine ⟨cache_experience c1 x, cache_experience c2 x, ?_, ?_⟩
        · simp only [if_true, experience, experience.learn, hm, hv, hn]
          split
          · split
            · exact hm
            · split
              · exact hm
              · rfl
          · split
            · exact hm
            · rfl
        · simp only [if_true, experience, experience.learn, hm, hv, hn]
          split
          · split
            · exact hv
            · split
              · exact hv
              · rfl
          · split
            · exact hv
            · rfl
    unfold forward
    simp only
    obtain ⟨e1, e2, e3, e4⟩ := hexp
    rw [(stdInverse_spec e1).1, (stdInverse_spec e2).1, e3, e4]
  refine key (step cfg st (.load s.mean s.var s.count)).1 s ?_ hc rfl rfl rfl
  intro c h
  simp only [step] at h
  rw [hst] at h
  cases h

/-- **C70 fails.** A normaliser that has been used before loading keeps the scale of its old statistics: here the state
saved has variance 3 (and mean 0), and with `eps = 1` the sample 2 should become 1, but becomes `2 / sqrt 2`. -/
theorem load_keeps_stale_scale :
    let cfg : Cfg := ⟨1, none, none⟩
    let used : St Unit := run cfg init [.forward [fun _ => 0] false]
    (forward cfg (step cfg used (.load (fun _ => 0) (fun _ => 3) 2)).1 [fun _ => 2] false).2 =
      [fun _ => 2 * (Real.sqrt 2)⁻¹] ∧
    (forward cfg (⟨fun _ => 0, fun _ => 3, 2, none⟩ : St Unit) [fun _ => 2] false).2 = [fun _ => 1] := by
  refine ⟨?_, ?_⟩
  · simp only [run, step, forward, stdInverse, init, Bool.false_eq_true, if_false, List.map_cons, List.map_nil]
    norm_num
  · simp only [forward, stdInverse, Bool.false_eq_true, if_false, List.map_cons, List.map_nil]
    have : Real.sqrt (3 + 1) = 2 := by
      rw [show (3 + 1 : ℝ) = 2 ^ 2 by norm_num]
      exact Real.sqrt_sq (by norm_num)
    rw [this]
    norm_num

end Pfrl.EmpNorm
