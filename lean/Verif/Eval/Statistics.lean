import Mathlib.Analysis.SpecialFunctions.Pow.Real
import Mathlib.Algebra.Order.BigOperators.Group.List
import Mathlib.Data.List.Sort
import Mathlib.Tactic.Linarith
import Mathlib.Tactic.FieldSimp
import Verif.Eval.Episodes
import Verif.Eval.BatchEpisodes

/-!
# Statistics of an evaluation (C102)

`eval_performance`, on top of the models of the two evaluation loops.  Real arithmetic.
-/

namespace Pfrl.Eval.Stats

/-! ## Model -/

/-- `statistics.mean`: raises `StatisticsError`, a `ValueError`, on no data. -/
noncomputable def mean (l : List ℝ) : Except PyErr ℝ :=
  if l.length < 1 then .error .valueError else .ok (l.sum / l.length)

/-- `statistics.median`: sort, then the middle element or the mean of the two middle ones. -/
noncomputable def median (l : List ℝ) : Except PyErr ℝ :=
  let data := l.insertionSort (· ≤ ·)
  let n := data.length
  if n = 0 then .error .valueError
  else if n % 2 = 1 then
    match data[n / 2]? with
    | none => .error .indexError
    | some x => .ok x
  else
    match data[n / 2 - 1]?, data[n / 2]? with
    | some x, some y => .ok ((x + y) / 2)
    | _, _ => .error .indexError

/-- `statistics.stdev`: the square root of the sum of squared deviations divided by `n - 1`. -/
noncomputable def stdev (l : List ℝ) : Except PyErr ℝ :=
  if l.length < 2 then .error .valueError
  else .ok (Real.sqrt ((l.map fun x => (x - l.sum / l.length) ^ 2).sum / (l.length - 1 : ℝ)))

/-- `np.max`: raises `ValueError` on an empty list. -/
noncomputable def npMax : List ℝ → Except PyErr ℝ
  | [] => .error .valueError
  | x :: xs => .ok (xs.foldl max x)

/-- `np.min`. -/
noncomputable def npMin : List ℝ → Except PyErr ℝ
  | [] => .error .valueError
  | x :: xs => .ok (xs.foldl min x)

/-- `statistics.stdev(scores) if len(scores) >= 2 else 0.0`, `pfrl/experiments/evaluator.py:297`. -/
noncomputable def guardedStdev (l : List ℝ) : Except PyErr ℝ :=
  if 2 ≤ l.length then stdev l else .ok 0

/-- The statistics of one list of numbers. -/
structure Summary where
  mean : ℝ
  median : ℝ
  stdev : ℝ
  max : ℝ
  min : ℝ

/-- `mean`, `median`, `stdev`, `max`, `min` for one list, in this order, `pfrl/experiments/evaluator.py:295-299` and
`300-304`. -/
noncomputable def summarize (l : List ℝ) : Except PyErr Summary := do
  let m ← mean l
  let md ← median l
  let sd ← guardedStdev l
  let mx ← npMax l
  let mn ← npMin l
  pure ⟨m, md, sd, mx, mn⟩

/-- The dict of statistics, `pfrl/experiments/evaluator.py:293-305`. -/
structure Report where
  episodes : ℕ
  score : Summary
  length : Summary

/-- `stats = dict(…)`, `pfrl/experiments/evaluator.py:293-305`; lengths were cast to float. -/
noncomputable def report (scores : List ℝ) (lengths : List ℕ) : Except PyErr Report := do
  let s ← summarize scores
  let l ← summarize (lengths.map fun n : ℕ => (n : ℝ))
  pure ⟨scores.length, s, l⟩

/-- `eval_performance` with an `Env`, `pfrl/experiments/evaluator.py:254-306`; `none` if the evaluation has not ended
within `fuel` steps. -/
noncomputable def evalSerial (maxLen : Option ℕ) (g : Goal) (out : ℕ → Out ℝ) (fuel : ℕ) : Option (Except PyErr Report) :=
  (runEpisodes maxLen g out fuel).map fun l => report l.scores l.lengths

/-- `eval_performance` with a `VectorEnv` of `N` environments. -/
noncomputable def evalBatch (N : ℕ) (maxLen : Option ℕ) (g : Goal) (out : ℕ → ℕ → Out ℝ) (fuel : ℕ) :
    Option (Except PyErr Report) :=
  (Batch.batchRunEpisodes N maxLen g out fuel).map fun r => report (r.2.map Prod.fst) (r.2.map Prod.snd)

/-! ## Specification -/

/-- At least half of the data are at most `m` and at least half are at least `m`. -/
def Spec.IsMedian (l : List ℝ) (m : ℝ) : Prop :=
  l.length ≤ 2 * (l.filter fun x => decide (x ≤ m)).length ∧ l.length ≤ 2 * (l.filter fun x => decide (m ≤ x)).length

/-- What the five numbers say about the data. -/
structure Spec.Describes (s : Summary) (l : List ℝ) : Prop where
  /-- the mean -/
  mean : s.mean * l.length = l.sum
  /-- at least half of the numbers are at most the median, at least half are at least the median -/
  median : IsMedian l s.median
  /-- and it is the midpoint of the smallest and the largest value with these properties -/
  median_mid : ∃ a ∈ l, ∃ b ∈ l, a ≤ b ∧ s.median = (a + b) / 2 ∧ IsMedian l a ∧ IsMedian l b ∧
    (∀ y ∈ l, IsMedian l y → a ≤ y ∧ y ≤ b)
  /-- the unbiased estimate of the variance -/
  stdev_nonneg : 0 ≤ s.stdev
  stdev : s.stdev ^ 2 * (l.length - 1) = (l.map fun x => (x - s.mean) ^ 2).sum
  /-- extreme values -/
  max_mem : s.max ∈ l
  max_ge : ∀ x ∈ l, x ≤ s.max
  min_mem : s.min ∈ l
  min_le : ∀ x ∈ l, s.min ≤ x

/-! ## Lemmas -/

theorem foldl_max_spec (xs : List ℝ) : ∀ x : ℝ, xs.foldl max x ∈ x :: xs ∧ ∀ y ∈ x :: xs, y ≤ xs.foldl max x := by
  induction xs with
  | nil => intro x; simp
  | cons a xs ih =>
    intro x
    obtain ⟨h1, h2⟩ := ih (max x a)
    simp only [List.foldl_cons]
    refine ⟨?_, fun y hy => ?_⟩
    · rcases List.mem_cons.1 h1 with h | h
      · rw [h]
        rcases max_choice x a with h | h <;> rw [h] <;> simp
      · simp [h]
    · have h3 := h2 (max x a) (by simp)
      rcases List.mem_cons.1 hy with rfl | hy
      · exact le_trans (le_max_left _ _) h3
      · rcases List.mem_cons.1 hy with rfl | hy
        · exact le_trans (le_max_right _ _) h3
        · exact h2 y (by simp [hy])

theorem foldl_min_spec (xs : List ℝ) : ∀ x : ℝ, xs.foldl min x ∈ x :: xs ∧ ∀ y ∈ x :: xs, xs.foldl min x ≤ y := by
  induction xs with
  | nil => intro x; simp
  | cons a xs ih =>
    intro x
    obtain ⟨h1, h2⟩ := ih (min x a)
    simp only [List.foldl_cons]
    refine ⟨?_, fun y hy => ?_⟩
    · rcases List.mem_cons.1 h1 with h | h
      · rw [h]
        rcases min_choice x a with h | h <;> rw [h] <;> simp
      · simp [h]
    · have h3 := h2 (min x a) (by simp)
      rcases List.mem_cons.1 hy with rfl | hy
      · exact le_trans h3 (min_le_left _ _)
      · rcases List.mem_cons.1 hy with rfl | hy
        · exact le_trans h3 (min_le_right _ _)
        · exact h2 y (by simp [hy])

/-- In a sorted list all of the first `k` elements satisfy what an upper bound for them satisfies. -/
theorem filter_take {l : List ℝ} {k : ℕ} (hk : k ≤ l.length) (p : ℝ → Bool) (h : ∀ x ∈ l.take k, p x = true) :
    k ≤ (l.filter p).length := by
  have h1 : (l.take k).filter p = l.take k := List.filter_eq_self.2 h
  have h2 : ((l.take k).filter p).length ≤ (l.filter p).length :=
    ((List.take_sublist k l).filter p).length_le
  rw [h1, List.length_take] at h2
  omega

theorem filter_drop {l : List ℝ} {k : ℕ} (p : ℝ → Bool) (h : ∀ x ∈ l.drop k, p x = true) :
    l.length - k ≤ (l.filter p).length := by
  have h1 : (l.drop k).filter p = l.drop k := List.filter_eq_self.2 h
  have h2 : ((l.drop k).filter p).length ≤ (l.filter p).length :=
    ((List.drop_sublist k l).filter p).length_le
  rw [h1, List.length_drop] at h2
  exact h2

theorem median_spec {l : List ℝ} (hl : l ≠ []) : ∃ m, median l = .ok m ∧ Spec.IsMedian l m ∧
    ∃ a ∈ l, ∃ b ∈ l, a ≤ b ∧ m = (a + b) / 2 ∧ Spec.IsMedian l a ∧ Spec.IsMedian l b ∧
      (∀ y ∈ l, Spec.IsMedian l y → a ≤ y ∧ y ≤ b) := by
  set d := l.insertionSort (· ≤ ·) with hd
  have hperm : d.Perm l := List.perm_insertionSort _ l
  have hsort : d.Pairwise (· ≤ ·) := List.pairwise_insertionSort _ l
  have hlen : d.length = l.length := hperm.length_eq
  have hpos : 0 < d.length := by rw [hlen]; exact List.length_pos_of_ne_nil hl
  have hle : ∀ i j (hi : i < d.length) (hj : j < d.length), i ≤ j → d[i] ≤ d[j] := by
    intro i j hi hj hij
    rcases Nat.lt_or_eq_of_le hij with h | h
    · exact List.pairwise_iff_getElem.1 hsort i j hi hj h
    · subst h; exact le_refl _
  have htake : ∀ (k : ℕ) (hk : k < d.length) (c : ℝ), d[k] ≤ c → ∀ x ∈ d.take (k + 1), x ≤ c := by
    intro k hk c hc x hx
    obtain ⟨i, hi, rfl⟩ := List.mem_iff_getElem.1 hx
    rw [List.length_take] at hi
    rw [List.getElem_take]
    exact le_trans (hle i k (by omega) hk (by omega)) hc
  have hdrop : ∀ (k : ℕ) (hk : k < d.length) (c : ℝ), c ≤ d[k] → ∀ x ∈ d.drop k, c ≤ x := by
    intro k hk c hc x hx
    obtain ⟨i, hi, rfl⟩ := List.mem_iff_getElem.1 hx
    rw [List.length_drop] at hi
    rw [List.getElem_drop]
    exact le_trans hc (hle k (k + i) hk (by omega) (by omega))
  -- both cases: positions `i ≤ j` around the middle
  have key : ∀ i j (hi : i < d.length) (hj : j < d.length), i ≤ j → d.length ≤ 2 * (i + 1) → 2 * i < d.length →
      2 * j ≤ d.length → d.length < 2 * j + 2 →
      Spec.IsMedian l ((d[i] + d[j]) / 2) ∧
      ∃ a ∈ l, ∃ b ∈ l, a ≤ b ∧ (d[i] + d[j]) / 2 = (a + b) / 2 ∧ Spec.IsMedian l a ∧ Spec.IsMedian l b ∧
        (∀ y ∈ l, Spec.IsMedian l y → a ≤ y ∧ y ≤ b) := by
    intro i j hi hj hij h1 h1' h2 h2'
    have hdij := hle i j hi hj hij
    have hmed : ∀ m, d[i] ≤ m → m ≤ d[j] → Spec.IsMedian l m := by
      intro m hm1 hm2
      constructor
      · have := filter_take (l := d) (k := i + 1) hi (fun x => decide (x ≤ m))
          (fun x hx => by simpa using htake i hi _ hm1 x hx)
        rw [← (hperm.filter _).length_eq]
        omega
      · have := filter_drop (l := d) (k := j) (fun x => decide (m ≤ x))
          (fun x hx => by simpa using hdrop j hj _ hm2 x hx)
        rw [← (hperm.filter _).length_eq]
        omega
    refine ⟨hmed _ (by linarith) (by linarith), d[i], hperm.mem_iff.1 (List.getElem_mem hi), d[j],
      hperm.mem_iff.1 (List.getElem_mem hj), hdij, rfl, hmed _ (le_refl _) hdij, hmed _ hdij (le_refl _), ?_⟩
    rintro y _ ⟨y1, y2⟩
    rw [← (hperm.filter _).length_eq] at y1 y2
    constructor
    · by_contra hc
      push Not at hc
      have h3 : d.filter (fun x => decide (x ≤ y)) = (d.take i).filter fun x => decide (x ≤ y) := by
        conv_lhs => rw [← List.take_append_drop i d, List.filter_append]
        rw [(List.filter_eq_nil_iff (l := d.drop i)).2, List.append_nil]
        intro x hx
        have := hdrop i hi _ (le_refl _) x hx
        simp only [decide_eq_true_eq, not_le]
        linarith
      have h4 := List.length_filter_le (fun x => decide (x ≤ y)) (d.take i)
      rw [h3] at y1
      rw [List.length_take] at h4
      omega
    · by_contra hc
      push Not at hc
      have h3 : d.filter (fun x => decide (y ≤ x)) = (d.drop (j + 1)).filter fun x => decide (y ≤ x) := by
        conv_lhs => rw [← List.take_append_drop (j + 1) d, List.filter_append]
        rw [(List.filter_eq_nil_iff (l := d.take (j + 1))).2, List.nil_append]
        intro x hx
        have := htake j hj _ (le_refl _) x hx
        simp only [decide_eq_true_eq, not_le]
        linarith
      have h4 := List.length_filter_le (fun x => decide (y ≤ x)) (d.drop (j + 1))
      rw [h3] at y2
      rw [List.length_drop] at h4
      omega
  unfold median
  simp only [← hd]
  rw [if_neg (by omega)]
  by_cases hodd : d.length % 2 = 1
  · rw [if_pos hodd, List.getElem?_eq_getElem (show d.length / 2 < d.length by omega)]
    refine ⟨_, rfl, ?_⟩
    have := key (d.length / 2) (d.length / 2) (by omega) (by omega) (le_refl _) (by omega) (by omega) (by omega)
      (by omega)
    rwa [show (d[d.length / 2] + d[d.length / 2]) / 2 = d[d.length / 2] by ring] at this
  · rw [if_neg hodd, List.getElem?_eq_getElem (show d.length / 2 - 1 < d.length by omega),
      List.getElem?_eq_getElem (show d.length / 2 < d.length by omega)]
    exact ⟨_, rfl, key (d.length / 2 - 1) (d.length / 2) (by omega) (by omega) (by omega) (by omega) (by omega)
      (by omega) (by omega)⟩

theorem sum_sq_nonneg (l : List ℝ) (c : ℝ) : 0 ≤ (l.map fun x => (x - c) ^ 2).sum := by
  apply List.sum_nonneg
  intro x hx
  obtain ⟨y, _, rfl⟩ := List.mem_map.1 hx
  positivity

theorem summarize_ok {l : List ℝ} {a b c d e : ℝ} (h1 : mean l = .ok a) (h2 : median l = .ok b)
    (h3 : guardedStdev l = .ok c) (h4 : npMax l = .ok d) (h5 : npMin l = .ok e) :
    summarize l = .ok ⟨a, b, c, d, e⟩ := by
  unfold summarize
  rw [h1, h2, h3, h4, h5]
  rfl

theorem summarize_spec {l : List ℝ} (hl : l ≠ []) : ∃ s, summarize l = .ok s ∧ Spec.Describes s l := by
  have hpos : 0 < l.length := List.length_pos_of_ne_nil hl
  obtain ⟨m, hm, m1, m3⟩ := median_spec hl
  obtain ⟨x, xs, rfl⟩ := List.exists_cons_of_ne_nil hl
  set l := x :: xs with hdef
  have hn : (0 : ℝ) < l.length := by exact_mod_cast hpos
  have hmean : mean l = .ok (l.sum / l.length) := by rw [mean, if_neg (by omega)]
  obtain ⟨mx1, mx2⟩ := foldl_max_spec xs x
  obtain ⟨mn1, mn2⟩ := foldl_min_spec xs x
  by_cases h2 : 2 ≤ l.length
  · have hsd : stdev l = .ok (Real.sqrt ((l.map fun x => (x - l.sum / l.length) ^ 2).sum / (l.length - 1 : ℝ))) := by
      rw [stdev, if_neg (by omega)]
    have hn1 : (0 : ℝ) < l.length - 1 := by
      have : (2 : ℝ) ≤ l.length := by exact_mod_cast h2
      linarith
    refine ⟨⟨l.sum / l.length, m, Real.sqrt ((l.map fun x => (x - l.sum / l.length) ^ 2).sum / (l.length - 1 : ℝ)),
      xs.foldl max x, xs.foldl min x⟩, ?_, ?_⟩
    · exact summarize_ok hmean hm (by rw [guardedStdev, if_pos h2, hsd]) rfl rfl
    · refine ⟨by field_simp, m1, m3, Real.sqrt_nonneg _, ?_, mx1, mx2, mn1, mn2⟩
      simp only
      rw [Real.sq_sqrt (div_nonneg (sum_sq_nonneg _ _) hn1.le), div_mul_cancel₀ _ hn1.ne']
  · have hxs : xs = [] := by
      have : xs.length = 0 := by
        rw [hdef, List.length_cons] at h2
        omega
      exact List.eq_nil_of_length_eq_zero this
    refine ⟨⟨l.sum / l.length, m, 0, xs.foldl max x, xs.foldl min x⟩, ?_, ?_⟩
    · exact summarize_ok hmean hm (by rw [guardedStdev, if_neg h2]) rfl rfl
    · refine ⟨by field_simp, m1, m3, le_refl _, ?_, mx1, mx2, mn1, mn2⟩
      rw [hdef, hxs]
      simp

theorem report_spec {scores : List ℝ} {lengths : List ℕ} (h1 : scores ≠ []) (h2 : lengths ≠ []) :
    ∃ r, report scores lengths = .ok r ∧ r.episodes = scores.length ∧ Spec.Describes r.score scores ∧
      Spec.Describes r.length (lengths.map fun n : ℕ => (n : ℝ)) := by
  obtain ⟨s, k1, k2⟩ := summarize_spec h1
  obtain ⟨t, k3, k4⟩ := summarize_spec (l := lengths.map fun n : ℕ => (n : ℝ)) (fun h => h2 (List.map_eq_nil_iff.1 h))
  refine ⟨⟨scores.length, s, t⟩, ?_, rfl, k2, k4⟩
  simp only [report, k1, k3]
  rfl

theorem dev_sum {l : List ℝ} {m : ℝ} (h : m * l.length = l.sum) : (l.map fun x => x - m).sum = 0 := by
  have : ∀ l : List ℝ, (l.map fun x => x - m).sum = l.sum - m * l.length := by
    intro l
    induction l with
    | nil => simp
    | cons a l ih => simp only [List.map_cons, List.sum_cons, ih, List.length_cons, Nat.cast_add, Nat.cast_one]; ring
  rw [this, h, sub_self]

theorem sq_expand (l : List ℝ) (m c : ℝ) :
    (l.map fun x => (x - c) ^ 2).sum
      = (l.map fun x => (x - m) ^ 2).sum + 2 * (m - c) * (l.map fun x => x - m).sum + l.length * (m - c) ^ 2 := by
  induction l with
  | nil => simp
  | cons a l ih => simp only [List.map_cons, List.sum_cons, ih, List.length_cons, Nat.cast_add, Nat.cast_one]; ring

theorem sum_filter_bound (l : List ℝ) (p : ℝ → Bool) (f : ℝ → ℝ) (hf : ∀ x ∈ l, 0 ≤ f x) (c : ℝ)
    (h : ∀ x ∈ l, p x = true → c ≤ f x) : c * (l.filter p).length ≤ (l.map f).sum := by
  induction l with
  | nil => simp
  | cons a l ih =>
    have := ih (fun x hx => hf x (by simp [hx])) fun x hx => h x (by simp [hx])
    rw [List.map_cons, List.sum_cons, List.filter_cons]
    cases hp : p a with
    | true =>
      simp only [if_true, List.length_cons, Nat.cast_add, Nat.cast_one]
      have := h a (by simp) hp
      linarith
    | false =>
      simp only [Bool.false_eq_true, if_false]
      have := hf a (by simp)
      linarith

theorem mean_le_max {s : Summary} {l : List ℝ} (h : Spec.Describes s l) (hl : l ≠ []) :
    s.min ≤ s.mean ∧ s.mean ≤ s.max := by
  have hn : (0 : ℝ) < l.length := by exact_mod_cast List.length_pos_of_ne_nil hl
  have h1 : l.sum ≤ l.length * s.max := by
    have := List.sum_le_card_nsmul l s.max h.max_ge
    rwa [nsmul_eq_mul] at this
  have h2 : l.length * s.min ≤ l.sum := by
    have := List.card_nsmul_le_sum l s.min h.min_le
    rwa [nsmul_eq_mul] at this
  rw [← h.mean] at h1 h2
  constructor
  · by_contra hc
    push Not at hc
    nlinarith
  · by_contra hc
    push Not at hc
    nlinarith

/-! ## C102 -/

/-- **C102 (relations).** The five numbers of any list of data are related as they should be: mean and median lie between
minimum and maximum, the median is within one standard deviation of the mean, every value is within `sqrt (n - 1)` standard
deviations of the mean, and the standard deviation is zero exactly if all values are equal. -/
theorem statistics_relations {l : List ℝ} (hl : l ≠ []) : ∃ s, summarize l = .ok s ∧ Spec.Describes s l ∧
    s.min ≤ s.mean ∧ s.mean ≤ s.max ∧ s.min ≤ s.median ∧ s.median ≤ s.max ∧
    abs (s.mean - s.median) ≤ s.stdev ∧ (∀ x ∈ l, (x - s.mean) ^ 2 ≤ s.stdev ^ 2 * (l.length - 1)) ∧
    (s.stdev = 0 ↔ ∀ x ∈ l, ∀ y ∈ l, x = y) := by
  obtain ⟨s, h0, h⟩ := summarize_spec hl
  obtain ⟨h1, h2⟩ := mean_le_max h hl
  obtain ⟨a, ha, b, hb, hab, hmed, _⟩ := h.median_mid
  have hpos := List.length_pos_of_ne_nil hl
  have hn : (1 : ℝ) ≤ l.length := by exact_mod_cast hpos
  have hsq : ∀ x ∈ l, (x - s.mean) ^ 2 ≤ s.stdev ^ 2 * (l.length - 1) := by
    intro x hx
    rw [h.stdev]
    exact List.single_le_sum (fun y hy => by obtain ⟨z, _, rfl⟩ := List.mem_map.1 hy; positivity) _
      (List.mem_map_of_mem (f := fun x => (x - s.mean) ^ 2) hx)
  refine ⟨s, h0, h, h1, h2, ?_, ?_, ?_, hsq, ?_, ?_⟩
  · have := h.min_le a ha; rw [hmed]; have := h.min_le b hb; linarith
  · have := h.max_ge a ha; rw [hmed]; have := h.max_ge b hb; linarith
  · -- one half of the data is at least as far from the mean as the median is
    by_cases hone : l.length = 1
    · obtain ⟨x, rfl⟩ := List.length_eq_one_iff.1 hone
      simp only [List.mem_singleton] at ha hb
      have hmean := h.mean
      simp at hmean
      have : s.mean - s.median = 0 := by rw [hmed, ha, hb, hmean]; ring
      rw [this, abs_zero]
      exact h.stdev_nonneg
    have hn2 : (2 : ℝ) ≤ l.length := by exact_mod_cast (by omega : 2 ≤ l.length)
    set δ := s.mean - s.median with hδ
    -- a one-sided Chebyshev inequality with the shifted square
    have key : ∀ (σ : ℝ), σ = 1 ∨ σ = -1 → 0 ≤ σ * δ →
        (l.length : ℝ) ≤ 2 * (l.filter fun x => decide (σ * x ≤ σ * s.median)).length → δ ^ 2 ≤ s.stdev ^ 2 := by
      intro σ hσ hσδ hcount
      have hσ2 : σ ^ 2 = 1 := by rcases hσ with rfl | rfl <;> norm_num
      -- consider (x - mean - σ|δ|)²
      have hb := sum_filter_bound l (fun x => decide (σ * x ≤ σ * s.median)) (fun x => (x - (s.mean + δ)) ^ 2)
        (fun x _ => by positivity) (4 * δ ^ 2) (by
          intro x _ hx
          simp only [decide_eq_true_eq] at hx
          have h3 : 0 ≤ σ * (s.median - x) := by linarith
          have h4 : σ * (s.mean + δ - x) = 2 * (σ * δ) + σ * (s.median - x) := by rw [hδ]; ring
          have h5 : (x - (s.mean + δ)) ^ 2 = (σ * (s.mean + δ - x)) ^ 2 := by
            rw [mul_pow, hσ2]; ring
          rw [h5, h4]
          have h6 : (σ * δ) ^ 2 = δ ^ 2 := by rw [mul_pow, hσ2, one_mul]
          nlinarith [mul_nonneg hσδ h3])
      rw [sq_expand l s.mean, dev_sum h.mean, ← h.stdev] at hb
      have h7 : (s.mean - (s.mean + δ)) ^ 2 = δ ^ 2 := by ring
      rw [h7] at hb
      have h8 : 4 * δ ^ 2 * ((l.length : ℝ) / 2) ≤ 4 * δ ^ 2 * (l.filter fun x => decide (σ * x ≤ σ * s.median)).length :=
        mul_le_mul_of_nonneg_left (by linarith) (by positivity)
      have h9 : (l.length : ℝ) * δ ^ 2 ≤ s.stdev ^ 2 * (l.length - 1) := by linarith
      have h10 : s.stdev ^ 2 * ((l.length : ℝ) - 1) ≤ s.stdev ^ 2 * l.length :=
        mul_le_mul_of_nonneg_left (by linarith) (by positivity)
      have h11 : (l.length : ℝ) * (s.stdev ^ 2 - δ ^ 2) ≥ 0 := by nlinarith
      by_contra hc
      push Not at hc
      nlinarith
    have hfin : δ ^ 2 ≤ s.stdev ^ 2 := by
      rcases le_total 0 δ with hd | hd
      · refine key 1 (.inl rfl) (by linarith) ?_
        have := h.median.1
        simp only [one_mul]
        exact_mod_cast this
      · refine key (-1) (.inr rfl) (by linarith) ?_
        have := h.median.2
        have e : (l.filter fun x => decide (-1 * x ≤ -1 * s.median)) = l.filter fun x => decide (s.median ≤ x) := by
          apply List.filter_congr
          intro x _
          simp
        rw [e]
        exact_mod_cast this
    exact abs_le_of_sq_le_sq hfin h.stdev_nonneg
  · intro h3 x hx y hy
    have e1 := hsq x hx
    have e2 := hsq y hy
    rw [h3] at e1 e2
    have z1 : x - s.mean = 0 := by
      have : (x - s.mean) ^ 2 = 0 := le_antisymm (by simpa using e1) (sq_nonneg _)
      exact pow_eq_zero_iff (by decide) |>.1 this
    have z2 : y - s.mean = 0 := by
      have : (y - s.mean) ^ 2 = 0 := le_antisymm (by simpa using e2) (sq_nonneg _)
      exact pow_eq_zero_iff (by decide) |>.1 this
    linarith
  · intro hall
    by_cases hone : l.length = 1
    · obtain ⟨x, rfl⟩ := List.length_eq_one_iff.1 hone
      have hg : guardedStdev [x] = .ok 0 := by simp [guardedStdev]
      unfold summarize at h0
      rw [hg] at h0
      obtain ⟨m, hm, -⟩ := median_spec (l := [x]) (by simp)
      have hmn : mean [x] = .ok (([x] : List ℝ).sum / (([x] : List ℝ).length : ℝ)) := by simp [mean]
      rw [hm, hmn] at h0
      cases h0
      rfl
    · have hn2 : (2 : ℝ) ≤ l.length := by exact_mod_cast (by omega : 2 ≤ l.length)
      have hmean : ∀ x ∈ l, x = s.mean := by
        intro x hx
        have e1 := hall _ h.min_mem x hx
        have e2 := hall _ h.max_mem x hx
        linarith
      have hz : (l.map fun x => (x - s.mean) ^ 2).sum = 0 := by
        have : l.map (fun x => (x - s.mean) ^ 2) = l.map fun _ => 0 := by
          apply List.map_congr_left
          intro x hx
          rw [← hmean x hx]
          ring
        rw [this]
        simp
      have := h.stdev
      rw [hz] at this
      rcases mul_eq_zero.1 this with h | h
      · exact pow_eq_zero_iff (by decide) |>.1 h
      · linarith

/-- **C102 (order).** The statistics do not depend on the order in which the episodes finished. -/
theorem statistics_perm {l l' : List ℝ} (hp : l.Perm l') (s s' : Summary) (h : summarize l = .ok s)
    (h' : summarize l' = .ok s') : s = s' := by
  rcases l with _ | ⟨x, xs⟩
  · simp [summarize, mean] at h
    cases h
  have hl : x :: xs ≠ [] := by simp
  have hl' : l' ≠ [] := by rintro rfl; exact hl hp.eq_nil
  obtain ⟨t, k1, k2⟩ := summarize_spec hl
  obtain ⟨t', k1', k2'⟩ := summarize_spec hl'
  rw [h] at k1
  rw [h'] at k1'
  cases k1
  cases k1'
  generalize x :: xs = l at *
  -- the median comes from the sorted list
  have hsort : l.insertionSort (· ≤ ·) = l'.insertionSort (· ≤ ·) :=
    List.Perm.eq_of_pairwise (fun a b _ _ h1 h2 => le_antisymm h1 h2) (List.pairwise_insertionSort _ _)
      (List.pairwise_insertionSort _ _)
      ((List.perm_insertionSort _ _).trans (hp.trans (List.perm_insertionSort _ _).symm))
  have hmed : median l = median l' := by unfold median; simp only [hsort]
  have hmean : mean l = mean l' := by unfold mean; rw [hp.length_eq, hp.sum_eq]
  have hsd : stdev l = stdev l' := by
    unfold stdev
    rw [hp.length_eq, hp.sum_eq, (hp.map _).sum_eq]
  have hmax : npMax l = npMax l' := by
    obtain ⟨a, as, rfl⟩ := List.exists_cons_of_ne_nil hl
    obtain ⟨b, bs, rfl⟩ := List.exists_cons_of_ne_nil hl'
    obtain ⟨p1, p2⟩ := foldl_max_spec as a
    obtain ⟨q1, q2⟩ := foldl_max_spec bs b
    exact congrArg Except.ok (le_antisymm (q2 _ (hp.mem_iff.1 p1)) (p2 _ (hp.mem_iff.2 q1)))
  have hmin : npMin l = npMin l' := by
    obtain ⟨a, as, rfl⟩ := List.exists_cons_of_ne_nil hl
    obtain ⟨b, bs, rfl⟩ := List.exists_cons_of_ne_nil hl'
    obtain ⟨p1, p2⟩ := foldl_min_spec as a
    obtain ⟨q1, q2⟩ := foldl_min_spec bs b
    exact congrArg Except.ok (le_antisymm (p2 _ (hp.mem_iff.2 q1)) (q2 _ (hp.mem_iff.1 p1)))
  have : summarize l = summarize l' := by
    unfold summarize guardedStdev
    rw [hmean, hmed, hsd, hmax, hmin, hp.length_eq]
  rw [h, h'] at this
  cases this
  rfl

/-- **C102 (serial).** An evaluation by `n ≥ 1` episodes that ends, on any environment with any agent, reports the number
of episodes and the statistics of the returns and lengths of exactly the `n` episodes run. -/
theorem eval_performance_serial {maxLen : Option ℕ} {n : ℕ} (hn : 0 < n) {out : ℕ → Out ℝ} {fuel : ℕ}
    {res : Except PyErr Report} (h : evalSerial maxLen (.episodes n) out fuel = some res) :
    ∃ (r : Report) (steps : ℕ) (segs : List (List (Out ℝ))), res = .ok r ∧ r.episodes = n ∧ segs.length = n ∧
      segs.flatten = (List.range steps).map out ∧ (∀ seg ∈ segs, Eval.Spec.IsEpisode maxLen seg) ∧
      Spec.Describes r.score (segs.map Eval.Spec.ret) ∧
      Spec.Describes r.length (segs.map fun seg => (seg.length : ℝ)) := by
  unfold evalSerial at h
  obtain ⟨l, hl, rfl⟩ := Option.map_eq_some_iff.1 h
  obtain ⟨segs, h1, h2, h3, h4, h5, _⟩ := serial_evaluation_by_episodes hn hl
  have hne : segs ≠ [] := by rintro rfl; simp at h1; omega
  obtain ⟨r, k1, k2, k3, k4⟩ := report_spec (scores := l.scores) (lengths := l.lengths) (by rw [h4]; simpa using hne)
    (by rw [h5]; simpa using hne)
  refine ⟨r, l.timestep, segs, k1, by rw [k2, h4, List.length_map, h1], h1, h2, h3, by rw [← h4]; exact k3, ?_⟩
  rw [h5, List.map_map] at k4
  exact k4

/-- **C102 (serial, by steps).** An evaluation by `n ≥ 1` steps ends and reports without failing. -/
theorem eval_performance_serial_steps {maxLen : Option ℕ} {n : ℕ} (hn : 0 < n) (out : ℕ → Out ℝ) :
    ∃ (r : Report) (scores : List ℝ) (lengths : List ℕ), evalSerial maxLen (.steps n) out n = some (.ok r) ∧
      scores ≠ [] ∧ r.episodes = scores.length ∧ Spec.Describes r.score scores ∧
      Spec.Describes r.length (lengths.map fun n : ℕ => (n : ℝ)) ∧
      ∃ (segs : List (List (Out ℝ))) (rest : List (Out ℝ)), segs.flatten ++ rest = (List.range n).map out ∧
        (∀ seg ∈ segs, Eval.Spec.IsEpisode maxLen seg) ∧ Eval.Spec.Unfinished maxLen rest ∧
        (segs ≠ [] → scores = segs.map Eval.Spec.ret ∧ lengths = segs.map List.length) ∧
        (segs = [] → scores = [Eval.Spec.ret rest] ∧ lengths = [rest.length]) := by
  obtain ⟨l, h1, _, h3, segs, rest, h4, h5, h6, h7, h8, _⟩ := serial_evaluation_by_steps (maxLen := maxLen) hn out
  have hlen : l.lengths ≠ [] := by
    by_cases hs : segs = []
    · rw [(h8 hs).2]; simp
    · rw [(h7 hs).2]; simpa using hs
  obtain ⟨r, k1, k2, k3, k4⟩ := report_spec h3 hlen
  exact ⟨r, l.scores, l.lengths, by simp only [evalSerial, h1, Option.map_some, k1], h3, k2, k3, k4, segs, rest, h4, h5, h6,
    h7, h8⟩

/-- **C102 (batch).** With a vector environment, an evaluation by `n ≥ 1` episodes that ends reports the statistics of the
`n` first episodes in starting order. -/
theorem eval_performance_batch {N : ℕ} {maxLen : Option ℕ} {n : ℕ} (hn : 0 < n) {out : ℕ → ℕ → Out ℝ} {fuel : ℕ}
    {res : Except PyErr Report} (h : evalBatch N maxLen (.episodes n) out fuel = some res) :
    ∃ (r : Report) (steps : ℕ) (eps : List (List (Out ℝ))), res = .ok r ∧ r.episodes = n ∧ eps.length = n ∧
      (∀ j, j < n → ∃ s i e, (Batch.Spec.begun N maxLen out steps)[j]? = some (s, i) ∧ i < N ∧ s ≤ e ∧ e < steps ∧
        eps[j]? = some (Batch.Spec.stretch (out i) s e) ∧ Eval.Spec.IsEpisode maxLen (Batch.Spec.stretch (out i) s e)) ∧
      Spec.Describes r.score (eps.map Eval.Spec.ret) ∧
      Spec.Describes r.length (eps.map fun seg => (seg.length : ℝ)) := by
  unfold evalBatch at h
  obtain ⟨⟨l, res'⟩, hl, rfl⟩ := Option.map_eq_some_iff.1 h
  obtain ⟨h1, h2⟩ := Batch.batch_evaluation_by_episodes hl
  have hne : res' ≠ [] := by rintro rfl; simp at h1; omega
  obtain ⟨r, k1, k2, k3, k4⟩ := report_spec (scores := res'.map Prod.fst) (lengths := res'.map Prod.snd)
    (by simpa using hne) (by simpa using hne)
  choose! s i e g1 g2 g3 g4 g5 g6 using h2
  let eps := (List.range n).map fun j => Batch.Spec.stretch (out (i j)) (s j) (e j)
  have hres : res' = eps.map fun seg => (Eval.Spec.ret seg, seg.length) := by
    apply List.ext_getElem?
    intro j
    by_cases hj : j < n
    · rw [g6 j hj]
      simp [eps, hj]
    · rw [List.getElem?_eq_none (by omega), List.getElem?_eq_none (by simp [eps]; omega)]
  refine ⟨r, l.timestep, eps, k1, by rw [k2, List.length_map, h1], by simp [eps], fun j hj => ?_, ?_, ?_⟩
  · exact ⟨s j, i j, e j, g1 j hj, g2 j hj, g3 j hj, g4 j hj, by simp [eps, hj], g5 j hj⟩
  · rw [hres, List.map_map] at k3
    exact k3
  · rw [hres, List.map_map, List.map_map] at k4
    exact k4

/-- **C102 (batch, by steps).** With at least one environment, an evaluation by `n ≥ 1` steps ends and reports without
failing. -/
theorem eval_performance_batch_steps {N : ℕ} (hN : 0 < N) {maxLen : Option ℕ} {n : ℕ} (hn : 0 < n) (out : ℕ → ℕ → Out ℝ) :
    ∃ r l res, evalBatch N maxLen (.steps n) out n = some (.ok r) ∧
      Batch.batchRunEpisodes N maxLen (.steps n) out n = some (l, res) ∧ r.episodes = res.length ∧
      Spec.Describes r.score (res.map Prod.fst) ∧ Spec.Describes r.length (res.map fun x => (x.2 : ℝ)) := by
  obtain ⟨l, res, h1, _, h3, _⟩ := Batch.batch_evaluation_by_steps (maxLen := maxLen) hN hn out
  obtain ⟨r, k1, k2, k3, k4⟩ := report_spec (scores := res.map Prod.fst) (lengths := res.map Prod.snd)
    (by simpa using h3) (by simpa using h3)
  refine ⟨r, l, res, by simp only [evalBatch, h1, Option.map_some, k1], h1, by rw [k2, List.length_map], k3, ?_⟩
  rw [List.map_map] at k4
  exact k4

/-- **C102, a difference.** Asked for zero episodes, the serial evaluation reports one (unfinished) episode and the batch
evaluation raises, whatever the environments do. -/
theorem eval_performance_zero_episodes (N : ℕ) (maxLen : Option ℕ) (out : ℕ → Out ℝ) (outs : ℕ → ℕ → Out ℝ) :
    evalBatch N maxLen (.episodes 0) outs 1 = some (.error .valueError) ∧
    ∃ r, evalSerial maxLen (.episodes 0) out 1 = some (.ok r) ∧ r.episodes = 1 := by
  constructor
  · unfold evalBatch Batch.batchRunEpisodes Batch.Loop.run
    simp only [Batch.terminate]
    simp [report, summarize, mean]
    rfl
  · have h : ∃ l : Loop ℝ, runEpisodes maxLen (.episodes 0) out 1 = some l ∧ l.scores.length = 1 ∧ l.lengths.length = 1 := by
      unfold runEpisodes Loop.run
      simp only [Goal.reached, ge_iff_le, Nat.zero_le, decide_true, if_true, Option.map_some]
      refine ⟨_, rfl, ?_⟩
      unfold Loop.finish Loop.body Loop.init
      simp only [if_true]
      split <;> split <;> simp_all
    obtain ⟨l, h1, h2, h3⟩ := h
    obtain ⟨r, k1, k2, _⟩ := report_spec (scores := l.scores) (lengths := l.lengths)
      (by intro hc; rw [hc] at h2; cases h2) (by intro hc; rw [hc] at h3; cases h3)
    exact ⟨r, by simp only [evalSerial, h1, Option.map_some, k1], by rw [k2, h2]⟩

/-! ## Non-vacuity -/

/-- Four scores. -/
example : ∃ s, summarize [3, 1, 2, 10] = .ok s ∧ s.mean = 4 ∧ s.min = 1 ∧ s.max = 10 ∧ s.stdev ^ 2 * 3 = 50 := by
  obtain ⟨s, h, d⟩ := summarize_spec (l := [3, 1, 2, 10]) (by simp)
  have hm : s.mean = 4 := by
    have := d.mean
    norm_num at this
    linarith
  refine ⟨s, h, hm, ?_, ?_, ?_⟩
  · have h1 := d.min_mem
    have h2 := d.min_le 1 (by simp)
    simp only [List.mem_cons, List.not_mem_nil, or_false] at h1
    rcases h1 with h | h | h | h <;> linarith
  · have h1 := d.max_mem
    have h2 := d.max_ge 10 (by simp)
    simp only [List.mem_cons, List.not_mem_nil, or_false] at h1
    rcases h1 with h | h | h | h <;> linarith
  · have := d.stdev
    rw [hm] at this
    norm_num at this
    linarith

/-- An environment whose episodes have one step: the evaluation by three episodes ends. -/
example : ∃ res, evalSerial none (.episodes 3) (fun k => ⟨(k : ℝ), true, false⟩) 6 = some res :=
  ⟨_, rfl⟩

example : ∃ res, evalBatch 2 none (.episodes 3) (fun i k => ⟨(i : ℝ) + k, true, false⟩) 6 = some res :=
  ⟨_, rfl⟩

end Pfrl.Eval.Stats
