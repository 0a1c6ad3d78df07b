import Mathlib.Analysis.Complex.Exponential
import Mathlib.Analysis.Complex.Trigonometric
import Mathlib.Algebra.BigOperators.Fin
import Mathlib.Algebra.BigOperators.Ring.Finset
import Mathlib.Algebra.Order.BigOperators.Ring.Finset
import Mathlib.Algebra.BigOperators.Field
import Mathlib.Data.Finset.Max
import Mathlib.Tactic.Ring
import Mathlib.Tactic.Linarith
import Mathlib.Tactic.Positivity
import Mathlib.Tactic.FieldSimp
import Mathlib.Tactic.NormNum
import Mathlib.Data.List.Sigma
import Mathlib.Data.Matrix.Mul
import Verif.Numeric.Actions

/-!
# Action values (C57, C58, C71)

All operations of action values treat the rows of a batch separately; one row is modelled.  Numbers are exact.
-/

namespace Pfrl.Value

open Finset

/-! ## Model -/

/-! ### `DiscreteActionValue` -/

variable {K : Type _}

/-- The loop of `argmax`: the index of the largest element seen so far. -/
def argmaxFrom [LinearOrder K] : Nat → K → Nat → List K → Nat
  | bestIdx, _, _, [] => bestIdx
  | bestIdx, best, i, x :: xs => if best < x then argmaxFrom i x (i + 1) xs else argmaxFrom bestIdx best (i + 1) xs

/-- `q_values.argmax`, `pfrl/action_value.py:59-61`.  Among equal values the first is taken here (PyTorch does not say which
one).  `none`: `argmax` of an empty row raises. -/
def greedyAction [LinearOrder K] : List K → Option Nat
  | [] => none
  | x :: xs => some (argmaxFrom 0 x 1 xs)

/-- `evaluate_actions`, `action_value.py:68-70`.  `none`: the index is out of range and `gather` raises. -/
def evaluateAction (q : List K) (a : Nat) : Option K := q[a]?

/-- `max`, `action_value.py:63-66`. -/
def maxValue [LinearOrder K] (q : List K) : Option K := (greedyAction q).bind fun a => q[a]?

/-- `compute_advantage`, `action_value.py:72-73`. -/
def advantage [LinearOrder K] [Sub K] (q : List K) (a : Nat) : Option K :=
  (evaluateAction q a).bind fun v => (maxValue q).map fun m => v - m

/-- `F.softmax` over a row. -/
noncomputable def softmax {n : Nat} (x : Fin n → ℝ) : Fin n → ℝ := fun i => Real.exp (x i) / ∑ j, Real.exp (x j)

/-- `compute_expectation`, `action_value.py:78-79` (without `dim`, `F.softmax` of a two-dimensional
tensor is over the last dimension). -/
noncomputable def expectation {n : Nat} (beta : ℝ) (q : Fin n → ℝ) : ℝ := ∑ i, softmax (fun j => beta * q j) i * q i

/-! ### `DistributionalDiscreteActionValue`, `QuantileDiscreteActionValue` -/

/-- `q_values`, `action_value.py:114-115`: for each action the sum of probability times value over the atoms. -/
def distQ [Mul K] [Add K] [Zero K] (qDist : List (List K)) (z : List K) : List K :=
  qDist.map fun p => (List.zipWith (· * ·) p z).sum

/-- `max_as_distribution`, `action_value.py:128-138`. -/
def maxAsDistribution [LinearOrder K] [Mul K] [Add K] [Zero K] (qDist : List (List K)) (z : List K) : Option (List K) :=
  (greedyAction (distQ qDist z)).bind fun a => qDist[a]?

/-- `q_values` of `QuantileDiscreteActionValue`, `action_value.py:196-198`: the mean over the quantiles. -/
noncomputable def quantileQ {T n : Nat} (quantiles : Fin T → Fin n → ℝ) : Fin n → ℝ := fun a => (∑ t, quantiles t a) / T

/-! ### `QuadraticActionValue` -/

/-- `u^T P u` as computed by two matrix products. -/
def quad {n : Nat} (mat : Fin n → Fin n → ℝ) (d : Fin n → ℝ) : ℝ := ∑ j, (∑ i, d i * mat i j) * d j

/-- `QuadraticActionValue`, `action_value.py:232-324`. -/
structure Quadratic (n : Nat) where
  mu : Fin n → ℝ
  mat : Fin n → Fin n → ℝ
  v : ℝ
  minAction : Option (Fin n → ℝ)
  maxAction : Option (Fin n → ℝ)

namespace Quadratic
variable {n : Nat} (q : Quadratic n)

/-- `greedy_actions`, lines 272-279. -/
noncomputable def greedy : Fin n → ℝ :=
  let a := q.mu
  let a : Fin n → ℝ := match q.minAction with
    | none => a
    | some l => fun i => max (l i) (a i)
  match q.maxAction with
  | none => a
  | some h => fun i => min (h i) (a i)

/-- `evaluate_actions`, lines 290-300. -/
noncomputable def evaluate (u : Fin n → ℝ) : ℝ := -(1 / 2) * quad q.mat (fun i => u i - q.mu i) + q.v

/-- `max`, lines 281-288. -/
noncomputable def maxV : ℝ := if q.minAction = none ∧ q.maxAction = none then q.v else q.evaluate q.greedy

/-- `compute_advantage`, lines 302-303. -/
noncomputable def advantage (u : Fin n → ℝ) : ℝ := q.evaluate u - q.maxV

end Quadratic

/-! ### The matrix of `FCQuadraticStateQFunction` -/

/-- `np.tril_indices(n, -1)`: the positions below the diagonal, row by row. -/
def trilIndices (n : Nat) : List (Nat × Nat) := (List.range n).flatMap fun i => (List.range i).map fun j => (i, j)

/-- `lower_triangular_matrix`, `pfrl/functions/lower_triangular_matrix.py:5-28`: zeros, then the entries below the
diagonal in the order of `tril_indices`, then the diagonal. -/
def lowerTriangular (n : Nat) (diag : Fin n → ℝ) (nonDiag : List ℝ) : Fin n → Fin n → ℝ :=
  fun i j => if i = j then diag i else (((trilIndices n).zip nonDiag).lookup (i.1, j.1)).getD 0

/-- `mat` in `FCQuadraticStateQFunction.forward`, `pfrl/q_functions/state_q_functions.py:206-212`: the diagonal is the
exponential of a layer's output `hDiag`; the matrix is `L L^T` (for one dimension this is the square of the diagonal, which
is what the code computes then). -/
noncomputable def nafMatrix (n : Nat) (hDiag : Fin n → ℝ) (nonDiag : List ℝ) : Fin n → Fin n → ℝ :=
  let tril := lowerTriangular n (fun i => Real.exp (hDiag i)) nonDiag
  fun i j => ∑ k, tril i k * tril j k

/-- `FCQuadraticStateQFunction.forward`, `state_q_functions.py:194-219`, from the outputs of its layers; with
`scale_mu`, `mu` is bounded by `tanh` (`scale_by_tanh`, lines 18-23, is the same function as `bound_by_tanh`). -/
noncomputable def naf (n : Nat) (scaleMu : Bool) (low high : Fin n → ℝ) (v : ℝ) (mu hDiag : Fin n → ℝ)
    (nonDiag : List ℝ) : Quadratic n :=
  ⟨if scaleMu then Numeric.boundByTanh mu low high else mu, nafMatrix n hDiag nonDiag, v, some low, some high⟩

/-! ### Dueling heads -/

/-- `DuelingDQN.forward` after the two streams, `pfrl/q_functions/dueling_dqn.py:54-63`. -/
noncomputable def dueling {n : Nat} (ya : Fin n → ℝ) (ys : ℝ) : Fin n → ℝ :=
  let mean := (∑ i, ya i) / n
  fun i => (ya i - mean) + ys

/-- `DistributionalDuelingDQN.forward` after the two streams, `dueling_dqn.py:116-126`: the distribution of each
action. -/
noncomputable def duelingDist {n m : Nat} (ya : Fin n → Fin m → ℝ) (ys : Fin m → ℝ) : Fin n → Fin m → ℝ :=
  let mean : Fin m → ℝ := fun k => (∑ i, ya i k) / n
  fun i => softmax fun k => (ya i k - mean k) + ys k

/-! ## Lemmas -/

theorem argmaxFrom_spec [LinearOrder K] : ∀ (rest pre : List K) (b : Nat) (best : K), pre[b]? = some best →
    (∀ y ∈ pre, y ≤ best) →
    ∃ m, (pre ++ rest)[argmaxFrom b best pre.length rest]? = some m ∧ ∀ y ∈ pre ++ rest, y ≤ m
  | [], pre, b, best, hb, hle => ⟨best, by simpa [argmaxFrom] using hb, by simpa using hle⟩
  | x :: rest, pre, b, best, hb, hle => by
    have hsplit : pre ++ x :: rest = (pre ++ [x]) ++ rest := by simp
    rw [hsplit]
    have hlen : (pre ++ [x]).length = pre.length + 1 := by simp
    unfold argmaxFrom
    by_cases hlt : best < x
    · rw [if_pos hlt]
      have := argmaxFrom_spec rest (pre ++ [x]) pre.length x (by simp)
        (by
          intro y hy
          rcases List.mem_append.mp hy with hy | hy
          · exact (hle y hy).trans hlt.le
          · rw [List.mem_singleton.mp hy])
      rwa [hlen] at this
    · rw [if_neg hlt]
      have := argmaxFrom_spec rest (pre ++ [x]) b best
        (by rw [List.getElem?_append_left (List.getElem?_eq_some_iff.mp hb).1]; exact hb)
        (by
          intro y hy
          rcases List.mem_append.mp hy with hy | hy
          · exact hle y hy
          · rw [List.mem_singleton.mp hy]; exact not_lt.mp hlt)
      rwa [hlen] at this

theorem greedyAction_spec [LinearOrder K] {q : List K} (h : q ≠ []) :
    ∃ g m, greedyAction q = some g ∧ q[g]? = some m ∧ ∀ y ∈ q, y ≤ m := by
  cases q with
  | nil => exact absurd rfl h
  | cons x xs =>
    obtain ⟨m, h1, h2⟩ := argmaxFrom_spec xs [x] 0 x rfl (by simp)
    exact ⟨_, m, rfl, h1, h2⟩

theorem softmax_pos {n : Nat} (x : Fin n → ℝ) (i : Fin n) : 0 < softmax x i :=
  div_pos (Real.exp_pos _) (sum_pos (fun _ _ => Real.exp_pos _) ⟨i, mem_univ i⟩)

theorem softmax_sum {n : Nat} (hn : 0 < n) (x : Fin n → ℝ) : ∑ i, softmax x i = 1 := by
  unfold softmax
  rw [← sum_div]
  apply div_self
  exact (sum_pos (fun j _ => Real.exp_pos _) ⟨⟨0, hn⟩, mem_univ _⟩).ne'

/-! ## C57 -/

/-- **C57 (discrete).** For a row with at least one action: the greedy action is one of the actions, `max` is its
value, no action has a larger value; advantages of the actions are never positive, and that of the greedy action is
zero. -/
theorem greedy_discrete [Field K] [LinearOrder K] [IsStrictOrderedRing K] {q : List K} (h : q ≠ []) :
    ∃ g m, greedyAction q = some g ∧ maxValue q = some m ∧ evaluateAction q g = some m ∧
      (∀ a v, evaluateAction q a = some v → v ≤ m) ∧
      (∀ a, a < q.length → ∃ d, advantage q a = some d ∧ d ≤ 0) ∧ advantage q g = some 0 := by
  obtain ⟨g, m, h1, h2, h3⟩ := greedyAction_spec h
  have hmax : maxValue q = some m := by unfold maxValue; rw [h1]; exact h2
  refine ⟨g, m, h1, hmax, h2, ?_, ?_, ?_⟩
  · intro a v hv
    exact h3 v (List.mem_of_getElem? hv)
  · intro a ha
    unfold advantage evaluateAction
    rw [hmax, List.getElem?_eq_getElem ha]
    exact ⟨_, rfl, sub_nonpos.mpr (h3 _ (List.getElem_mem ha))⟩
  · unfold advantage evaluateAction
    rw [hmax, h2]
    simp

/-- **C57 (distributional).** `max` is the expectation of the distribution returned by `max_as_distribution`, and no
action's distribution has a larger expectation. -/
theorem greedy_distributional [LinearOrder K] [Mul K] [Add K] [Zero K] {qDist : List (List K)} (h : qDist ≠ [])
    (z : List K) :
    ∃ g p, greedyAction (distQ qDist z) = some g ∧ qDist[g]? = some p ∧ maxAsDistribution qDist z = some p ∧
      maxValue (distQ qDist z) = some (List.zipWith (· * ·) p z).sum ∧
      ∀ p' ∈ qDist, (List.zipWith (· * ·) p' z).sum ≤ (List.zipWith (· * ·) p z).sum := by
  have hne : distQ qDist z ≠ [] := by
    unfold distQ
    simpa using h
  obtain ⟨g, m, h1, h2, h3⟩ := greedyAction_spec hne
  have hg : g < qDist.length := by
    have := (List.getElem?_eq_some_iff.mp h2).1
    simpa [distQ] using this
  have hm : (List.zipWith (· * ·) qDist[g] z).sum = m := by
    unfold distQ at h2
    rw [List.getElem?_map, List.getElem?_eq_getElem hg] at h2
    simpa using h2
  refine ⟨g, qDist[g], h1, List.getElem?_eq_getElem hg, ?_, ?_, ?_⟩
  · unfold maxAsDistribution
    rw [h1]
    exact List.getElem?_eq_getElem hg
  · unfold maxValue
    rw [h1, hm]
    exact h2
  · intro p' hp'
    rw [hm]
    exact h3 _ (List.mem_map_of_mem (f := fun p => (List.zipWith (· * ·) p z).sum) hp')

/-- **C57 (quantiles).** The value of an action is the mean of its quantiles, so it lies between any bounds of them. -/
theorem quantile_value {T n : Nat} (hT : 0 < T) (quantiles : Fin T → Fin n → ℝ) (a : Fin n) :
    (T : ℝ) * quantileQ quantiles a = ∑ t, quantiles t a ∧
    ∀ lo hi, (∀ t, lo ≤ quantiles t a ∧ quantiles t a ≤ hi) → lo ≤ quantileQ quantiles a ∧ quantileQ quantiles a ≤ hi := by
  have hT' : (0 : ℝ) < T := by exact_mod_cast hT
  have hmul : (T : ℝ) * quantileQ quantiles a = ∑ t, quantiles t a := by
    unfold quantileQ
    field_simp
  refine ⟨hmul, fun lo hi hb => ?_⟩
  have h1 : (T : ℝ) * lo ≤ ∑ t, quantiles t a := by
    have := Finset.card_nsmul_le_sum univ (fun t => quantiles t a) lo (fun t _ => (hb t).1)
    simpa using this
  have h2 : ∑ t, quantiles t a ≤ (T : ℝ) * hi := by
    have := Finset.sum_le_card_nsmul univ (fun t => quantiles t a) hi (fun t _ => (hb t).2)
    simpa using this
  rw [← hmul] at h1 h2
  exact ⟨le_of_mul_le_mul_left h1 hT', le_of_mul_le_mul_left h2 hT'⟩

/-- **C57 (softmax expectation).** The expectation used by DPP is a weighted mean of the action values: it lies
between any bounds of them; and it is never above `max`. -/
theorem expectation_between {n : Nat} (hn : 0 < n) (beta : ℝ) (q : Fin n → ℝ) (lo hi : ℝ)
    (h : ∀ i, lo ≤ q i ∧ q i ≤ hi) : lo ≤ expectation beta q ∧ expectation beta q ≤ hi := by
  have hs := softmax_sum hn (fun j => beta * q j)
  unfold expectation
  constructor
  · calc lo = ∑ i, softmax (fun j => beta * q j) i * lo := by rw [← sum_mul, hs, one_mul]
      _ ≤ _ := sum_le_sum fun i _ => mul_le_mul_of_nonneg_left (h i).1 (softmax_pos _ i).le
  · calc _ ≤ ∑ i, softmax (fun j => beta * q j) i * hi :=
        sum_le_sum fun i _ => mul_le_mul_of_nonneg_left (h i).2 (softmax_pos _ i).le
      _ = hi := by rw [← sum_mul, hs, one_mul]

example : greedyAction [(1 : Int), 5, 2, 5] = some 1 ∧ maxValue [(1 : Int), 5, 2, 5] = some 5 ∧
    advantage [(1 : Int), 5, 2, 5] 2 = some (-3) := by decide

/-- The admissible actions of a quadratic action value. -/
def Spec.admissible {n : Nat} (q : Quadratic n) (u : Fin n → ℝ) : Prop :=
  (∀ l, q.minAction = some l → ∀ i, l i ≤ u i) ∧ (∀ h, q.maxAction = some h → ∀ i, u i ≤ h i)

theorem quad_zero {n : Nat} (mat : Fin n → Fin n → ℝ) : quad mat (fun _ => 0) = 0 := by
  unfold quad; simp

theorem greedy_of_mu {n : Nat} (q : Quadratic n) (hmu : Spec.admissible q q.mu) : q.greedy = q.mu := by
  unfold Quadratic.greedy
  cases hl : q.minAction with
  | none =>
    cases hh : q.maxAction with
    | none => rfl
    | some h => funext i; exact min_eq_right (hmu.2 h hh i)
  | some l =>
    have e1 : (fun i => max (l i) (q.mu i)) = q.mu := funext fun i => max_eq_right (hmu.1 l hl i)
    cases hh : q.maxAction with
    | none => exact e1
    | some h =>
      funext i
      show min (h i) (max (l i) (q.mu i)) = q.mu i
      rw [max_eq_right (hmu.1 l hl i), min_eq_right (hmu.2 h hh i)]

theorem evaluate_mu {n : Nat} (q : Quadratic n) : q.evaluate q.mu = q.v := by
  unfold Quadratic.evaluate
  simp only [sub_self]
  rw [quad_zero]
  ring

theorem maxV_eq {n : Nat} (q : Quadratic n) : q.maxV = q.evaluate q.greedy := by
  unfold Quadratic.maxV
  by_cases h : q.minAction = none ∧ q.maxAction = none
  · rw [if_pos h, greedy_of_mu q ⟨fun l hl => (by rw [h.1] at hl; cases hl), fun u hu => (by rw [h.2] at hu; cases hu)⟩,
      evaluate_mu]
  · rw [if_neg h]

/-- **C57 (quadratic, partial).** Let the matrix be positive semidefinite and the bounds (if both are given) be
ordered.  Then the greedy action is admissible and `max` is its value.  If moreover `mu` itself is
admissible (in particular if there are no bounds), or the matrix is diagonal, no admissible action has a larger
value, so that advantages of admissible actions are never positive.

What is missing: bounds that cut off `mu` with a matrix that is not diagonal; see `greedy_quadratic_not_maximal`. -/
theorem greedy_quadratic_partial {n : Nat} (q : Quadratic n) (hpsd : ∀ d, 0 ≤ quad q.mat d)
    (hbounds : ∀ l h, q.minAction = some l → q.maxAction = some h → ∀ i, l i ≤ h i) :
    Spec.admissible q q.greedy ∧ q.maxV = q.evaluate q.greedy ∧
    ((Spec.admissible q q.mu ∨ ∀ i j, i ≠ j → q.mat i j = 0) →
      ∀ u, Spec.admissible q u → q.evaluate u ≤ q.maxV ∧ q.advantage u ≤ 0) := by
  refine ⟨?_, maxV_eq q, ?_⟩
  · unfold Spec.admissible Quadratic.greedy
    cases hl : q.minAction with
    | none =>
      cases hh : q.maxAction with
      | none => exact ⟨by simp, by simp⟩
      | some h =>
        refine ⟨fun l h => (nomatch h), ?_⟩
        intro h' e i; cases e; exact min_le_left _ _
    | some l =>
      cases hh : q.maxAction with
      | none =>
        refine ⟨?_, fun h e => (nomatch e)⟩
        intro l' e i; cases e; exact le_max_left _ _
      | some h =>
        refine ⟨?_, ?_⟩
        · intro l' e i; cases e
          exact le_min (hbounds l h hl hh i) (le_max_left _ _)
        · intro h' e i; cases e; exact min_le_left _ _
  · intro hcase u hu
    have key : q.evaluate u ≤ q.maxV := by
      rw [maxV_eq]
      rcases hcase with hmu | hdiag
      · rw [greedy_of_mu q hmu, evaluate_mu]
        unfold Quadratic.evaluate
        have := hpsd (fun i => u i - q.mu i)
        linarith
      · -- the value is a sum over the coordinates
        have hquad : ∀ d, quad q.mat d = ∑ j, q.mat j j * d j ^ 2 := by
          intro d
          unfold quad
          apply sum_congr rfl
          intro j _
          rw [sum_eq_single j (fun i _ hij => by rw [hdiag i j hij, mul_zero]) (fun h => absurd (mem_univ j) h)]
          ring
        have hjj : ∀ j, 0 ≤ q.mat j j := by
          intro j
          have := hpsd (fun i => if i = j then 1 else 0)
          rw [hquad] at this
          simpa [sum_ite_eq', ite_pow] using this
        unfold Quadratic.evaluate
        rw [hquad, hquad]
        have : ∑ j, q.mat j j * (q.greedy j - q.mu j) ^ 2 ≤ ∑ j, q.mat j j * (u j - q.mu j) ^ 2 := by
          apply sum_le_sum
          intro j _
          apply mul_le_mul_of_nonneg_left _ (hjj j)
          -- clamping is the closest admissible point in each coordinate
          have hclose : |q.greedy j - q.mu j| ≤ |u j - q.mu j| := by
            have h1 := hu.1
            have h2 := hu.2
            unfold Quadratic.greedy
            cases hl : q.minAction with
            | none =>
              cases hh : q.maxAction with
              | none => simp
              | some h =>
                have hb := h2 h hh j
                rcases le_total (h j) (q.mu j) with hc | hc
                · simp only [min_eq_left hc]
                  rw [abs_of_nonpos (by linarith), abs_of_nonpos (by linarith)]; linarith
                · simp [min_eq_right hc]
            | some l =>
              have ha := h1 l hl j
              cases hh : q.maxAction with
              | none =>
                rcases le_total (q.mu j) (l j) with hc | hc
                · simp only [max_eq_left hc]
                  rw [abs_of_nonneg (by linarith), abs_of_nonneg (by linarith)]; linarith
                · simp [max_eq_right hc]
              | some h =>
                have hb := h2 h hh j
                have hlh := hbounds l h hl hh j
                rcases le_total (q.mu j) (l j) with hc | hc
                · simp only [max_eq_left hc, min_eq_right hlh]
                  rw [abs_of_nonneg (by linarith), abs_of_nonneg (by linarith)]; linarith
                · simp only [max_eq_right hc]
                  rcases le_total (h j) (q.mu j) with hc2 | hc2
                  · simp only [min_eq_left hc2]
                    rw [abs_of_nonpos (by linarith), abs_of_nonpos (by linarith)]; linarith
                  · simp [min_eq_right hc2]
          exact sq_le_sq.mpr hclose
        linarith
    refine ⟨key, ?_⟩
    unfold Quadratic.advantage
    linarith

/-- A quadratic action value on two dimensions, with actions in `[-1, 1]²`, `mu = (2, 0)` and the positive definite matrix
`[[1, 1], [1, 2]]`. -/
def skewed : Quadratic 2 :=
  ⟨![2, 0], ![![1, 1], ![1, 2]], 0, some (fun _ => -1), some (fun _ => 1)⟩

/-- **C57 fails for quadratic action values.** If bounds cut off `mu` and the matrix is not diagonal, the greedy
action need not have the largest value: here the greedy action is `(1, 0)` with value −1/2, but the admissible action
`(1, 1/2)` has value −1/4 and so a positive advantage. -/
theorem greedy_quadratic_not_maximal :
    (∀ d, d ≠ (fun _ => 0) → 0 < quad skewed.mat d) ∧ skewed.greedy = ![1, 0] ∧ skewed.maxV = -(1 / 2) ∧
    Spec.admissible skewed ![1, 1 / 2] ∧ skewed.evaluate ![1, 1 / 2] = -(1 / 4) ∧ 0 < skewed.advantage ![1, 1 / 2] := by
  have hq : ∀ d, quad skewed.mat d = d 0 ^ 2 + 2 * d 0 * d 1 + 2 * d 1 ^ 2 := by
    intro d
    unfold quad skewed
    simp only [Fin.sum_univ_two, Matrix.cons_val_zero, Matrix.cons_val_one]
    ring
  have hg : skewed.greedy = ![1, 0] := by
    unfold Quadratic.greedy skewed
    funext i
    fin_cases i
    · simp
    · simp
  have hm : skewed.maxV = -(1 / 2) := by
    rw [maxV_eq, hg]
    unfold Quadratic.evaluate
    rw [hq]
    simp only [skewed, Matrix.cons_val_zero, Matrix.cons_val_one]
    norm_num
  have he : skewed.evaluate ![1, 1 / 2] = -(1 / 4) := by
    unfold Quadratic.evaluate
    rw [hq]
    simp only [skewed, Matrix.cons_val_zero, Matrix.cons_val_one]
    norm_num
  refine ⟨?_, hg, hm, ⟨?_, ?_⟩, he, ?_⟩
  · intro d hd
    rw [hq]
    have h1 : d 0 ^ 2 + 2 * d 0 * d 1 + 2 * d 1 ^ 2 = (d 0 + d 1) ^ 2 + d 1 ^ 2 := by ring
    rw [h1]
    by_cases hd1 : d 1 = 0
    · have hd0 : d 0 ≠ 0 := by
        intro h0
        apply hd
        funext i
        fin_cases i
        · exact h0
        · exact hd1
      rw [hd1, add_zero, zero_pow two_ne_zero, add_zero]
      exact sq_pos_of_ne_zero hd0
    · have := sq_pos_of_ne_zero hd1
      positivity
  · intro l hl i
    cases hl
    fin_cases i <;> norm_num
  · intro h hh i
    cases hh
    fin_cases i <;> norm_num
  · unfold Quadratic.advantage
    rw [hm, he]
    norm_num

/-! ## C71 -/

theorem mem_trilIndices {n i j : Nat} : (i, j) ∈ trilIndices n ↔ j < i ∧ i < n := by
  unfold trilIndices
  simp only [List.mem_flatMap, List.mem_range, List.mem_map, Prod.mk.injEq]
  constructor
  · rintro ⟨a, ha, b, hb, rfl, rfl⟩
    exact ⟨hb, ha⟩
  · rintro ⟨h1, h2⟩
    exact ⟨i, h2, j, h1, rfl, rfl⟩

theorem lookup_zip_none {α β : Type _} [BEq α] [LawfulBEq α] {k : α} : ∀ (l : List α) (l' : List β), k ∉ l →
    (l.zip l').lookup k = none
  | [], _, _ => rfl
  | _ :: _, [], _ => rfl
  | x :: l, y :: l', h => by
    rw [List.zip_cons_cons, List.lookup_cons]
    have hne : k ≠ x := fun he => h (he ▸ List.mem_cons_self ..)
    rw [beq_false_of_ne hne]
    exact lookup_zip_none l l' (fun hm => h (List.mem_cons_of_mem _ hm))

/-- The matrix built is lower triangular with the given diagonal. -/
theorem lowerTriangular_upper {n : Nat} (diag : Fin n → ℝ) (nonDiag : List ℝ) (i j : Fin n) (h : i < j) :
    lowerTriangular n diag nonDiag i j = 0 := by
  unfold lowerTriangular
  rw [if_neg (ne_of_lt h), lookup_zip_none _ _ (fun hm => by
    rw [mem_trilIndices] at hm
    have : i.1 < j.1 := h
    omega)]
  rfl

theorem trilIndices_succ (n : Nat) : trilIndices (n + 1) = trilIndices n ++ (List.range n).map fun j => (n, j) := by
  unfold trilIndices
  rw [List.range_succ, List.flatMap_append]
  simp

theorem length_trilIndices (n : Nat) : (trilIndices n).length = n * (n - 1) / 2 := by
  induction n with
  | zero => rfl
  | succ n ih =>
    rw [trilIndices_succ, List.length_append, ih]
    simp only [List.length_map, List.length_range, Nat.add_sub_cancel]
    rcases n with _ | m
    · rfl
    · simp only [Nat.add_sub_cancel]
      have h2 : (m + 1 + 1) * (m + 1) = (m + 1) * m + 2 * (m + 1) := by ring
      rw [h2, Nat.add_mul_div_left _ _ (by norm_num)]

theorem nodup_trilIndices (n : Nat) : (trilIndices n).Nodup := by
  induction n with
  | zero => exact List.nodup_nil
  | succ n ih =>
    rw [trilIndices_succ]
    refine List.Nodup.append ih (List.Nodup.map (fun a b h => by simpa using h) List.nodup_range) ?_
    intro x hx hx'
    obtain ⟨i, j⟩ := x
    rw [mem_trilIndices] at hx
    obtain ⟨j', _, hj⟩ := List.mem_map.mp hx'
    simp only [Prod.mk.injEq] at hj
    omega

theorem lookup_zip_some {α β : Type _} [BEq α] [LawfulBEq α] {k : α} {v : β} : ∀ (l : List α) (l' : List β) (p : Nat),
    l.Nodup → l[p]? = some k → l'[p]? = some v → (l.zip l').lookup k = some v
  | [], _, _, _, h, _ => by simp at h
  | _ :: _, [], _, _, _, h => by simp at h
  | x :: l, y :: l', 0, _, h, h' => by
    simp only [List.getElem?_cons_zero, Option.some.injEq] at h h'
    rw [List.zip_cons_cons, List.lookup_cons, h, h', beq_self_eq_true]
  | x :: l, y :: l', p + 1, hn, h, h' => by
    rw [List.getElem?_cons_succ] at h h'
    have hne : k ≠ x := fun he => (List.nodup_cons.mp hn).1 (he ▸ List.mem_of_getElem? h)
    rw [List.zip_cons_cons, List.lookup_cons, beq_false_of_ne hne]
    exact lookup_zip_some l l' p (List.nodup_cons.mp hn).2 h h'

/-- Row `i` of the positions below the diagonal starts at `i (i - 1) / 2`. -/
theorem getElem?_trilIndices {n i j : Nat} (hj : j < i) (hi : i < n) :
    (trilIndices n)[i * (i - 1) / 2 + j]? = some (i, j) := by
  induction n with
  | zero => omega
  | succ n ih =>
    rw [trilIndices_succ]
    rcases Nat.lt_succ_iff_lt_or_eq.mp hi with h | h
    · have := ih h
      rw [List.getElem?_append_left (List.getElem?_eq_some_iff.mp this).1]
      exact this
    · subst h
      rw [List.getElem?_append_right (by rw [length_trilIndices]; omega), length_trilIndices]
      simp [hj]

theorem quad_nafMatrix (n : Nat) (hDiag : Fin n → ℝ) (nonDiag : List ℝ) (d : Fin n → ℝ) :
    quad (nafMatrix n hDiag nonDiag) d =
      ∑ k, (∑ i, d i * lowerTriangular n (fun i => Real.exp (hDiag i)) nonDiag i k) ^ 2 := by
  unfold quad nafMatrix
  generalize lowerTriangular n (fun i => Real.exp (hDiag i)) nonDiag = L
  have h1 : ∀ j, (∑ i, d i * ∑ k, L i k * L j k) * d j = ∑ k, (∑ i, d i * L i k) * (d j * L j k) := by
    intro j
    simp only [mul_sum, sum_mul]
    rw [sum_comm]
    apply sum_congr rfl
    intro k _
    apply sum_congr rfl
    intro i _
    ring
  simp only [h1]
  rw [sum_comm]
  apply sum_congr rfl
  intro k _
  rw [← mul_sum, sq]

/-- **C71 (matrix).** The matrix of `FCQuadraticStateQFunction` is symmetric and positive definite, whatever the outputs of
its layers.  Its factor is zero above the diagonal, has the exponentials on the diagonal, and below the diagonal the entries of
the layer's output row by row: entry `(i, j)` is output number `i (i - 1) / 2 + j`. -/
theorem naf_matrix (n : Nat) (hDiag : Fin n → ℝ) (nonDiag : List ℝ) :
    (∀ i j, nafMatrix n hDiag nonDiag i j = nafMatrix n hDiag nonDiag j i) ∧
    (∀ d, d ≠ (fun _ => 0) → 0 < quad (nafMatrix n hDiag nonDiag) d) ∧
    (∀ i j : Fin n, i < j → lowerTriangular n (fun i => Real.exp (hDiag i)) nonDiag i j = 0) ∧
    (∀ i : Fin n, lowerTriangular n (fun i => Real.exp (hDiag i)) nonDiag i i = Real.exp (hDiag i)) ∧
    (nonDiag.length = n * (n - 1) / 2 → ∀ i j : Fin n, j < i →
      nonDiag[i.1 * (i.1 - 1) / 2 + j.1]? = some (lowerTriangular n (fun i => Real.exp (hDiag i)) nonDiag i j)) := by
  refine ⟨?_, ?_, fun i j h => lowerTriangular_upper _ _ i j h, fun i => if_pos rfl, ?_⟩
  · intro i j
    unfold nafMatrix
    simp only [mul_comm]
  · intro d hd
    rw [quad_nafMatrix]
    have hex : (univ.filter fun i => d i ≠ 0).Nonempty := by
      by_contra hne
      rw [not_nonempty_iff_eq_empty] at hne
      apply hd
      funext i
      by_contra hi
      have : i ∈ univ.filter fun i => d i ≠ 0 := by simp [hi]
      rw [hne] at this
      exact absurd this (notMem_empty i)
    -- the last coordinate that is not zero
    let k := (univ.filter fun i => d i ≠ 0).max' hex
    have hk : d k ≠ 0 := by
      have := (univ.filter fun i => d i ≠ 0).max'_mem hex
      exact (mem_filter.mp this).2
    have hlast : ∀ i, k < i → d i = 0 := by
      intro i hi
      by_contra hne
      have := (univ.filter fun i => d i ≠ 0).le_max' i (by simp [hne])
      exact absurd hi (not_lt.mpr this)
    have hcol : ∑ i, d i * lowerTriangular n (fun i => Real.exp (hDiag i)) nonDiag i k = d k * Real.exp (hDiag k) := by
      rw [sum_eq_single k]
      · unfold lowerTriangular
        rw [if_pos rfl]
      · intro i _ hik
        rcases lt_or_gt_of_ne hik with h | h
        · rw [lowerTriangular_upper _ _ _ _ h, mul_zero]
        · rw [hlast i h, zero_mul]
      · intro h; exact absurd (mem_univ k) h
    apply sum_pos'
    · intro j _; positivity
    · refine ⟨k, mem_univ k, ?_⟩
      rw [hcol]
      have := Real.exp_pos (hDiag k)
      have hne : d k * Real.exp (hDiag k) ≠ 0 := mul_ne_zero hk this.ne'
      positivity
  · intro hlen i j hji
    have hpos := getElem?_trilIndices (n := n) (i := i.1) (j := j.1) hji i.2
    have hlt := (List.getElem?_eq_some_iff.mp hpos).1
    rw [length_trilIndices, ← hlen] at hlt
    have hv := List.getElem?_eq_getElem hlt
    rw [hv]
    unfold lowerTriangular
    rw [if_neg (ne_of_gt hji), lookup_zip_some _ _ _ (nodup_trilIndices n) hpos hv]
    rfl

/-- **C71.** With `scale_mu` and ordered bounds, the greedy action of `FCQuadraticStateQFunction` is its `mu`, which is
admissible, and every other action has a strictly smaller value than the `max` reported. -/
theorem naf_greedy (n : Nat) (low high : Fin n → ℝ) (hle : ∀ i, low i ≤ high i) (v : ℝ) (mu hDiag : Fin n → ℝ)
    (nonDiag : List ℝ) :
    (naf n true low high v mu hDiag nonDiag).greedy = Numeric.boundByTanh mu low high ∧
    (∀ i, low i ≤ (naf n true low high v mu hDiag nonDiag).greedy i ∧
      (naf n true low high v mu hDiag nonDiag).greedy i ≤ high i) ∧
    (naf n true low high v mu hDiag nonDiag).maxV = v ∧
    ∀ u, u ≠ (naf n true low high v mu hDiag nonDiag).greedy →
      (naf n true low high v mu hDiag nonDiag).evaluate u < (naf n true low high v mu hDiag nonDiag).maxV := by
  generalize hq : naf n true low high v mu hDiag nonDiag = q
  have hmu : q.mu = Numeric.boundByTanh mu low high := by rw [← hq]; rfl
  have hmat : q.mat = nafMatrix n hDiag nonDiag := by rw [← hq]; rfl
  have hv : q.v = v := by rw [← hq]; rfl
  have hmin : q.minAction = some low := by rw [← hq]; rfl
  have hmax : q.maxAction = some high := by rw [← hq]; rfl
  have hbox := (Numeric.bound_by_tanh low high hle).1 mu
  have hadm : Spec.admissible q q.mu := by
    rw [hmu]
    refine ⟨fun l hl i => ?_, fun h hh i => ?_⟩
    · rw [hmin] at hl; cases hl; exact (hbox i).1
    · rw [hmax] at hh; cases hh; exact (hbox i).2
  have hg := greedy_of_mu q hadm
  have hmv : q.maxV = v := by rw [maxV_eq, hg, evaluate_mu, hv]
  refine ⟨hg.trans hmu, fun i => ?_, hmv, ?_⟩
  · rw [hg, hmu]; exact hbox i
  · intro u hu
    rw [hmv]
    unfold Quadratic.evaluate
    rw [hv, hmat]
    have := (naf_matrix n hDiag nonDiag).2.1 (fun i => u i - q.mu i) (by
      intro h0
      apply hu
      rw [hg]
      funext i
      have : u i - q.mu i = 0 := congrFun h0 i
      linarith)
    linarith

/-- **C71 (without `scale_mu`).** The greedy action is `mu` clipped to the bounds, so admissible; the value of an action depends
on its distance from `mu` itself, and is at most the `v` of the network, which is reached at `mu` only. -/
theorem naf_unscaled (n : Nat) (low high : Fin n → ℝ) (hle : ∀ i, low i ≤ high i) (v : ℝ) (mu hDiag : Fin n → ℝ)
    (nonDiag : List ℝ) :
    (∀ i, (naf n false low high v mu hDiag nonDiag).greedy i = min (high i) (max (low i) (mu i)) ∧
      low i ≤ (naf n false low high v mu hDiag nonDiag).greedy i ∧
      (naf n false low high v mu hDiag nonDiag).greedy i ≤ high i) ∧
    (naf n false low high v mu hDiag nonDiag).evaluate mu = v ∧
    ∀ u, u ≠ mu → (naf n false low high v mu hDiag nonDiag).evaluate u < v := by
  refine ⟨fun i => ⟨rfl, ?_, ?_⟩, ?_, fun u hu => ?_⟩
  · show low i ≤ min (high i) (max (low i) (mu i))
    exact le_min (hle i) (le_max_left _ _)
  · show min (high i) (max (low i) (mu i)) ≤ high i
    exact min_le_left _ _
  · exact evaluate_mu (naf n false low high v mu hDiag nonDiag)
  · show -(1 / 2) * quad (nafMatrix n hDiag nonDiag) (fun i => u i - mu i) + v < v
    have := (naf_matrix n hDiag nonDiag).2.1 (fun i => u i - mu i) (by
      intro h0
      apply hu
      funext i
      have : u i - mu i = 0 := congrFun h0 i
      linarith)
    linarith

/-! ## C58 -/

/-- **C58.** The mean of the Q values over the actions is the state value; adding a constant to all raw
advantages changes nothing; and two actions differ in Q value exactly as in raw advantage. -/
theorem dueling_identifiable {n : Nat} (hn : 0 < n) (ya : Fin n → ℝ) (ys : ℝ) :
    (∑ i, dueling ya ys i) / n = ys ∧ ∑ i, (dueling ya ys i - ys) = 0 ∧
    (∀ c, dueling (fun i => ya i + c) ys = dueling ya ys) ∧
    (∀ i j, dueling ya ys i - dueling ya ys j = ya i - ya j) := by
  have hn' : (n : ℝ) ≠ 0 := by exact_mod_cast hn.ne'
  have hsum : ∑ i, (dueling ya ys i - ys) = 0 := by
    unfold dueling
    simp only [add_sub_cancel_right]
    rw [sum_sub_distrib, sum_const, card_univ, Fintype.card_fin, nsmul_eq_mul]
    field_simp
    ring
  refine ⟨?_, hsum, ?_, ?_⟩
  · rw [sum_sub_distrib, sum_const, card_univ, Fintype.card_fin, nsmul_eq_mul, sub_eq_zero] at hsum
    rw [hsum]
    field_simp
  · intro c
    funext i
    unfold dueling
    rw [sum_add_distrib, sum_const, card_univ, Fintype.card_fin, nsmul_eq_mul]
    field_simp
    ring
  · intro i j
    unfold dueling
    ring

/-- **C58 (distributional).** The distribution of every action is a probability distribution with positive
probabilities, and adding the same number to the raw advantages of all actions (for each atom) changes nothing. -/
theorem dueling_distributional {n m : Nat} (hn : 0 < n) (hm : 0 < m) (ya : Fin n → Fin m → ℝ) (ys : Fin m → ℝ) :
    (∀ i, (∑ k, duelingDist ya ys i k = 1) ∧ ∀ k, 0 < duelingDist ya ys i k) ∧
    (∀ c : Fin m → ℝ, duelingDist (fun i k => ya i k + c k) ys = duelingDist ya ys) := by
  have hn' : (n : ℝ) ≠ 0 := by exact_mod_cast hn.ne'
  refine ⟨fun i => ⟨softmax_sum hm _, fun k => softmax_pos (fun k => (ya i k - (∑ i, ya i k) / n) + ys k) k⟩, fun c => ?_⟩
  funext i
  unfold duelingDist
  congr 1
  funext k
  beta_reduce
  rw [sum_add_distrib, sum_const, card_univ, Fintype.card_fin, nsmul_eq_mul]
  field_simp
  ring

end Pfrl.Value
