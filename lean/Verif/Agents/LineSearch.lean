import Mathlib.Analysis.Real.Sqrt
import Mathlib.Tactic.Ring
import Mathlib.Tactic.Linarith
import Mathlib.Tactic.Positivity
import Mathlib.Tactic.FieldSimp
import Mathlib.Tactic.NormNum
import Verif.Utils.ConjugateGradient

/-!
# TRPO's step and line search (C60, C74)
-/

namespace Pfrl.Trpo

/-! ## Model -/

/-- A floating point result: a number, an infinity or NaN.  Finite arithmetic is exact. -/
inductive Fl where
  | fin (x : ℝ)
  | posInf
  | negInf
  | nan

namespace Fl

/-- `torch.isfinite`. -/
def isFinite : Fl → Prop
  | fin _ => True
  | _ => False

/-- `a - b` on floats. -/
noncomputable def sub : Fl → Fl → Fl
  | fin a, fin b => fin (a - b)
  | fin _, posInf => negInf
  | fin _, negInf => posInf
  | posInf, fin _ => posInf
  | posInf, negInf => posInf
  | negInf, fin _ => negInf
  | negInf, posInf => negInf
  | _, _ => nan

/-- `a < x` for a number `x`; comparisons with NaN are false. -/
def lt : Fl → ℝ → Prop
  | fin a, x => a < x
  | negInf, _ => True
  | _, _ => False

/-- `a > x` for a number `x`. -/
def gt : Fl → ℝ → Prop
  | fin a, x => x < a
  | posInf, _ => True
  | _, _ => False

end Fl

variable {R : Type _}

/-- `_flatten_and_concat_variables`, `pfrl/agents/trpo.py:32-34`.  A tensor is the list of its entries in row-major order; shapes are
not modelled. -/
def flatten (vs : List (List R)) : List R := vs.flatten

/-- `torch.split(flat_v, sizes)` in `_split_and_reshape_to_ndarrays`, `trpo.py:45-48`. -/
def split : List Nat → List R → List (List R)
  | [], _ => []
  | n :: ns, flat => flat.take n :: split ns (flat.drop n)

/-- What the line search leaves behind: the parameters of the policy and the recorded step size. -/
structure Result (R : Type _) where
  params : List (List R)
  stepSize : ℝ

/-- The policy as the line search sees it: `axpy a s b` computes `a + s * b` for entries; `gainAt` and `klAt` are the surrogate
gain (line 660) and the mean KL divergence from the old policy (line 666) for given parameters.  All are
arbitrary. -/
structure Policy (R : Type _) where
  axpy : R → ℝ → R → R
  gainAt : List (List R) → Fl
  klAt : List (List R) → Fl

/-- `new_flat_params` written into the parameters, lines 651-657. -/
def trial (P : Policy R) (sizes : List Nat) (flat full : List R) (step : ℝ) : List (List R) :=
  split sizes (List.zipWith (fun a b => P.axpy a step b) flat full)

open Classical in
/-- The loop, `trpo.py:649-699`; `n` is the number of iterations left, `params` the current parameters. -/
noncomputable def loop (P : Policy R) (gain : Fl) (maxKl : ℝ) (sizes : List Nat) (flat full : List R) :
    Nat → ℝ → List (List R) → Result R
  | 0, _, _ => ⟨split sizes flat, 0⟩
  | n + 1, step, _ =>
    let params := trial P sizes flat full step
    let newGain := P.gainAt params
    let newKl := P.klAt params
    let improve := newGain.sub gain
    if ¬ newGain.isFinite then loop P gain maxKl sizes flat full n (step * (1 / 2)) params
    else if ¬ newKl.isFinite then loop P gain maxKl sizes flat full n (step * (1 / 2)) params
    else if improve.lt 0 then loop P gain maxKl sizes flat full n (step * (1 / 2)) params
    else if newKl.gt maxKl then loop P gain maxKl sizes flat full n (step * (1 / 2)) params
    else ⟨params, step⟩

/-- `_line_search`, `trpo.py:600-699`. -/
noncomputable def lineSearch (P : Policy R) (gain : Fl) (maxKl : ℝ) (maxBacktrack : Nat) (params : List (List R))
    (full : List R) : Result R :=
  loop P gain maxKl (params.map List.length) (flatten params) full (maxBacktrack + 1) 1 params

/-! ## Specification -/

/-- Step size `s` is acceptable: gain and divergence are numbers, the gain is not below `gain`, the divergence not above
`maxKl`. -/
def Spec.Acceptable (P : Policy R) (gain : ℝ) (maxKl : ℝ) (new : List (List R)) : Prop :=
  ∃ g k, P.gainAt new = .fin g ∧ P.klAt new = .fin k ∧ gain ≤ g ∧ k ≤ maxKl

/-! ## Lemmas -/

theorem split_flatten (vs : List (List R)) : split (vs.map List.length) vs.flatten = vs := by
  induction vs with
  | nil => rfl
  | cons v vs ih =>
    simp only [List.map_cons, List.flatten_cons, split, List.take_left', List.drop_left', ih]

theorem step_accept {P : Policy R} {gain maxKl : ℝ} {sizes : List Nat} {flat full : List R} {n : Nat} {step : ℝ}
    {params : List (List R)} (h : Spec.Acceptable P gain maxKl (trial P sizes flat full step)) :
    loop P (.fin gain) maxKl sizes flat full (n + 1) step params = ⟨trial P sizes flat full step, step⟩ := by
  obtain ⟨g, k, h1, h2, h3, h4⟩ := h
  unfold loop
  dsimp only
  rw [if_neg (fun hn => hn (by rw [h1]; trivial)), if_neg (fun hn => hn (by rw [h2]; trivial)), if_neg, if_neg]
  · rw [h2]; exact not_lt.mpr h4
  · rw [h1]
    show ¬ (g - gain < 0)
    linarith

theorem step_reject {P : Policy R} {gain maxKl : ℝ} {sizes : List Nat} {flat full : List R} {n : Nat} {step : ℝ}
    {params : List (List R)} (h : ¬ Spec.Acceptable P gain maxKl (trial P sizes flat full step)) :
    loop P (.fin gain) maxKl sizes flat full (n + 1) step params
      = loop P (.fin gain) maxKl sizes flat full n (step * (1 / 2)) (trial P sizes flat full step) := by
  conv_lhs => unfold loop
  dsimp only
  split
  · rfl
  · rename_i hg
    split
    · rfl
    · rename_i hk
      split
      · rfl
      · rename_i hi
        split
        · rfl
        · rename_i hkl
          exfalso
          apply h
          cases hgv : P.gainAt (trial P sizes flat full step) with
          | posInf => rw [hgv] at hg; exact absurd (fun hh => hh) hg
          | negInf => rw [hgv] at hg; exact absurd (fun hh => hh) hg
          | nan => rw [hgv] at hg; exact absurd (fun hh => hh) hg
          | fin g =>
            cases hkv : P.klAt (trial P sizes flat full step) with
            | posInf => rw [hkv] at hk; exact absurd (fun hh => hh) hk
            | negInf => rw [hkv] at hk; exact absurd (fun hh => hh) hk
            | nan => rw [hkv] at hk; exact absurd (fun hh => hh) hk
            | fin k =>
              rw [hgv] at hi
              rw [hkv] at hkl
              refine ⟨g, k, hgv, hkv, ?_, not_lt.mp hkl⟩
              have : ¬ (g - gain < 0) := hi
              linarith

theorem loop_spec {P : Policy R} {gain maxKl : ℝ} {sizes : List Nat} {flat full : List R} :
    ∀ (n : Nat) (step : ℝ) (params : List (List R)),
    (∃ i, i < n ∧ Spec.Acceptable P gain maxKl (trial P sizes flat full (step * (1 / 2) ^ i)) ∧
      (∀ j, j < i → ¬ Spec.Acceptable P gain maxKl (trial P sizes flat full (step * (1 / 2) ^ j))) ∧
      loop P (.fin gain) maxKl sizes flat full n step params
        = ⟨trial P sizes flat full (step * (1 / 2) ^ i), step * (1 / 2) ^ i⟩) ∨
    ((∀ i, i < n → ¬ Spec.Acceptable P gain maxKl (trial P sizes flat full (step * (1 / 2) ^ i))) ∧
      loop P (.fin gain) maxKl sizes flat full n step params = ⟨split sizes flat, 0⟩) := by
  intro n
  induction n with
  | zero => intro step params; exact Or.inr ⟨fun i hi => absurd hi (Nat.not_lt_zero i), rfl⟩
  | succ n ih =>
    intro step params
    by_cases h : Spec.Acceptable P gain maxKl (trial P sizes flat full step)
    · left
      refine ⟨0, Nat.succ_pos n, by simpa using h, fun j hj => absurd hj (Nat.not_lt_zero j), ?_⟩
      rw [step_accept h]
      simp
    · rw [step_reject h]
      have hs : ∀ i, step * (1 / 2) * (1 / 2) ^ i = step * (1 / 2) ^ (i + 1) := fun i => by ring
      rcases ih (step * (1 / 2)) (trial P sizes flat full step) with ⟨i, h1, h2, h3, h4⟩ | ⟨h1, h2⟩
      · left
        rw [hs] at h2 h4
        refine ⟨i + 1, by omega, h2, ?_, h4⟩
        intro j hj
        cases j with
        | zero => simpa using h
        | succ j => rw [← hs]; exact h3 j (by omega)
      · right
        refine ⟨?_, h2⟩
        intro i hi
        cases i with
        | zero => simpa using h
        | succ i => rw [← hs]; exact h1 i (by omega)

/-! ## C60 -/

/-- **C60.** Let the surrogate gain before the step be a number.  Whatever the gain and the divergence are as functions of the
parameters, the line search ends in one of two ways.  Either the parameters are the old ones plus `1 / 2 ^ i` times the full
step for some `i` within the allowed number of backtracks, with gain and divergence finite, gain not smaller than before and
divergence at most `max_kl`, no larger step of the sequence being acceptable, and the step size is recorded.  Or none of the
steps is acceptable, the parameters are exactly what they were, and 0 is recorded. -/
theorem line_search_safe (P : Policy R) (gain maxKl : ℝ) (maxBacktrack : Nat) (params : List (List R)) (full : List R) :
    (∃ i, i ≤ maxBacktrack ∧
      lineSearch P (.fin gain) maxKl maxBacktrack params full
        = ⟨split (params.map List.length)
            (List.zipWith (fun a b => P.axpy a ((1 / 2) ^ i) b) params.flatten full), (1 / 2) ^ i⟩ ∧
      (∃ g k, P.gainAt (lineSearch P (.fin gain) maxKl maxBacktrack params full).params = .fin g ∧
        P.klAt (lineSearch P (.fin gain) maxKl maxBacktrack params full).params = .fin k ∧ gain ≤ g ∧ k ≤ maxKl) ∧
      ∀ j, j < i → ¬ Spec.Acceptable P gain maxKl (split (params.map List.length)
        (List.zipWith (fun a b => P.axpy a ((1 / 2) ^ j) b) params.flatten full))) ∨
    (lineSearch P (.fin gain) maxKl maxBacktrack params full = ⟨params, 0⟩ ∧
      ∀ i, i ≤ maxBacktrack → ¬ Spec.Acceptable P gain maxKl (split (params.map List.length)
        (List.zipWith (fun a b => P.axpy a ((1 / 2) ^ i) b) params.flatten full))) := by
  unfold lineSearch
  rcases loop_spec (P := P) (gain := gain) (maxKl := maxKl) (sizes := params.map List.length) (flat := flatten params)
    (full := full) (maxBacktrack + 1) 1 params with ⟨i, h1, h2, h3, h4⟩ | ⟨h1, h2⟩
  · left
    simp only [one_mul] at h2 h3 h4
    refine ⟨i, by omega, h4, ?_, fun j hj => h3 j hj⟩
    rw [h4]
    exact h2
  · right
    simp only [one_mul] at h1
    refine ⟨?_, fun i hi => h1 i (by omega)⟩
    rw [h2]
    unfold flatten
    rw [split_flatten]

/-- A policy with one parameter whose gain peaks at 1 and whose divergence is the square of the parameter: from 0 with full
step 2 and `max_kl = 1` the first step is rejected and the second is accepted. -/
example : ∃ P : Policy ℝ, lineSearch P (.fin 0) 1 3 [[0]] [2] = ⟨[[1]], 1 / 2⟩ := by
  refine ⟨⟨fun a s b => a + s * b, fun p => .fin (p.flatten.sum * (2 - p.flatten.sum)),
    fun p => .fin (p.flatten.sum ^ 2)⟩, ?_⟩
  unfold lineSearch
  have hrej : ¬ Spec.Acceptable (⟨fun a s b => a + s * b, fun p => .fin (p.flatten.sum * (2 - p.flatten.sum)),
    fun p => .fin (p.flatten.sum ^ 2)⟩ : Policy ℝ) 0 1
      (trial ⟨fun a s b => a + s * b, fun p => .fin (p.flatten.sum * (2 - p.flatten.sum)),
        fun p => .fin (p.flatten.sum ^ 2)⟩ [1] [0] [2] 1) := by
    rintro ⟨g, k, _, h2, _, h4⟩
    simp only [trial, split, List.zipWith_cons_cons, List.zipWith_nil_right, List.take_succ_cons, List.take_zero,
      List.flatten_cons, List.flatten_nil, List.append_nil, List.sum_cons, List.sum_nil, Fl.fin.injEq] at h2
    norm_num at h2
    linarith
  have hacc : Spec.Acceptable (⟨fun a s b => a + s * b, fun p => .fin (p.flatten.sum * (2 - p.flatten.sum)),
    fun p => .fin (p.flatten.sum ^ 2)⟩ : Policy ℝ) 0 1
      (trial ⟨fun a s b => a + s * b, fun p => .fin (p.flatten.sum * (2 - p.flatten.sum)),
        fun p => .fin (p.flatten.sum ^ 2)⟩ [1] [0] [2] (1 * (1 / 2))) := by
    refine ⟨1, 1, ?_, ?_, by norm_num, le_refl _⟩
    · simp [trial, split]; norm_num
    · simp [trial, split]
  show loop _ _ _ [1] [0] _ (2 + 1 + 1) 1 _ = _
  rw [step_reject hrej, step_accept hacc]
  simp [trial, split]

/-- If the surrogate gain before the step is NaN, the test for improvement passes for every finite new gain (comparisons with NaN
are false), so a step is accepted although nothing is known to have improved. -/
theorem line_search_nan_gain (P : Policy R) (maxKl : ℝ) (maxBacktrack : Nat) (params : List (List R)) (full : List R)
    {g k : ℝ} (hg : P.gainAt (trial P (params.map List.length) params.flatten full 1) = .fin g)
    (hk : P.klAt (trial P (params.map List.length) params.flatten full 1) = .fin k) (hle : k ≤ maxKl) :
    (lineSearch P .nan maxKl maxBacktrack params full).params
      = trial P (params.map List.length) params.flatten full 1 := by
  unfold lineSearch loop flatten
  dsimp only
  rw [if_neg (fun hn => hn (by rw [hg]; trivial)), if_neg (fun hn => hn (by rw [hk]; trivial)),
    if_neg (by rw [hg]; exact fun h => h), if_neg]
  rw [hk]
  exact not_lt.mpr hle

/-! ## C74 -/

open scoped InnerProductSpace

variable {E : Type _} [NormedAddCommGroup E] [InnerProductSpace ℝ E]

/-- `_compute_kl_constrained_step`, `trpo.py:582-598`, for the damped Fisher matrix `A` (line 572) and the gradient `b` of the
gain: conjugate gradient, then scaling.  `none`: the conjugate gradient produced NaN. -/
noncomputable def klStep (A : E → E) (b : E) (tol : ℝ) (maxIter : Nat) (maxKl : ℝ) : Option E :=
  (CG.conjugateGradient A b tol maxIter).map fun d =>
    let dId := ⟪d, A d⟫_ℝ
    let scale := Real.sqrt (2 * maxKl / (dId + 1 / 10 ^ 8))
    scale • d

/-- **C74.** Let the damped Fisher matrix be symmetric positive definite, the gradient of the gain not zero, `max_kl` positive
and at least one conjugate gradient iteration be made.  Whenever the step is a number, it points uphill, and in the
quadratic model `dᵀ A d / 2` of the divergence it stays strictly below `max_kl`. -/
theorem kl_constrained_step [FiniteDimensional ℝ E] {A : E →ₗ[ℝ] E} (hA : CG.Spec.SPD A) {b : E} (hb : b ≠ 0) {tol : ℝ}
    {maxIter : Nat} (hn : 0 < maxIter) {maxKl : ℝ} (hkl : 0 < maxKl) {x : E}
    (h : klStep A b tol maxIter maxKl = some x) :
    0 < ⟪b, x⟫_ℝ ∧ 0 < ⟪x, A x⟫_ℝ / 2 ∧ ⟪x, A x⟫_ℝ / 2 < maxKl := by
  unfold klStep at h
  obtain ⟨d, hd, rfl⟩ := Option.map_eq_some_iff.mp h
  have hasc := CG.conjugate_gradient_ascent hA hb hn hd
  have hd0 : d ≠ 0 := by
    rintro rfl
    rw [inner_zero_right] at hasc
    exact absurd hasc (lt_irrefl _)
  have hpos : 0 < ⟪d, A d⟫_ℝ := by
    rw [real_inner_comm]
    exact hA.pos d hd0
  set c := ⟪d, A d⟫_ℝ with hc
  have hden : 0 < c + 1 / 10 ^ 8 := by positivity
  have hq : 0 < 2 * maxKl / (c + 1 / 10 ^ 8) := by positivity
  have hs : 0 < Real.sqrt (2 * maxKl / (c + 1 / 10 ^ 8)) := Real.sqrt_pos.mpr hq
  have hsq : Real.sqrt (2 * maxKl / (c + 1 / 10 ^ 8)) * Real.sqrt (2 * maxKl / (c + 1 / 10 ^ 8))
      = 2 * maxKl / (c + 1 / 10 ^ 8) := Real.mul_self_sqrt hq.le
  dsimp only
  set s := Real.sqrt (2 * maxKl / (c + 1 / 10 ^ 8)) with hsdef
  have hval : ⟪s • d, A (s • d)⟫_ℝ = 2 * maxKl / (c + 1 / 10 ^ 8) * c := by
    rw [map_smul, real_inner_smul_left, real_inner_smul_right, ← hc, ← mul_assoc, hsq]
  refine ⟨?_, ?_, ?_⟩
  · rw [real_inner_smul_right]
    exact mul_pos hs hasc
  · rw [hval]
    positivity
  · rw [hval, div_mul_eq_mul_div, div_div, div_lt_iff₀ (by positivity)]
    nlinarith

end Pfrl.Trpo
