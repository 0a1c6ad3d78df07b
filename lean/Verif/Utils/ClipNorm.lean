import Mathlib.Analysis.SpecialFunctions.Pow.NNReal
import Mathlib.Algebra.BigOperators.Group.List.Basic
import Mathlib.Algebra.Order.BigOperators.Group.List
import Mathlib.Tactic.Ring
import Mathlib.Tactic.Linarith
import Mathlib.Tactic.Positivity
import Mathlib.Tactic.NormNum

/-!
# Gradient clipping (C54)

A gradient is the list of the elements of its tensor; a parameter may have none.  Numbers are exact.  Only the path for
parameters in main memory is modelled; on a GPU the code calls PyTorch's own function.
-/

namespace Pfrl.ClipNorm

/-! ## Model -/

/-- `np.linalg.norm` of a list of numbers (or of the elements of an array). -/
noncomputable def norm (l : List ℝ) : ℝ := Real.sqrt (l.map fun x => x * x).sum

/-- `clip_l2_grad_norm_`, `pfrl/utils/clip_l2_grad_norm.py:5-38`: the gradients afterwards and the value returned. -/
noncomputable def clip (parameters : List (Option (List ℝ))) (maxNorm : ℝ) : List (Option (List ℝ)) × ℝ :=
  if parameters = [] then (parameters, 0)
  else
    let grads := parameters.filterMap id
    let total := norm (grads.map norm)
    let coef := maxNorm / (total + 1 / 1000000)
    if coef < 1 then (parameters.map fun p => p.map fun g => g.map fun x => x * coef, total)
    else (parameters, total)

/-! ## Specification -/

/-- The norm of all gradients together: the square root of the sum of the squares of all their elements. -/
noncomputable def Spec.globalNorm (parameters : List (Option (List ℝ))) : ℝ :=
  Real.sqrt ((parameters.filterMap id).flatten.map fun x => x ^ 2).sum

/-- All gradients multiplied by a number. -/
noncomputable def Spec.scaled (c : ℝ) (parameters : List (Option (List ℝ))) : List (Option (List ℝ)) :=
  parameters.map fun p => p.map fun g => g.map fun x => c * x

/-! ## Lemmas -/

theorem sum_sq_nonneg (l : List ℝ) : 0 ≤ (l.map fun x => x ^ 2).sum :=
  List.sum_nonneg (by intro y hy; obtain ⟨x, _, rfl⟩ := List.mem_map.mp hy; positivity)

theorem norm_eq (l : List ℝ) : norm l = Real.sqrt (l.map fun x => x ^ 2).sum := by
  unfold norm
  simp only [sq]

theorem norm_map_norm (gs : List (List ℝ)) : norm (gs.map norm) = Real.sqrt (gs.flatten.map fun x => x ^ 2).sum := by
  rw [norm_eq]
  congr 1
  induction gs with
  | nil => rfl
  | cons g gs ih =>
    simp only [List.map_cons, List.sum_cons, List.flatten_cons, List.map_append, List.sum_append]
    rw [ih, norm_eq, Real.sq_sqrt (sum_sq_nonneg g)]

theorem globalNorm_scaled (c : ℝ) (hc : 0 ≤ c) (ps : List (Option (List ℝ))) :
    Spec.globalNorm (Spec.scaled c ps) = c * Spec.globalNorm ps := by
  unfold Spec.globalNorm
  have hsum : ((Spec.scaled c ps).filterMap id).flatten.map (fun x => x ^ 2) =
      ((ps.filterMap id).flatten.map fun x => x ^ 2).map fun y => c ^ 2 * y := by
    unfold Spec.scaled
    induction ps with
    | nil => rfl
    | cons p ps ih =>
      cases p with
      | none => simpa using ih
      | some g =>
        simp only [List.map_cons, Option.map_some, List.filterMap_cons, id, List.flatten_cons, List.map_append]
        refine congrArg₂ (· ++ ·) ?_ ih
        rw [List.map_map, List.map_map]
        apply List.map_congr_left
        intro x _
        simp only [Function.comp]
        ring
  rw [hsum, List.sum_map_mul_left, List.map_id', Real.sqrt_mul (by positivity), Real.sqrt_sq hc]

theorem globalNorm_nonneg (ps : List (Option (List ℝ))) : 0 ≤ Spec.globalNorm ps := Real.sqrt_nonneg _

theorem clip_total (ps : List (Option (List ℝ))) (maxNorm : ℝ) : (clip ps maxNorm).2 = Spec.globalNorm ps := by
  unfold clip
  by_cases h : ps = []
  · subst h; simp [Spec.globalNorm]
  · simp only [if_neg h]
    unfold Spec.globalNorm
    rw [← norm_map_norm]
    split <;> rfl

theorem clip_grads (ps : List (Option (List ℝ))) (maxNorm : ℝ) :
    (clip ps maxNorm).1 = if maxNorm / (Spec.globalNorm ps + 1 / 1000000) < 1 then
      Spec.scaled (maxNorm / (Spec.globalNorm ps + 1 / 1000000)) ps else ps := by
  unfold clip
  by_cases h : ps = []
  · subst h; simp [Spec.scaled]
  · simp only [if_neg h]
    have ht : norm ((ps.filterMap id).map norm) = Spec.globalNorm ps := norm_map_norm _
    rw [ht]
    have hs : (ps.map fun p => p.map fun g => g.map fun x => x * (maxNorm / (Spec.globalNorm ps + 1 / 1000000))) =
        Spec.scaled (maxNorm / (Spec.globalNorm ps + 1 / 1000000)) ps := by
      unfold Spec.scaled
      simp only [mul_comm]
    rw [hs]
    split <;> rfl

/-! ## C54 -/

/-- **C54.** For a positive `max_norm`: the value returned is the norm of all gradients before the call; the gradients
afterwards are one common positive factor, at most 1, times the gradients before (so they keep their direction, and
parameters without gradient have none); the norm afterwards is at most `max_norm`; the gradients are unchanged if their
norm is at most `max_norm - 1e-6`; and if it is more, the norm afterwards is `max_norm` up to a relative error of
`1e-6 / (norm + 1e-6)`. -/
theorem clip_grad_norm (ps : List (Option (List ℝ))) {maxNorm : ℝ} (hm : 0 < maxNorm) :
    (clip ps maxNorm).2 = Spec.globalNorm ps ∧
    (∃ c, 0 < c ∧ c ≤ 1 ∧ (clip ps maxNorm).1 = Spec.scaled c ps) ∧
    Spec.globalNorm (clip ps maxNorm).1 ≤ maxNorm ∧
    (Spec.globalNorm ps ≤ maxNorm - 1 / 1000000 → (clip ps maxNorm).1 = ps) ∧
    (maxNorm - 1 / 1000000 < Spec.globalNorm ps →
      maxNorm - Spec.globalNorm (clip ps maxNorm).1 = maxNorm * ((1 / 1000000) / (Spec.globalNorm ps + 1 / 1000000))) := by
  have hN := globalNorm_nonneg ps
  have hden : 0 < Spec.globalNorm ps + 1 / 1000000 := by positivity
  have hlt : maxNorm / (Spec.globalNorm ps + 1 / 1000000) < 1 ↔ maxNorm - 1 / 1000000 < Spec.globalNorm ps := by
    rw [div_lt_one hden]; constructor <;> intro h <;> linarith
  have hpos : 0 < maxNorm / (Spec.globalNorm ps + 1 / 1000000) := div_pos hm hden
  refine ⟨clip_total ps maxNorm, ?_, ?_, ?_, ?_⟩
  · rw [clip_grads]
    split
    · rename_i h
      exact ⟨_, hpos, h.le, rfl⟩
    · refine ⟨1, one_pos, le_rfl, ?_⟩
      unfold Spec.scaled
      simp
  · rw [clip_grads]
    split
    · rw [globalNorm_scaled _ hpos.le, div_mul_eq_mul_div, div_le_iff₀ hden]
      nlinarith
    · rename_i h
      rw [hlt] at h
      linarith
  · intro h
    rw [clip_grads, if_neg (by rw [hlt]; linarith)]
  · intro h
    rw [clip_grads, if_pos (hlt.mpr h), globalNorm_scaled _ hpos.le]
    field_simp
    ring

/-- The norm of the gradients of two parameters, (3) and (0, 4), is 5. -/
example : Spec.globalNorm [some [3], none, some [0, 4]] = 5 := by
  unfold Spec.globalNorm
  have : ((3 : ℝ) ^ 2 + (0 ^ 2 + 4 ^ 2)) = 5 ^ 2 := by norm_num
  simp only [List.filterMap_cons, id, List.filterMap_nil, List.flatten_cons, List.flatten_nil, List.append_nil,
    List.cons_append, List.nil_append, List.map_cons, List.map_nil, List.sum_cons, List.sum_nil, add_zero]
  rw [this]
  exact Real.sqrt_sq (by norm_num)

end Pfrl.ClipNorm
