import Verif.Tree.Props
import Mathlib.MeasureTheory.Measure.Lebesgue.Basic

/-!
# Probability of a prioritized draw (C06)
-/

namespace Pfrl.Tree
open MeasureTheory

/-- **C06 (probability).** Over the uniform draw `u ∈ [0, total)`, the set of draws that return item
`i` has Lebesgue measure `p_i`; the draw being uniform on an interval of length `total`, item `i` is
drawn with probability `p_i / total`. -/
theorem prioritized_draw_measure {q : TQ ℝ} {xs : List ℝ} (hq : Reached q xs)
    (hnn : ∀ x ∈ xs, 0 ≤ x) (remove : Bool) {i : Nat} {p : ℝ} (hp : xs[i]? = some p) :
    volume {u : ℝ | 0 ≤ u ∧ u < xs.sum ∧
      ∃ q' vs, q.prioritizedSample (fun _ _ => u) 0 1 remove = .ok (q', [i], vs)}
      = ENNReal.ofReal p := by
  have hi : i < xs.length := by
    by_contra hc; rw [List.getElem?_eq_none (by omega)] at hp; cases hp
  have hset : {u : ℝ | 0 ≤ u ∧ u < xs.sum ∧
      ∃ q' vs, q.prioritizedSample (fun _ _ => u) 0 1 remove = .ok (q', [i], vs)}
      = Set.Ico (xs.take i).sum ((xs.take i).sum + p) := by
    ext u
    simp only [Set.mem_ofPred_eq, Set.mem_Ico]
    constructor
    · rintro ⟨h0, h1, q', vs, h2⟩
      obtain ⟨j, q'', hj, h3, h4⟩ := prioritized_draw_inverse_cdf hq hnn h0 h1 remove
      rw [h2] at h3
      have hij : i = j := by
        have := congrArg (fun r => r.2.1) (Except.ok.inj h3)
        simpa using this
      subst hij
      have := (h4 i hi).1 rfl
      rwa [hp] at this
    · rintro ⟨h0, h1⟩
      have hnn1 : 0 ≤ (xs.take i).sum :=
        List.sum_nonneg fun x hx => hnn x (List.mem_of_mem_take hx)
      have e : (xs.take i).sum + p = (xs.take (i + 1)).sum := by
        rw [List.getElem?_eq_getElem hi] at hp
        cases hp
        rw [List.take_succ_eq_append_getElem hi, List.sum_append, List.sum_singleton]
      have hle : (xs.take (i + 1)).sum ≤ xs.sum := by
        conv_rhs => rw [← List.take_append_drop (i + 1) xs, List.sum_append]
        exact le_add_of_nonneg_right
          (List.sum_nonneg fun x hx => hnn x (List.mem_of_mem_drop hx))
      have hu0 : 0 ≤ u := hnn1.trans h0
      have hu1 : u < xs.sum := lt_of_lt_of_le (e ▸ h1) hle
      obtain ⟨j, q'', hj, h3, h4⟩ := prioritized_draw_inverse_cdf hq hnn hu0 hu1 remove
      have hji : j = i := (h4 i hi).2 ⟨h0, by rw [hp]; exact h1⟩
      subst hji
      exact ⟨hu0, hu1, _, _, h3⟩
  rw [hset, Real.volume_Ico, add_sub_cancel_left]

/-- The hypotheses are met by a three-element queue. -/
example : ∃ q : TQ ℝ, Reached q [1, 0, 2] ∧ (∀ x ∈ [1, 0, (2 : ℝ)], 0 ≤ x) :=
  have h := sum_queue_refines_list (V := ℝ) [.append 1, .append 0, .append 2]
  ⟨_, ⟨[.append 1, .append 0, .append 2], [], rfl, h.choose_spec.1⟩, by simp⟩

end Pfrl.Tree
