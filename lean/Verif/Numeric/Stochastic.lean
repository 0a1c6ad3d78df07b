import Verif.Basic
import Mathlib.MeasureTheory.Measure.Lebesgue.Basic
import Mathlib.Analysis.SpecialFunctions.Exp
import Mathlib.Topology.Algebra.Monoid
import Mathlib.Topology.Algebra.Order.Field
import Mathlib.Tactic.FieldSimp
import Mathlib.Tactic.Positivity
import Mathlib.Tactic.Linarith

/-!
# Randomised choice of actions (C88) and linear schedules (C89)

Random numbers are arguments; a probability is the Lebesgue measure of the draws in `[0, 1)` that lead to a result.
-/

namespace Pfrl.Stochastic

open MeasureTheory Filter Topology

/-! ## Model -/

/-- `F.softmax(q / T)` of a row, `pfrl/explorers/boltzmann.py:24`; it is computed without overflow in PyTorch, which makes no difference for exact
numbers. -/
noncomputable def softmax (T : ℝ) (qs : List ℝ) : List ℝ :=
  qs.map fun q => Real.exp (q / T) / (qs.map fun q => Real.exp (q / T)).sum

/-- `cdf = p.cumsum(); cdf /= cdf[-1]` in `numpy.random.choice`. -/
noncomputable def cdf (ps : List ℝ) : List ℝ := (List.range ps.length).map fun i => (ps.take (i + 1)).sum / ps.sum

/-- `numpy.random.choice(np.arange(n), p=ps)`, where `u` is the number drawn from `[0, 1)`: `cdf.searchsorted(u, side='right')`. -/
noncomputable def choice (n : Nat) (ps : List ℝ) (u : ℝ) : Except PyErr Nat :=
  if n = 0 ∨ ps.length ≠ n then .error .valueError
  else .ok ((cdf ps).findIdx fun c => decide (u < c))

/-- `Boltzmann.select_action`, `pfrl/explorers/boltzmann.py:18-27`: `rows` are the action values of a batch; `ravel()` puts all of its probabilities in one
list.  With temperature zero the quotients are infinite or NaN, so the probabilities are NaN, which `choice` rejects. -/
noncomputable def boltzmann (T : ℝ) (rows : List (List ℝ)) (u : ℝ) : Except PyErr Nat :=
  if T = 0 then .error .valueError
  else choice ((rows.head?).getD []).length (rows.map (softmax T)).flatten u

/-- `RandomizeAction.action`, `pfrl/wrappers/randomize_action.py:32-36`: `u` is the result of `rand()`, `r` that of `randint(n)`. -/
noncomputable def randomizeAction (fraction u : ℝ) (r action : Nat) : Nat := if u < fraction then r else action

/-- `LinearInterpolationHook.__call__`, `pfrl/experiments/hooks.py:53-57`: the value given to the setter.  `np.interp` needs increasing points, so
`total > 1`; `none` otherwise. -/
noncomputable def interpolate (total : Nat) (start stop : ℝ) (step : Nat) : Option ℝ :=
  if total ≤ 1 then none
  else if step ≤ 1 then some start
  else if total ≤ step then some stop
  else some ((stop - start) / (total - 1) * (step - 1) + start)

/-! ## Specification -/

/-- The probability that a function of a uniform draw from `[0, 1)` satisfies `P`. -/
noncomputable def Spec.prob (P : ℝ → Prop) : ENNReal := volume {u : ℝ | u ∈ Set.Ico (0 : ℝ) 1 ∧ P u}

/-- The number of greatest entries. -/
noncomputable def Spec.countMax (qs : List ℝ) : Nat := qs.countP fun q => decide (∀ q' ∈ qs, q' ≤ q)

/-! ## Lemmas -/

theorem cdf_length (ps : List ℝ) : (cdf ps).length = ps.length := by simp [cdf]

theorem take_sum_mono {ps : List ℝ} (h : ∀ p ∈ ps, 0 ≤ p) {i j : Nat} (hij : i ≤ j) : (ps.take i).sum ≤ (ps.take j).sum := by
  have e : ps.take j = ps.take i ++ (ps.take j).drop i := by
    conv_lhs => rw [← List.take_append_drop i (ps.take j)]
    rw [List.take_take, min_eq_left hij]
  rw [e, List.sum_append]
  exact le_add_of_nonneg_right (List.sum_nonneg fun x hx => h x (List.mem_of_mem_take (List.mem_of_mem_drop hx)))

theorem findIdx_cdf {ps : List ℝ} (h : ∀ p ∈ ps, 0 ≤ p) (hs : 0 < ps.sum) {i : Nat} (hi : i < ps.length) {u : ℝ} (hu : 0 ≤ u) :
    (cdf ps).findIdx (fun c => decide (u < c)) = i ↔ (ps.take i).sum / ps.sum ≤ u ∧ u < (ps.take (i + 1)).sum / ps.sum := by
  have hi' : i < (cdf ps).length := by rw [cdf_length]; exact hi
  rw [List.findIdx_eq hi']
  have hget : ∀ j (hj : j < (cdf ps).length), (cdf ps)[j] = (ps.take (j + 1)).sum / ps.sum := by
    intro j hj
    simp [cdf]
  simp only [hget, decide_eq_true_eq, decide_eq_false_iff_not, not_lt]
  constructor
  · rintro ⟨h1, h2⟩
    refine ⟨?_, h1⟩
    cases i with
    | zero => simpa using hu
    | succ i => exact h2 i (Nat.lt_succ_self i)
  · rintro ⟨h1, h2⟩
    refine ⟨h2, fun j hj => le_trans ?_ h1⟩
    exact div_le_div_of_nonneg_right (take_sum_mono h hj) hs.le

theorem findIdx_prob {ps : List ℝ} (h : ∀ p ∈ ps, 0 ≤ p) (hs : 0 < ps.sum) {i : Nat} (hi : i < ps.length) :
    Spec.prob (fun u => (cdf ps).findIdx (fun c => decide (u < c)) = i) = ENNReal.ofReal (ps[i] / ps.sum) := by
  have e : (ps.take (i + 1)).sum = (ps.take i).sum + ps[i] := by
    rw [List.take_succ_eq_append_getElem hi, List.sum_append, List.sum_singleton]
  have hset : {u : ℝ | u ∈ Set.Ico (0 : ℝ) 1 ∧ (cdf ps).findIdx (fun c => decide (u < c)) = i} =
      Set.Ico ((ps.take i).sum / ps.sum) ((ps.take (i + 1)).sum / ps.sum) := by
    ext u
    simp only [Set.mem_ofPred_eq, Set.mem_Ico]
    constructor
    · rintro ⟨⟨h0, _⟩, h1⟩
      exact (findIdx_cdf h hs hi h0).mp h1
    · intro h1
      have h0 : 0 ≤ (ps.take i).sum / ps.sum :=
        div_nonneg (List.sum_nonneg fun x hx => h x (List.mem_of_mem_take hx)) hs.le
      have h2 : (ps.take (i + 1)).sum / ps.sum ≤ 1 := by
        rw [div_le_one hs]
        have := take_sum_mono h (show i + 1 ≤ ps.length from hi)
        rwa [List.take_length] at this
      exact ⟨⟨h0.trans h1.1, h1.2.trans_le h2⟩, (findIdx_cdf h hs hi (h0.trans h1.1)).mpr h1⟩
  unfold Spec.prob
  rw [hset, Real.volume_Ico, e]
  congr 1
  ring

theorem sum_exp_pos {T : ℝ} {qs : List ℝ} (h : qs ≠ []) : 0 < (qs.map fun q => Real.exp (q / T)).sum := by
  obtain ⟨q, qs, rfl⟩ := List.exists_cons_of_ne_nil h
  rw [List.map_cons, List.sum_cons]
  exact add_pos_of_pos_of_nonneg (Real.exp_pos _) (List.sum_nonneg fun x hx => by
    obtain ⟨q', _, rfl⟩ := List.mem_map.mp hx
    exact (Real.exp_pos _).le)

theorem softmax_sum {T : ℝ} {qs : List ℝ} (h : qs ≠ []) : (softmax T qs).sum = 1 := by
  have key : ∀ (c : ℝ) (l : List ℝ), (l.map fun q => Real.exp (q / T) / c).sum = (l.map fun q => Real.exp (q / T)).sum / c := by
    intro c l
    induction l with
    | nil => simp
    | cons q l ih => rw [List.map_cons, List.sum_cons, ih, List.map_cons, List.sum_cons, add_div]
  unfold softmax
  rw [key]
  exact div_self (sum_exp_pos h).ne'

theorem softmax_nonneg {T : ℝ} {qs : List ℝ} (h : qs ≠ []) : ∀ p ∈ softmax T qs, 0 ≤ p := by
  intro p hp
  obtain ⟨q, _, rfl⟩ := List.mem_map.mp hp
  exact div_nonneg (Real.exp_pos _).le (sum_exp_pos h).le

/-- The probability of an action, as the inverse of a sum. -/
theorem softmax_inv (T q : ℝ) (qs : List ℝ) :
    Real.exp (q / T) / (qs.map fun q => Real.exp (q / T)).sum = ((qs.map fun q' => Real.exp ((q' - q) / T)).sum)⁻¹ := by
  have key : ∀ l : List ℝ, (l.map fun q' => Real.exp ((q' - q) / T)).sum = (l.map fun q => Real.exp (q / T)).sum / Real.exp (q / T) := by
    intro l
    induction l with
    | nil => simp
    | cons a l ih => rw [List.map_cons, List.sum_cons, ih, List.map_cons, List.sum_cons, add_div, sub_div, Real.exp_sub]
  rw [key, inv_div]

theorem exp_div_zero {c : ℝ} (h : c < 0) : Tendsto (fun T : ℝ => Real.exp (c / T)) (𝓝[>] 0) (𝓝 0) := by
  refine Real.tendsto_exp_atBot.comp ?_
  have : Tendsto (fun T : ℝ => c * T⁻¹) (𝓝[>] 0) atBot := tendsto_inv_nhdsGT_zero.const_mul_atTop_of_neg h
  exact this

theorem exp_div_top (c : ℝ) : Tendsto (fun T : ℝ => Real.exp (c / T)) atTop (𝓝 1) := by
  rw [← Real.exp_zero]
  exact (Real.continuous_exp.tendsto 0).comp (tendsto_const_nhds.div_atTop tendsto_id)

/-! ## C88 -/

/-- **C88 (Boltzmann exploration).** With one state and a temperature other than zero an action is always chosen; action `i` with probability
`exp(q_i / T) / Σ_j exp(q_j / T)`. -/
theorem boltzmann_probability {T : ℝ} (hT : T ≠ 0) {qs : List ℝ} (hq : qs ≠ []) :
    (∀ u ∈ Set.Ico (0 : ℝ) 1, ∃ i, i < qs.length ∧ boltzmann T [qs] u = .ok i) ∧
    ∀ (i : Nat) (hi : i < qs.length), Spec.prob (fun u => boltzmann T [qs] u = .ok i) =
      ENNReal.ofReal (Real.exp (qs[i] / T) / (qs.map fun q => Real.exp (q / T)).sum) := by
  have hlen : (softmax T qs).length = qs.length := by simp [softmax]
  have hb : ∀ u, boltzmann T [qs] u = .ok ((cdf (softmax T qs)).findIdx fun c => decide (u < c)) := by
    intro u
    unfold boltzmann choice
    rw [if_neg hT]
    simp only [List.head?_cons, Option.getD_some, List.map_cons, List.map_nil, List.flatten_cons, List.flatten_nil, List.append_nil]
    rw [if_neg]
    rintro (h | h)
    · exact hq (List.eq_nil_of_length_eq_zero h)
    · exact h hlen
  refine ⟨fun u hu => ⟨_, ?_, hb u⟩, fun i hi => ?_⟩
  · rw [← hlen, ← cdf_length]
    apply List.findIdx_lt_length_of_exists
    have hpos : 0 < qs.length := List.length_pos_iff.mpr hq
    refine ⟨(cdf (softmax T qs))[qs.length - 1]'(by rw [cdf_length, hlen]; omega), List.getElem_mem _, ?_⟩
    have : (softmax T qs).take (qs.length - 1 + 1) = softmax T qs := by
      rw [Nat.sub_add_cancel hpos, ← hlen, List.take_length]
    simp only [cdf, List.getElem_map, List.getElem_range, this, softmax_sum hq, div_one, decide_eq_true_eq]
    exact hu.2
  · simp only [hb, Except.ok.injEq]
    rw [findIdx_prob (softmax_nonneg hq) (by rw [softmax_sum hq]; exact one_pos) (by rw [hlen]; exact hi), softmax_sum hq, div_one]
    simp [softmax]

/-- **C88 (Boltzmann exploration, order and limits).** With a positive temperature better actions are more probable; as the temperature goes to zero
the choice becomes uniform among the greedy actions, as it grows the choice becomes uniform among all. -/
theorem boltzmann_limits {qs : List ℝ} {q : ℝ} (hq : q ∈ qs) :
    (∀ T > 0, ∀ q', Real.exp (q / T) / (qs.map fun q => Real.exp (q / T)).sum < Real.exp (q' / T) / (qs.map fun q => Real.exp (q / T)).sum ↔ q < q') ∧
    Tendsto (fun T => Real.exp (q / T) / (qs.map fun q => Real.exp (q / T)).sum) (𝓝[>] 0)
      (𝓝 (if ∀ q' ∈ qs, q' ≤ q then 1 / (Spec.countMax qs : ℝ) else 0)) ∧
    Tendsto (fun T => Real.exp (q / T) / (qs.map fun q => Real.exp (q / T)).sum) atTop (𝓝 (1 / (qs.length : ℝ))) := by
  have hne : qs ≠ [] := List.ne_nil_of_mem hq
  refine ⟨fun T hT q' => ?_, ?_, ?_⟩
  · rw [div_lt_div_iff_of_pos_right (sum_exp_pos hne), Real.exp_lt_exp, div_lt_div_iff_of_pos_right hT]
  · by_cases hmax : ∀ q' ∈ qs, q' ≤ q
    · rw [if_pos hmax]
      simp only [softmax_inv, one_div]
      have hsum : Tendsto (fun T : ℝ => (qs.map fun q' => Real.exp ((q' - q) / T)).sum) (𝓝[>] 0)
          (𝓝 ((qs.map fun q' => if q' = q then (1 : ℝ) else 0).sum)) := by
        apply tendsto_list_sum
        intro q' hq'
        by_cases he : q' = q
        · rw [if_pos he, he]
          simp only [sub_self, zero_div, Real.exp_zero]
          exact tendsto_const_nhds
        · rw [if_neg he]
          exact exp_div_zero (sub_neg.mpr (lt_of_le_of_ne (hmax q' hq') he))
      have hcount : (qs.map fun q' => if q' = q then (1 : ℝ) else 0).sum = (Spec.countMax qs : ℝ) := by
        have hiff : ∀ q' ∈ qs, (decide (∀ x ∈ qs, x ≤ q') = true ↔ q' = q) := by
          intro q' hq'
          rw [decide_eq_true_eq]
          exact ⟨fun h => le_antisymm (hmax q' hq') (h q hq), fun h => h ▸ hmax⟩
        have gen : ∀ l : List ℝ, (∀ x ∈ l, x ∈ qs) → (l.map fun q' => if q' = q then (1 : ℝ) else 0).sum =
            ((l.countP fun q' => decide (∀ x ∈ qs, x ≤ q') : Nat) : ℝ) := by
          intro l
          induction l with
          | nil => intro _; simp
          | cons a l ih =>
            intro hl
            rw [List.map_cons, List.sum_cons, ih fun x hx => hl x (List.mem_cons_of_mem _ hx), List.countP_cons]
            by_cases he : a = q
            · rw [if_pos he, if_pos ((hiff a (hl a List.mem_cons_self)).mpr he)]
              push_cast
              ring
            · rw [if_neg he, if_neg fun h => he ((hiff a (hl a List.mem_cons_self)).mp h)]
              simp
        exact gen qs fun _ h => h
      rw [hcount] at hsum
      refine hsum.inv₀ ?_
      have : 0 < Spec.countMax qs := by
        unfold Spec.countMax
        rw [List.countP_pos_iff]
        exact ⟨q, hq, by simpa using hmax⟩
      positivity
    · rw [if_neg hmax]
      push Not at hmax
      obtain ⟨m, hm, hqm⟩ := hmax
      refine tendsto_of_tendsto_of_tendsto_of_le_of_le tendsto_const_nhds (exp_div_zero (sub_neg.mpr hqm)) ?_ ?_
      · intro T
        exact div_nonneg (Real.exp_pos _).le (sum_exp_pos hne).le
      · intro T
        show Real.exp (q / T) / _ ≤ Real.exp ((q - m) / T)
        rw [sub_div, Real.exp_sub]
        apply div_le_div_of_nonneg_left (Real.exp_pos _).le (Real.exp_pos _)
        apply List.single_le_sum (fun x hx => ?_) _ (List.mem_map_of_mem (f := fun q => Real.exp (q / T)) hm)
        obtain ⟨q', _, rfl⟩ := List.mem_map.mp hx
        exact (Real.exp_pos _).le
  · simp only [softmax_inv, one_div]
    have hsum : Tendsto (fun T : ℝ => (qs.map fun q' => Real.exp ((q' - q) / T)).sum) atTop (𝓝 ((qs.map fun _ => (1 : ℝ)).sum)) :=
      tendsto_list_sum _ fun q' _ => exp_div_top _
    have hlen : (qs.map fun _ => (1 : ℝ)).sum = (qs.length : ℝ) := by simp
    rw [hlen] at hsum
    refine hsum.inv₀ ?_
    have := List.length_pos_iff.mpr hne
    positivity

/-- **C88 (Boltzmann exploration with several states).** For a batch of more than one state, and for temperature zero, no action is chosen:
an exception is raised. -/
theorem boltzmann_batch_fails (T u : ℝ) (qs : List ℝ) (hq : qs ≠ []) (rest : List (List ℝ)) (hr : rest ≠ []) (hl : ∀ r ∈ rest, r.length = qs.length) :
    boltzmann T (qs :: rest) u = .error .valueError ∧ ∀ rows, boltzmann 0 rows u = .error .valueError := by
  constructor
  · unfold boltzmann
    by_cases hT : T = 0
    · rw [if_pos hT]
    · rw [if_neg hT]
      unfold choice
      rw [if_pos]
      right
      obtain ⟨r, rs, rfl⟩ := List.exists_cons_of_ne_nil hr
      have h1 := hl r List.mem_cons_self
      have h2 : 0 < qs.length := List.length_pos_iff.mpr hq
      simp only [List.map_cons, List.flatten_cons, List.length_append, softmax, List.length_map, List.head?_cons, Option.getD_some]
      omega
  · intro rows
    unfold boltzmann
    rw [if_pos rfl]

/-- **C88 (random actions).** With `random_fraction = f` and `n` actions, the environment receives action `b` instead of `a` with probability
`f / n`, and `a` itself with probability `1 - f + f / n`: the mean over the `n` equally likely results of `randint`. -/
theorem randomize_action_probability {f : ℝ} (h0 : 0 ≤ f) (h1 : f ≤ 1) {n a b : Nat} (ha : a < n) (hb : b < n) :
    ((List.range n).map fun r => Spec.prob fun u => randomizeAction f u r a = b).sum / n =
      ENNReal.ofReal ((1 - f) * (if a = b then 1 else 0) + f / n) := by
  have hA : volume {u : ℝ | u ∈ Set.Ico (0 : ℝ) 1 ∧ u < f} = ENNReal.ofReal f := by
    have : {u : ℝ | u ∈ Set.Ico (0 : ℝ) 1 ∧ u < f} = Set.Ico 0 f := by
      ext u
      simp only [Set.mem_ofPred_eq, Set.mem_Ico]
      exact ⟨fun h => ⟨h.1.1, h.2⟩, fun h => ⟨⟨h.1, h.2.trans_le h1⟩, h.2⟩⟩
    rw [this, Real.volume_Ico, sub_zero]
  have hB : volume {u : ℝ | u ∈ Set.Ico (0 : ℝ) 1 ∧ ¬ u < f} = ENNReal.ofReal (1 - f) := by
    have : {u : ℝ | u ∈ Set.Ico (0 : ℝ) 1 ∧ ¬ u < f} = Set.Ico f 1 := by
      ext u
      simp only [Set.mem_ofPred_eq, Set.mem_Ico, not_lt]
      exact ⟨fun h => ⟨h.2, h.1.2⟩, fun h => ⟨⟨h0.trans h.1, h.2⟩, h.1⟩⟩
    rw [this, Real.volume_Ico]
  have hterm : ∀ r, (Spec.prob fun u => randomizeAction f u r a = b) =
      ENNReal.ofReal ((if r = b then f else 0) + (1 - f) * (if a = b then 1 else 0)) := by
    intro r
    unfold Spec.prob randomizeAction
    by_cases hr : r = b <;> by_cases hab : a = b
    · have : {u : ℝ | u ∈ Set.Ico (0 : ℝ) 1 ∧ (if u < f then r else a) = b} = Set.Ico 0 1 := by
        ext u
        simp only [Set.mem_ofPred_eq]
        refine ⟨fun h => h.1, fun h => ⟨h, ?_⟩⟩
        by_cases hu : u < f
        · rw [if_pos hu, hr]
        · rw [if_neg hu, hab]
      rw [this, Real.volume_Ico, if_pos hr, if_pos hab]
      congr 1
      ring
    · have : {u : ℝ | u ∈ Set.Ico (0 : ℝ) 1 ∧ (if u < f then r else a) = b} = {u : ℝ | u ∈ Set.Ico (0 : ℝ) 1 ∧ u < f} := by
        ext u
        simp only [Set.mem_ofPred_eq]
        by_cases hu : u < f
        · simp [hu, hr]
        · simp [hu, hab]
      rw [this, hA, if_pos hr, if_neg hab]
      congr 1
      ring
    · have : {u : ℝ | u ∈ Set.Ico (0 : ℝ) 1 ∧ (if u < f then r else a) = b} = {u : ℝ | u ∈ Set.Ico (0 : ℝ) 1 ∧ ¬ u < f} := by
        ext u
        simp only [Set.mem_ofPred_eq]
        by_cases hu : u < f
        · simp [hu, hr]
        · simp [hu, hab]
      rw [this, hB, if_neg hr, if_pos hab]
      congr 1
      ring
    · have : {u : ℝ | u ∈ Set.Ico (0 : ℝ) 1 ∧ (if u < f then r else a) = b} = ∅ := by
        ext u
        simp only [Set.mem_ofPred_eq, Set.mem_empty_iff_false, iff_false]
        by_cases hu : u < f
        · simp [hu, hr]
        · simp [hu, hab]
      rw [this, if_neg hr, if_neg hab]
      simp
  simp only [hterm]
  have hnn : ∀ r, 0 ≤ (if r = b then f else 0) + (1 - f) * (if a = b then (1 : ℝ) else 0) := by
    intro r
    have : 0 ≤ 1 - f := by linarith
    by_cases hr : r = b <;> by_cases hab : a = b <;> simp only [hr, hab, if_true, if_false] <;> linarith
  have hsum : ∀ l : List Nat, (l.map fun r => ENNReal.ofReal ((if r = b then f else 0) + (1 - f) * (if a = b then 1 else 0))).sum =
      ENNReal.ofReal ((l.map fun r => (if r = b then f else 0) + (1 - f) * (if a = b then 1 else 0)).sum) := by
    intro l
    induction l with
    | nil => simp
    | cons r l ih =>
      rw [List.map_cons, List.sum_cons, ih, List.map_cons, List.sum_cons, ENNReal.ofReal_add (hnn r)]
      exact List.sum_nonneg fun x hx => by
        obtain ⟨r', _, rfl⟩ := List.mem_map.mp hx
        exact hnn r'
  have hn : (0 : ℝ) < n := by exact_mod_cast Nat.zero_lt_of_lt ha
  rw [hsum, ← ENNReal.ofReal_natCast n, ← ENNReal.ofReal_div_of_pos hn]
  congr 1
  have gen : ∀ m, ((List.range m).map fun r => (if r = b then f else 0) + (1 - f) * (if a = b then (1 : ℝ) else 0)).sum =
      m * ((1 - f) * (if a = b then 1 else 0)) + (if b < m then f else 0) := by
    intro m
    induction m with
    | zero => simp
    | succ m ih =>
      rw [List.range_succ, List.map_append, List.sum_append, ih, List.map_cons, List.map_nil, List.sum_singleton]
      push_cast
      by_cases h : m = b
      · subst h
        rw [if_neg (lt_irrefl _), if_pos rfl, if_pos (Nat.lt_succ_self _)]
        ring
      · rw [if_neg h]
        by_cases h2 : b < m
        · rw [if_pos h2, if_pos (show b < m + 1 by omega)]
          ring
        · rw [if_neg h2, if_neg (show ¬ b < m + 1 by omega)]
          ring
  rw [gen, if_pos hb]
  field_simp

/-- The action stays in the action space. -/
theorem randomize_action_valid {f u : ℝ} {n r a : Nat} (hr : r < n) (ha : a < n) : randomizeAction f u r a < n := by
  unfold randomizeAction
  by_cases h : u < f
  · rw [if_pos h]; exact hr
  · rw [if_neg h]; exact ha

/-- Two actions with different values: the hypotheses of the theorems above. -/
example : ([1, 2] : List ℝ) ≠ [] ∧ (2 : ℝ) ∈ ([1, 2] : List ℝ) ∧ (∀ q' ∈ ([1, 2] : List ℝ), q' ≤ 2) ∧ ¬ (∀ q' ∈ ([1, 2] : List ℝ), q' ≤ 1) := by
  refine ⟨by simp, by simp, ?_, ?_⟩
  · intro q hq
    simp at hq
    rcases hq with rfl | rfl <;> norm_num
  · intro h
    have := h 2 (by simp)
    norm_num at this

/-! ## C89 -/

/-- **C89.** In a training of `total > 1` steps `LinearInterpolationHook` starts with `start`, ends with `stop`, keeps `stop` afterwards, moves by the same amount at
every step, and never leaves the interval between the two values. -/
theorem linear_interpolation {total : Nat} (ht : 1 < total) (start stop : ℝ) :
    ∃ v : Nat → ℝ, (∀ step, interpolate total start stop step = some (v step)) ∧ v 1 = start ∧ (∀ step, total ≤ step → v step = stop) ∧
      (∀ step, 1 ≤ step → step < total → v (step + 1) - v step = (stop - start) / (total - 1)) ∧
      (∀ step, min start stop ≤ v step ∧ v step ≤ max start stop) ∧
      (start ≤ stop → Monotone v) ∧ (stop ≤ start → Antitone v) := by
  have htr : (1 : ℝ) < total := by exact_mod_cast ht
  let v : Nat → ℝ := fun step => start + (stop - start) * ((min (max step 1) total - 1 : ℕ) : ℝ) / (total - 1)
  have hv : ∀ step, interpolate total start stop step = some (v step) := by
    intro step
    unfold interpolate
    rw [if_neg (by omega)]
    by_cases h1 : step ≤ 1
    · rw [if_pos h1]
      simp only [v]
      rw [max_eq_right h1, min_eq_left (by omega)]
      simp
    · rw [if_neg h1]
      by_cases h2 : total ≤ step
      · rw [if_pos h2]
        simp only [v]
        rw [max_eq_left (by omega), min_eq_right h2, Nat.cast_sub (by omega), Nat.cast_one, mul_div_assoc, div_self (by linarith), mul_one,
          add_sub_cancel]
      · rw [if_neg h2]
        simp only [v]
        rw [max_eq_left (by omega), min_eq_left (by omega), Nat.cast_sub (by omega), Nat.cast_one]
        congr 1
        ring
  have hle : ∀ step, ((min (max step 1) total - 1 : ℕ) : ℝ) / (total - 1) ≤ 1 := by
    intro step
    rw [div_le_one (by linarith)]
    have : min (max step 1) total - 1 ≤ total - 1 := by omega
    have h3 : ((min (max step 1) total - 1 : ℕ) : ℝ) ≤ ((total - 1 : ℕ) : ℝ) := by exact_mod_cast this
    rw [Nat.cast_sub (show 1 ≤ total by omega), Nat.cast_one] at h3
    exact h3
  have hge : ∀ step, 0 ≤ ((min (max step 1) total - 1 : ℕ) : ℝ) / (total - 1) := by
    intro step
    exact div_nonneg (Nat.cast_nonneg _) (by linarith)
  have hmono : ∀ a b, a ≤ b → ((min (max a 1) total - 1 : ℕ) : ℝ) / (total - 1) ≤ ((min (max b 1) total - 1 : ℕ) : ℝ) / (total - 1) := by
    intro a b hab
    apply div_le_div_of_nonneg_right _ (by linarith)
    have : min (max a 1) total - 1 ≤ min (max b 1) total - 1 := by omega
    exact_mod_cast this
  refine ⟨v, hv, ?_, ?_, ?_, ?_, ?_, ?_⟩
  · have := hv 1
    unfold interpolate at this
    rw [if_neg (by omega), if_pos (le_refl _)] at this
    exact (Option.some.inj this).symm
  · intro step hs
    have := hv step
    unfold interpolate at this
    rw [if_neg (by omega), if_neg (by omega), if_pos hs] at this
    exact (Option.some.inj this).symm
  · intro step h1 h2
    simp only [v]
    rw [max_eq_left (by omega), max_eq_left h1, min_eq_left (by omega), min_eq_left (by omega), Nat.cast_sub (by omega), Nat.cast_sub h1]
    push_cast
    ring
  · intro step
    have h1 := hle step
    have h2 := hge step
    simp only [v]
    rw [mul_div_assoc]
    rcases le_total start stop with h | h
    · rw [min_eq_left h, max_eq_right h]
      constructor <;> nlinarith
    · rw [min_eq_right h, max_eq_left h]
      constructor <;> nlinarith
  · intro h a b hab
    have := hmono a b hab
    simp only [v]
    rw [mul_div_assoc, mul_div_assoc]
    nlinarith
  · intro h a b hab
    have := hmono a b hab
    simp only [v]
    rw [mul_div_assoc, mul_div_assoc]
    nlinarith

/-- A learning rate from 1 to 0 over 5 steps. -/
example : (List.range 6).map (interpolate 5 1 0) = [some 1, some 1, some (3 / 4), some (1 / 2), some (1 / 4), some 0] := by
  simp only [interpolate, List.range, List.range.loop, List.map_cons, List.map_nil]
  norm_num

end Pfrl.Stochastic
