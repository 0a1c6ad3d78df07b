import Verif.Ppo.Minibatch
import Verif.Ppo.Sequences
import Verif.Recurrent.Experiences
import Mathlib.Analysis.SpecialFunctions.ExpDeriv
import Mathlib.Analysis.SpecialFunctions.Log.Basic
import Mathlib.Analysis.Calculus.Deriv.Pow
import Mathlib.Algebra.BigOperators.Group.List.Lemmas
import Mathlib.Tactic.FieldSimp
import Mathlib.Tactic.Positivity

/-!
# The loss of PPO (C83) and its standardised advantages (C84)

Numbers are exact.  What the networks give (log probabilities, entropies, values) are the entries of a row; autograd is not modelled,
the gradients in the theorems are those of the loss as a function.
-/

namespace Pfrl.Ppo.Loss

/-! ## Model -/

/-- One transition of a minibatch with what the networks say about it now: the arguments of `_lossfun`, `pfrl/agents/ppo.py:634-636`. -/
structure Row where
  entropy : ℝ
  vPred : ℝ
  logProb : ℝ
  vPredOld : ℝ
  logProbOld : ℝ
  adv : ℝ
  vTeacher : ℝ

/-- The settings of `PPO` that the loss depends on. -/
structure Hyper where
  clipEps : ℝ
  clipEpsVf : Option ℝ
  valueCoef : ℝ
  entropyCoef : ℝ

/-- `torch.mean` of a vector.  Minibatches are never empty; the value given for an empty one is of no interest. -/
noncomputable def mean (xs : List ℝ) : ℝ := xs.sum / xs.length

/-- `torch.clamp(x, lo, hi)`, and `_elementwise_clip`, lines 28-33. -/
noncomputable def clip (x lo hi : ℝ) : ℝ := min (max x lo) hi

/-- `prob_ratio`, line 635. -/
noncomputable def ratio (r : Row) : ℝ := Real.exp (r.logProb - r.logProbOld)

/-- The entry of `torch.min(...)` for one transition, lines 638-641. -/
noncomputable def policyTerm (h : Hyper) (r : Row) : ℝ :=
  min (ratio r * r.adv) (clip (ratio r) (1 - h.clipEps) (1 + h.clipEps) * r.adv)

/-- The entry of `F.mse_loss` or of `torch.max(...)` for one transition, lines 644-657. -/
noncomputable def valueTerm (h : Hyper) (r : Row) : ℝ :=
  match h.clipEpsVf with
  | none => (r.vPred - r.vTeacher) ^ 2
  | some e => max ((r.vPred - r.vTeacher) ^ 2) ((clip r.vPred (r.vPredOld - e) (r.vPredOld + e) - r.vTeacher) ^ 2)

/-- `loss_policy`, lines 637-642. -/
noncomputable def lossPolicy (h : Hyper) (rows : List Row) : ℝ := -mean (rows.map (policyTerm h))

/-- `loss_value_func`, lines 644-657. -/
noncomputable def lossValue (h : Hyper) (rows : List Row) : ℝ := mean (rows.map (valueTerm h))

/-- `_lossfun`, lines 632-671. -/
noncomputable def loss (h : Hyper) (rows : List Row) : ℝ :=
  lossPolicy h rows + h.valueCoef * lossValue h rows + h.entropyCoef * -mean (rows.map Row.entropy)

/-- `torch.std_mean(xs, unbiased=False)`: the standard deviation. -/
noncomputable def std (xs : List ℝ) : ℝ := Real.sqrt (mean (xs.map fun x => (x - mean xs) ^ 2))

variable {T : Type _}

/-- Lines 495-496 and 563-564, for one transition; `all` are the advantages of the data set. -/
noncomputable def standard (standardize : Bool) (all : List ℝ) (x : ℝ) : ℝ :=
  if standardize then (x - mean all) / (std all + 1 / 100000000) else x

/-- `_update`, lines 473-528: the transitions of each minibatch with the advantages used for them. -/
noncomputable def updateAdvs (standardize : Bool) (adv : T → ℝ) (samples : Nat → List T) (dataset : List T) (mb epochs : Nat) :
    Except PyErr (List (List (T × ℝ))) :=
  match yieldMinibatches samples dataset mb epochs with
  | .error e => .error e
  | .ok batches => .ok (batches.map fun b => b.map fun t => (t, standard standardize (dataset.map adv) (adv t)))

open Classical in
/-- `_update_once_recurrent`, lines 530-564: the transitions in the order of `flat_transitions`, with the advantages used. -/
noncomputable def onceRecurrent (standardize : Bool) (all : List ℝ) (adv : T → ℝ) (episodes : List (List T)) :
    Except PyErr (List (T × ℝ)) :=
  if standardize ∧ ¬ 0 < std all then .error .assertionError
  else .ok ((Recurrent.flattenTimeFirst (Recurrent.sortedDesc episodes)).map fun t => (t, standard standardize all (adv t)))

/-- The inner loop of `_update_recurrent`, lines 625-628. -/
noncomputable def allRecurrent (standardize : Bool) (all : List ℝ) (adv : T → ℝ) : List (List (List T)) → Except PyErr (List (List (T × ℝ)))
  | [] => .ok []
  | b :: bs =>
    match onceRecurrent standardize all adv b with
    | .error e => .error e
    | .ok x =>
      match allRecurrent standardize all adv bs with
      | .error e => .error e
      | .ok xs => .ok (x :: xs)

/-- The outer loop of `_update_recurrent`, lines 623-628; `shuffled k` is the data set after the `k`-th `random.shuffle`.
The generator of minibatches is run to its end first, which makes no difference. -/
noncomputable def epochsRecurrent (standardize : Bool) (all : List ℝ) (adv : T → ℝ) (shuffled : Nat → List (List T)) (mb : Nat) :
    Nat → Nat → Except PyErr (List (List (T × ℝ)))
  | 0, _ => .ok []
  | n + 1, k =>
    match yieldSubsets (shuffled k) mb with
    | .error e => .error e
    | .ok groups =>
      match allRecurrent standardize all adv groups with
      | .error e => .error e
      | .ok xs =>
        match epochsRecurrent standardize all adv shuffled mb n (k + 1) with
        | .error e => .error e
        | .ok ys => .ok (xs ++ ys)

/-- `_update_recurrent`, lines 603-628. -/
noncomputable def updateRecurrent (standardize : Bool) (adv : T → ℝ) (shuffled : Nat → List (List T)) (dataset : List (List T))
    (mb epochs : Nat) : Except PyErr (List (List (T × ℝ))) :=
  epochsRecurrent standardize (dataset.flatten.map adv) adv shuffled mb epochs 0

/-! ## Specification -/

/-- A scoring of transitions: mean zero and mean square at most one over the data set, and in the order of the advantages. -/
structure Spec.Standard (adv z : T → ℝ) (dataset : List T) : Prop where
  centred : (dataset.map z).sum = 0
  small : (dataset.map fun t => z t ^ 2).sum ≤ dataset.length
  ordered : ∀ t u, adv t < adv u ↔ z t < z u

/-! ## Lemmas -/

theorem mean_le {xs ys : List ℝ} (h : List.Forall₂ (· ≤ ·) xs ys) : mean xs ≤ mean ys := by
  unfold mean
  rw [h.length_eq]
  apply div_le_div_of_nonneg_right _ (Nat.cast_nonneg _)
  exact List.Forall₂.sum_le_sum h

theorem mean_map_le {α : Type _} {f g : α → ℝ} (xs : List α) (h : ∀ x ∈ xs, f x ≤ g x) :
    mean (xs.map f) ≤ mean (xs.map g) := by
  unfold mean
  rw [List.length_map, List.length_map]
  apply div_le_div_of_nonneg_right _ (Nat.cast_nonneg _)
  exact List.sum_le_sum h

/-- The derivative of a mean when one entry changes. -/
theorem mean_deriv (F : Row → ℝ) (pre post : List Row) (g : ℝ → Row) {f' x : ℝ}
    (h : HasDerivAt (fun y => F (g y)) f' x) :
    HasDerivAt (fun y => mean ((pre ++ g y :: post).map F)) (f' / (pre.length + 1 + post.length)) x := by
  have e : (fun y => mean ((pre ++ g y :: post).map F)) = fun y =>
      ((pre.map F).sum + (F (g y) + (post.map F).sum)) / (pre.length + 1 + post.length : ℝ) := by
    funext y
    unfold mean
    rw [List.map_append, List.map_cons, List.sum_append, List.sum_cons, List.length_append, List.length_cons, List.length_map,
      List.length_map]
    congr 1
    push_cast
    ring
  rw [e]
  exact ((h.add_const _).const_add _).div_const _

theorem mean_const (F : Row → ℝ) (pre post : List Row) (g : ℝ → Row) {x : ℝ} (h : ∀ y z, F (g y) = F (g z)) :
    HasDerivAt (fun y => mean ((pre ++ g y :: post).map F)) 0 x := by
  have e : (fun y => mean ((pre ++ g y :: post).map F)) = fun _ => mean ((pre ++ g x :: post).map F) := by
    funext y
    rw [List.map_append, List.map_cons, List.map_append, List.map_cons, h y x]
  rw [e]
  exact hasDerivAt_const _ _

theorem ratio_deriv (r : Row) : HasDerivAt (fun x => ratio { r with logProb := x } * r.adv) (ratio r * r.adv) r.logProb := by
  have h1 : HasDerivAt (fun x => x - r.logProbOld) 1 r.logProb := (hasDerivAt_id _).sub_const _
  have h2 := h1.exp.mul_const r.adv
  rw [mul_one] at h2
  exact h2

theorem ratio_continuous (r : Row) : Continuous fun x => ratio { r with logProb := x } :=
  Real.continuous_exp.comp (continuous_id.sub continuous_const)

theorem clip_mono {lo hi x y : ℝ} (h : x ≤ y) : clip x lo hi ≤ clip y lo hi := min_le_min_right _ (max_le_max_right _ h)

theorem clip_id {lo hi x : ℝ} (h1 : lo ≤ x) (h2 : x ≤ hi) : clip x lo hi = x := by
  unfold clip
  rw [max_eq_left h1, min_eq_left h2]

theorem clip_low {lo hi x : ℝ} (hl : lo ≤ hi) (h : x ≤ lo) : clip x lo hi = lo := by
  unfold clip
  rw [max_eq_right h, min_eq_left hl]

theorem clip_high {lo hi x : ℝ} (h : hi ≤ x) : clip x lo hi = hi := by
  unfold clip
  rw [min_eq_right (le_trans h (le_max_left _ _))]

/-- The term is the unclipped one unless the ratio has moved beyond the bound in the direction the advantage favours. -/
theorem policyTerm_unclipped {h : Hyper} (r : Row)
    (hr : (0 ≤ r.adv ∧ ratio r ≤ 1 + h.clipEps) ∨ (r.adv ≤ 0 ∧ 1 - h.clipEps ≤ ratio r)) :
    policyTerm h r = ratio r * r.adv := by
  unfold policyTerm
  apply min_eq_left
  rcases hr with ⟨ha, hb⟩ | ⟨ha, hb⟩
  · apply mul_le_mul_of_nonneg_right _ ha
    unfold clip
    exact le_min (le_max_left _ _) hb
  · apply mul_le_mul_of_nonpos_right _ ha
    unfold clip
    exact le_trans (min_le_left _ _) (max_le (le_refl _) hb)

theorem policyTerm_clipped_high {h : Hyper} (r : Row) (ha : 0 ≤ r.adv) (hb : 1 + h.clipEps ≤ ratio r) :
    policyTerm h r = (1 + h.clipEps) * r.adv := by
  unfold policyTerm
  rw [clip_high hb]
  exact min_eq_right (mul_le_mul_of_nonneg_right hb ha)

theorem policyTerm_clipped_low {h : Hyper} (he : 0 ≤ h.clipEps) (r : Row) (ha : r.adv ≤ 0) (hb : ratio r ≤ 1 - h.clipEps) :
    policyTerm h r = (1 - h.clipEps) * r.adv := by
  unfold policyTerm
  rw [clip_low (by linarith) hb]
  exact min_eq_right (mul_le_mul_of_nonpos_right hb ha)

/-- The derivative of the term of one transition by its log probability. -/
theorem policyTerm_deriv {h : Hyper} (he : 0 ≤ h.clipEps) (r : Row) :
    ((0 < r.adv ∧ 1 + h.clipEps < ratio r) ∨ (r.adv < 0 ∧ ratio r < 1 - h.clipEps) →
      HasDerivAt (fun x => policyTerm h { r with logProb := x }) 0 r.logProb) ∧
    ((0 ≤ r.adv ∧ ratio r < 1 + h.clipEps) ∨ (r.adv ≤ 0 ∧ 1 - h.clipEps < ratio r) →
      HasDerivAt (fun x => policyTerm h { r with logProb := x }) (ratio r * r.adv) r.logProb) := by
  have hc := (ratio_continuous r).continuousAt (x := r.logProb)
  constructor
  · rintro (⟨ha, hb⟩ | ⟨ha, hb⟩)
    · have hev := hc.eventually (lt_mem_nhds hb)
      refine (hasDerivAt_const r.logProb ((1 + h.clipEps) * r.adv)).congr_of_eventuallyEq (hev.mono fun y hy => ?_)
      exact policyTerm_clipped_high (h := h) { r with logProb := y } ha.le hy.le
    · have hev := hc.eventually (gt_mem_nhds hb)
      refine (hasDerivAt_const r.logProb ((1 - h.clipEps) * r.adv)).congr_of_eventuallyEq (hev.mono fun y hy => ?_)
      exact policyTerm_clipped_low (h := h) he { r with logProb := y } ha.le hy.le
  · rintro (⟨ha, hb⟩ | ⟨ha, hb⟩)
    · have hev := hc.eventually (gt_mem_nhds hb)
      refine (ratio_deriv r).congr_of_eventuallyEq (hev.mono fun y hy => ?_)
      exact policyTerm_unclipped { r with logProb := y } (Or.inl ⟨ha, hy.le⟩)
    · have hev := hc.eventually (lt_mem_nhds hb)
      refine (ratio_deriv r).congr_of_eventuallyEq (hev.mono fun y hy => ?_)
      exact policyTerm_unclipped { r with logProb := y } (Or.inr ⟨ha, hy.le⟩)

theorem sq_deriv (T x : ℝ) : HasDerivAt (fun v => (v - T) ^ 2) (2 * (x - T)) x := by
  have h := ((hasDerivAt_id x).sub_const T).pow 2
  have e : ((2 : ℕ) : ℝ) * (id x - T) ^ (2 - 1) * 1 = 2 * (x - T) := by
    simp
  rw [e] at h
  exact h

theorem clip_continuous (lo hi : ℝ) : Continuous fun x => clip x lo hi :=
  (continuous_id.max continuous_const).min continuous_const

/-- The derivative of the value term of one transition by the value. -/
theorem valueTerm_deriv {h : Hyper} {e : ℝ} (hh : h.clipEpsVf = some e) (he : 0 ≤ e) (r : Row) :
    ((|r.vPred - r.vTeacher| < |clip r.vPred (r.vPredOld - e) (r.vPredOld + e) - r.vTeacher| →
      HasDerivAt (fun x => valueTerm h { r with vPred := x }) 0 r.vPred) ∧
    ((|r.vPred - r.vPredOld| < e ∨ |clip r.vPred (r.vPredOld - e) (r.vPredOld + e) - r.vTeacher| < |r.vPred - r.vTeacher|) →
      HasDerivAt (fun x => valueTerm h { r with vPred := x }) (2 * (r.vPred - r.vTeacher)) r.vPred)) := by
  have hval : ∀ x, valueTerm h { r with vPred := x } =
      max ((x - r.vTeacher) ^ 2) ((clip x (r.vPredOld - e) (r.vPredOld + e) - r.vTeacher) ^ 2) := by
    intro x
    unfold valueTerm
    rw [hh]
  have hc1 : ContinuousAt (fun x : ℝ => |x - r.vTeacher|) r.vPred := ((continuous_id.sub continuous_const).abs).continuousAt
  have hc2 : ContinuousAt (fun x : ℝ => |clip x (r.vPredOld - e) (r.vPredOld + e) - r.vTeacher|) r.vPred :=
    (((clip_continuous _ _).sub continuous_const).abs).continuousAt
  constructor
  · intro hlt
    have hne : clip r.vPred (r.vPredOld - e) (r.vPredOld + e) ≠ r.vPred := by
      intro hc
      rw [hc] at hlt
      exact lt_irrefl _ hlt
    have hev := hc1.eventually_lt hc2 hlt
    rcases lt_or_ge r.vPred (r.vPredOld - e) with h1 | h1
    · have hev2 := gt_mem_nhds h1
      refine (hasDerivAt_const r.vPred ((r.vPredOld - e - r.vTeacher) ^ 2)).congr_of_eventuallyEq
        ((hev.and hev2).mono fun y hy => ?_)
      have hcl : clip y (r.vPredOld - e) (r.vPredOld + e) = r.vPredOld - e := clip_low (by linarith) (le_of_lt hy.2)
      simp only [hval, hcl]
      apply max_eq_right
      have := hy.1
      rw [hcl] at this
      exact (sq_lt_sq.mpr this).le
    · rcases lt_or_ge (r.vPredOld + e) r.vPred with h2 | h2
      · have hev2 := lt_mem_nhds h2
        refine (hasDerivAt_const r.vPred ((r.vPredOld + e - r.vTeacher) ^ 2)).congr_of_eventuallyEq
          ((hev.and hev2).mono fun y hy => ?_)
        have hcl : clip y (r.vPredOld - e) (r.vPredOld + e) = r.vPredOld + e := clip_high (le_of_lt hy.2)
        simp only [hval, hcl]
        apply max_eq_right
        have := hy.1
        rw [hcl] at this
        exact (sq_lt_sq.mpr this).le
      · exact absurd (clip_id h1 h2) hne
  · rintro (hin | hlt)
    · have hc3 : ContinuousAt (fun x : ℝ => |x - r.vPredOld|) r.vPred := ((continuous_id.sub continuous_const).abs).continuousAt
      have hev := hc3.eventually (gt_mem_nhds hin)
      refine (sq_deriv r.vTeacher r.vPred).congr_of_eventuallyEq (hev.mono fun y hy => ?_)
      have hy' := abs_lt.mp hy
      have hcl : clip y (r.vPredOld - e) (r.vPredOld + e) = y := clip_id (by linarith [hy'.1]) (by linarith [hy'.2])
      simp only [hval, hcl]
      exact max_self _
    · have hev := hc2.eventually_lt hc1 hlt
      refine (sq_deriv r.vTeacher r.vPred).congr_of_eventuallyEq (hev.mono fun y hy => ?_)
      simp only [hval]
      exact max_eq_left (sq_lt_sq.mpr hy).le

theorem loss_deriv_logProb (h : Hyper) (pre post : List Row) (r : Row) {d : ℝ}
    (hd : HasDerivAt (fun x => policyTerm h { r with logProb := x }) d r.logProb) :
    HasDerivAt (fun x => loss h (pre ++ { r with logProb := x } :: post)) (-(d / (pre.length + 1 + post.length))) r.logProb := by
  have h1 := (mean_deriv (policyTerm h) pre post (fun x => { r with logProb := x }) hd).neg
  have h2 := (mean_const (valueTerm h) pre post (fun x => { r with logProb := x }) (x := r.logProb) fun y z => rfl).const_mul h.valueCoef
  have h3 := ((mean_const Row.entropy pre post (fun x => { r with logProb := x }) (x := r.logProb) fun y z => rfl).neg).const_mul
    h.entropyCoef
  have h4 := (h1.add h2).add h3
  rw [neg_zero, mul_zero, mul_zero, add_zero, add_zero] at h4
  exact h4

theorem loss_deriv_vPred (h : Hyper) (pre post : List Row) (r : Row) {d : ℝ}
    (hd : HasDerivAt (fun x => valueTerm h { r with vPred := x }) d r.vPred) :
    HasDerivAt (fun x => loss h (pre ++ { r with vPred := x } :: post)) (h.valueCoef * (d / (pre.length + 1 + post.length))) r.vPred := by
  have h1 := (mean_const (policyTerm h) pre post (fun x => { r with vPred := x }) (x := r.vPred) fun y z => rfl).neg
  have h2 := (mean_deriv (valueTerm h) pre post (fun x => { r with vPred := x }) hd).const_mul h.valueCoef
  have h3 := ((mean_const Row.entropy pre post (fun x => { r with vPred := x }) (x := r.vPred) fun y z => rfl).neg).const_mul
    h.entropyCoef
  have h4 := (h1.add h2).add h3
  rw [neg_zero, mul_zero, add_zero, zero_add] at h4
  exact h4

/-! ## C83 -/

/-- **C83 (pessimism).** The policy loss is never below that of the unclipped surrogate objective, equals it as long as all probability
ratios are within the clipping range (in particular before the first change of the policy), and can never fall below the bound
given by the clipping range, whatever the new policy.  The value loss is never below the mean squared error, and equals it if no
value has moved by more than the clipping range or value clipping is off. -/
theorem ppo_loss_pessimistic (h : Hyper) (he : 0 ≤ h.clipEps) (rows : List Row) :
    (-mean (rows.map fun r => ratio r * r.adv) ≤ lossPolicy h rows) ∧
    ((∀ r ∈ rows, |ratio r - 1| ≤ h.clipEps) → lossPolicy h rows = -mean (rows.map fun r => ratio r * r.adv)) ∧
    (-mean (rows.map fun r => r.adv + h.clipEps * |r.adv|) ≤ lossPolicy h rows) ∧
    (mean (rows.map fun r => (r.vPred - r.vTeacher) ^ 2) ≤ lossValue h rows) ∧
    ((∀ e ∈ h.clipEpsVf, ∀ r ∈ rows, |r.vPred - r.vPredOld| ≤ e) →
      lossValue h rows = mean (rows.map fun r => (r.vPred - r.vTeacher) ^ 2)) := by
  refine ⟨?_, fun hr => ?_, ?_, ?_, fun hr => ?_⟩
  · unfold lossPolicy
    exact neg_le_neg (mean_map_le rows fun r _ => min_le_left _ _)
  · unfold lossPolicy
    congr 2
    apply List.map_congr_left
    intro r hrm
    have := abs_le.mp (hr r hrm)
    rcases le_total 0 r.adv with ha | ha
    · exact policyTerm_unclipped r (Or.inl ⟨ha, by linarith [this.2]⟩)
    · exact policyTerm_unclipped r (Or.inr ⟨ha, by linarith [this.1]⟩)
  · unfold lossPolicy
    refine neg_le_neg (mean_map_le rows fun r _ => ?_)
    rcases le_total 0 r.adv with ha | ha
    · rw [abs_of_nonneg ha]
      rcases le_total (ratio r) (1 + h.clipEps) with hb | hb
      · rw [policyTerm_unclipped r (Or.inl ⟨ha, hb⟩)]
        nlinarith
      · rw [policyTerm_clipped_high r ha hb]
        linarith
    · rw [abs_of_nonpos ha]
      rcases le_total (1 - h.clipEps) (ratio r) with hb | hb
      · rw [policyTerm_unclipped r (Or.inr ⟨ha, hb⟩)]
        nlinarith
      · rw [policyTerm_clipped_low he r ha hb]
        linarith
  · unfold lossValue
    refine mean_map_le rows fun r _ => ?_
    unfold valueTerm
    cases h.clipEpsVf with
    | none => exact le_refl _
    | some e => exact le_max_left _ _
  · unfold lossValue
    congr 1
    apply List.map_congr_left
    intro r hrm
    unfold valueTerm
    cases hh : h.clipEpsVf with
    | none => rfl
    | some e =>
      have := abs_le.mp (hr e hh r hrm)
      simp only [clip_id (show r.vPredOld - e ≤ r.vPred by linarith [this.1]) (show r.vPred ≤ r.vPredOld + e by linarith [this.2])]
      exact max_self _

/-- A row whose probability has doubled: clipped if the advantage is positive, not if it is negative. -/
example : ∃ r : Row, 0 < r.adv ∧ 1 + 1 / 5 < ratio r ∧
    policyTerm ⟨1 / 5, none, 1, 1⟩ r = 6 / 5 * r.adv ∧ policyTerm ⟨1 / 5, none, 1, 1⟩ { r with adv := -r.adv } = 2 * -r.adv := by
  have hr : ∀ a, ratio ⟨0, 0, Real.log 2, 0, 0, a, 0⟩ = 2 := by
    intro a
    unfold ratio
    rw [sub_zero, Real.exp_log (by norm_num)]
  refine ⟨⟨0, 0, Real.log 2, 0, 0, 3, 0⟩, by norm_num, by rw [hr]; norm_num, ?_, ?_⟩
  · rw [policyTerm_clipped_high _ (by norm_num) (by rw [hr]; norm_num)]
    norm_num
  · rw [policyTerm_unclipped _ (Or.inr ⟨by norm_num, by rw [hr]; norm_num⟩), hr]

/-- **C83 (policy gradient).** In any minibatch, the gradient of the whole loss by the log probability of one transition is
`-ratio * advantage / batch size`, the policy gradient with importance sampling, as long as the ratio is not beyond the clipping bound on
the side that the advantage favours; beyond that bound it is zero, so nothing is gained by moving on. -/
theorem ppo_policy_gradient (h : Hyper) (he : 0 ≤ h.clipEps) (pre post : List Row) (r : Row) :
    ((0 ≤ r.adv ∧ ratio r < 1 + h.clipEps) ∨ (r.adv ≤ 0 ∧ 1 - h.clipEps < ratio r) →
      HasDerivAt (fun x => loss h (pre ++ { r with logProb := x } :: post))
        (-(ratio r * r.adv / (pre.length + 1 + post.length))) r.logProb) ∧
    ((0 < r.adv ∧ 1 + h.clipEps < ratio r) ∨ (r.adv < 0 ∧ ratio r < 1 - h.clipEps) →
      HasDerivAt (fun x => loss h (pre ++ { r with logProb := x } :: post)) 0 r.logProb) := by
  constructor
  · intro hr
    exact loss_deriv_logProb h pre post r ((policyTerm_deriv he r).2 hr)
  · intro hr
    have := loss_deriv_logProb h pre post r ((policyTerm_deriv he r).1 hr)
    rw [zero_div, neg_zero] at this
    exact this

/-- Both cases of the theorem occur: the ratio 2 with a negative and with a positive advantage. -/
example (h : Hyper) (he : h.clipEps = 1 / 5) :
    HasDerivAt (fun x => loss h ([] ++ ⟨0, 0, x, 0, 0, -3, 0⟩ :: [])) (-(2 * -3 / 1)) (Real.log 2) ∧
    HasDerivAt (fun x => loss h ([] ++ ⟨0, 0, x, 0, 0, 3, 0⟩ :: [])) 0 (Real.log 2) := by
  have hr : ∀ a, ratio ⟨0, 0, Real.log 2, 0, 0, a, 0⟩ = 2 := by
    intro a
    unfold ratio
    rw [sub_zero, Real.exp_log (by norm_num)]
  constructor
  · have := (ppo_policy_gradient h (by rw [he]; norm_num) [] [] ⟨0, 0, Real.log 2, 0, 0, -3, 0⟩).1
      (Or.inr ⟨by norm_num, by rw [hr, he]; norm_num⟩)
    rw [hr] at this
    norm_num at this ⊢
    exact this
  · exact (ppo_policy_gradient h (by rw [he]; norm_num) [] [] ⟨0, 0, Real.log 2, 0, 0, 3, 0⟩).2
      (Or.inl ⟨by norm_num, by rw [hr, he]; norm_num⟩)

/-- **C83 (value and entropy gradients).** The gradient by the value of one transition is that of the mean squared error times the value
coefficient, without value clipping and also with it while the value is within the clipping range or has moved away from the
target beyond the clipped value; it is zero where the clipped value is farther from the target than the value.  The gradient by the
entropy is minus the entropy coefficient over the batch size. -/
theorem ppo_value_gradient (h : Hyper) (pre post : List Row) (r : Row) :
    (h.clipEpsVf = none → HasDerivAt (fun x => loss h (pre ++ { r with vPred := x } :: post))
      (h.valueCoef * (2 * (r.vPred - r.vTeacher) / (pre.length + 1 + post.length))) r.vPred) ∧
    (∀ e, h.clipEpsVf = some e → 0 ≤ e →
      (|r.vPred - r.vPredOld| < e ∨ |clip r.vPred (r.vPredOld - e) (r.vPredOld + e) - r.vTeacher| < |r.vPred - r.vTeacher| →
        HasDerivAt (fun x => loss h (pre ++ { r with vPred := x } :: post))
          (h.valueCoef * (2 * (r.vPred - r.vTeacher) / (pre.length + 1 + post.length))) r.vPred) ∧
      (|r.vPred - r.vTeacher| < |clip r.vPred (r.vPredOld - e) (r.vPredOld + e) - r.vTeacher| →
        HasDerivAt (fun x => loss h (pre ++ { r with vPred := x } :: post)) 0 r.vPred)) ∧
    HasDerivAt (fun x => loss h (pre ++ { r with entropy := x } :: post))
      (-(h.entropyCoef / (pre.length + 1 + post.length))) r.entropy := by
  refine ⟨fun hh => ?_, fun e hh he => ⟨fun hr => ?_, fun hr => ?_⟩, ?_⟩
  · apply loss_deriv_vPred
    have : (fun x => valueTerm h { r with vPred := x }) = fun x => (x - r.vTeacher) ^ 2 := by
      funext x
      unfold valueTerm
      rw [hh]
    rw [this]
    exact sq_deriv _ _
  · exact loss_deriv_vPred h pre post r ((valueTerm_deriv hh he r).2 hr)
  · have := loss_deriv_vPred h pre post r ((valueTerm_deriv hh he r).1 hr)
    rw [zero_div, mul_zero] at this
    exact this
  · have h1 := (mean_const (policyTerm h) pre post (fun x => { r with entropy := x }) (x := r.entropy) fun y z => rfl).neg
    have h2 := (mean_const (valueTerm h) pre post (fun x => { r with entropy := x }) (x := r.entropy) fun y z => rfl).const_mul
      h.valueCoef
    have h3 := ((mean_deriv Row.entropy pre post (fun x => { r with entropy := x }) (hasDerivAt_id r.entropy)).neg).const_mul
      h.entropyCoef
    have h4 := (h1.add h2).add h3
    rw [neg_zero, mul_zero, add_zero, zero_add] at h4
    rw [div_eq_mul_one_div h.entropyCoef, ← mul_neg]
    exact h4

/-- The value 3 with old value 1 and target 4 is clipped to 2, so it is not pulled further. -/
example (h : Hyper) (he : h.clipEpsVf = some 1) : HasDerivAt (fun x => loss h ([] ++ ⟨0, x, 0, 1, 0, 0, 4⟩ :: [])) 0 3 := by
  have hc : clip 3 (1 - 1) (1 + 1) = 2 := by rw [clip_high (by norm_num)]; norm_num
  exact ((ppo_value_gradient h [] [] ⟨0, 3, 0, 1, 0, 0, 4⟩).2.1 1 he (by norm_num)).2 (by
    simp only [hc]
    norm_num)

/-! ## C84 -/

theorem sum_map_sub_const (xs : List ℝ) (c : ℝ) : (xs.map fun x => x - c).sum = xs.sum - xs.length * c := by
  induction xs with
  | nil => simp
  | cons x xs ih =>
    rw [List.map_cons, List.sum_cons, ih, List.sum_cons, List.length_cons]
    push_cast
    ring

theorem sum_map_div (xs : List ℝ) (c : ℝ) : (xs.map fun x => x / c).sum = xs.sum / c := by
  induction xs with
  | nil => simp
  | cons x xs ih => rw [List.map_cons, List.sum_cons, ih, List.sum_cons, add_div]

theorem std_nonneg (xs : List ℝ) : 0 ≤ std xs := Real.sqrt_nonneg _

theorem var_nonneg (xs : List ℝ) : 0 ≤ mean (xs.map fun x => (x - mean xs) ^ 2) := by
  unfold mean
  apply div_nonneg _ (Nat.cast_nonneg _)
  apply List.sum_nonneg
  intro y hy
  obtain ⟨x, _, rfl⟩ := List.mem_map.mp hy
  exact sq_nonneg _

/-- The standard deviation vanishes exactly if all numbers are equal. -/
theorem std_pos_iff (xs : List ℝ) : 0 < std xs ↔ ∃ x ∈ xs, ∃ y ∈ xs, x ≠ y := by
  unfold std
  rw [Real.sqrt_pos]
  constructor
  · intro h
    by_contra hc
    push Not at hc
    have : mean (xs.map fun x => (x - mean xs) ^ 2) = 0 := by
      rcases xs with _ | ⟨x0, xs⟩
      · simp [mean]
      · have hm : mean (x0 :: xs) = x0 := by
          have : ∀ y ∈ x0 :: xs, y = x0 := fun y hy => hc y hy x0 List.mem_cons_self
          rw [List.eq_replicate_of_mem this]
          unfold mean
          rw [List.sum_replicate, List.length_replicate, List.length_cons, nsmul_eq_mul]
          field_simp
        have hz : ((x0 :: xs).map fun x => (x - mean (x0 :: xs)) ^ 2) = (x0 :: xs).map fun _ => 0 := by
          apply List.map_congr_left
          intro y hy
          rw [hm, hc y hy x0 List.mem_cons_self]
          ring
        rw [hz]
        unfold mean
        rw [List.map_const', List.sum_replicate, smul_zero, zero_div]
    linarith
  · rintro ⟨x, hx, y, hy, hxy⟩
    have hpos : (0 : ℝ) < xs.length := by exact_mod_cast List.length_pos_of_mem hx
    unfold mean
    rw [List.length_map]
    refine div_pos ?_ hpos
    by_contra hc
    have hall : ∀ z ∈ xs, (z - mean xs) ^ 2 ≤ 0 := by
      intro z hz
      refine le_trans (List.single_le_sum ?_ _ (List.mem_map.mpr ⟨z, hz, rfl⟩)) (not_lt.mp hc)
      intro w hw
      obtain ⟨v, _, rfl⟩ := List.mem_map.mp hw
      exact sq_nonneg _
    have hz : ∀ z ∈ xs, z = mean xs := by
      intro z hz
      have := pow_eq_zero_iff (two_ne_zero) |>.mp (le_antisymm (hall z hz) (sq_nonneg _))
      linarith
    exact hxy ((hz x hx).trans (hz y hy).symm)

theorem standard_standard (adv : T → ℝ) {dataset : List T} (hne : dataset ≠ []) :
    Spec.Standard adv (fun t => standard true (dataset.map adv) (adv t)) dataset := by
  have hd : 0 < std (dataset.map adv) + 1 / 100000000 := by
    have := std_nonneg (dataset.map adv)
    positivity
  have hpos : (0 : ℝ) < dataset.length := by exact_mod_cast List.length_pos_of_ne_nil hne
  have hlen : (dataset.map adv).length = dataset.length := List.length_map _
  refine ⟨?_, ?_, fun t u => ?_⟩
  · have e : (dataset.map fun t => standard true (dataset.map adv) (adv t)) =
        ((dataset.map adv).map fun x => x - mean (dataset.map adv)).map fun x => x / (std (dataset.map adv) + 1 / 100000000) := by
      rw [List.map_map, List.map_map]
      rfl
    rw [e, sum_map_div, sum_map_sub_const, hlen]
    unfold mean
    rw [hlen, mul_div_cancel₀ _ hpos.ne', sub_self, zero_div]
  · have e : (dataset.map fun t => standard true (dataset.map adv) (adv t) ^ 2) =
        ((dataset.map adv).map fun x => (x - mean (dataset.map adv)) ^ 2).map
          fun x => x / (std (dataset.map adv) + 1 / 100000000) ^ 2 := by
      rw [List.map_map, List.map_map]
      apply List.map_congr_left
      intro t _
      simp only [standard, if_true, Function.comp_apply, div_pow]
    have hv : std (dataset.map adv) ^ 2 = ((dataset.map adv).map fun x => (x - mean (dataset.map adv)) ^ 2).sum / dataset.length := by
      unfold std
      rw [Real.sq_sqrt (var_nonneg _)]
      have hm : ∀ ys : List ℝ, mean ys = ys.sum / ys.length := fun _ => rfl
      rw [hm ((dataset.map adv).map _), List.length_map, hlen]
    rw [e, sum_map_div, div_le_iff₀ (by positivity), ← div_le_iff₀' hpos, ← hv]
    apply pow_le_pow_left₀ (std_nonneg _)
    linarith
  · simp only [standard, if_true]
    rw [div_lt_div_iff_of_pos_right hd, sub_lt_sub_iff_right]

/-- **C84 (feedforward models).** For every non-empty data set and every way of drawing minibatches, the update succeeds and gives every
transition the same score in all minibatches of all epochs: scores with mean zero and mean square at most one over the data set,
ordered as the advantages; or the advantages themselves if standardisation is off. -/
theorem ppo_standardized_advantages [DecidableEq T] (adv : T → ℝ) (samples : Nat → List T) (dataset : List T) (hne : dataset ≠ [])
    (hnd : dataset.Nodup) (mb epochs : Nat) (hmb : 0 < mb) (hs : ∀ j, (samples j).Perm dataset) :
    ∃ batches, yieldMinibatches samples dataset mb epochs = .ok batches ∧
      updateAdvs false adv samples dataset mb epochs = .ok (batches.map fun b => b.map fun t => (t, adv t)) ∧
      ∃ z : T → ℝ, Spec.Standard adv z dataset ∧
        updateAdvs true adv samples dataset mb epochs = .ok (batches.map fun b => b.map fun t => (t, z t)) := by
  obtain ⟨batches, hb, _⟩ := minibatches_fair samples dataset hne hnd mb epochs hmb hs
  refine ⟨batches, hb, ?_, _, standard_standard adv hne, ?_⟩
  · unfold updateAdvs
    rw [hb]
    rfl
  · unfold updateAdvs
    rw [hb]

/-- Adding a constant to all advantages changes nothing. -/
theorem ppo_standardized_shift (all : List ℝ) (hne : all ≠ []) (c x : ℝ) :
    standard true (all.map (· + c)) (x + c) = standard true all x := by
  have hpos : (0 : ℝ) < all.length := by exact_mod_cast List.length_pos_of_ne_nil hne
  have hm : mean (all.map (· + c)) = mean all + c := by
    unfold mean
    have := sum_map_sub_const all (-c)
    simp only [sub_neg_eq_add] at this
    rw [this, List.length_map]
    field_simp
    ring
  have hs : std (all.map (· + c)) = std all := by
    unfold std
    rw [hm, List.map_map]
    congr 2
    apply List.map_congr_left
    intro y _
    simp only [Function.comp_apply]
    congr 1
    ring
  unfold standard
  rw [hm, hs]
  simp only [if_true]
  congr 1
  ring

theorem allRecurrent_ok (standardize : Bool) (all : List ℝ) (adv : T → ℝ) (h : standardize = true → 0 < std all) (bs : List (List (List T))) :
    allRecurrent standardize all adv bs = .ok (bs.map fun b =>
      (Recurrent.flattenTimeFirst (Recurrent.sortedDesc b)).map fun t => (t, standard standardize all (adv t))) := by
  induction bs with
  | nil => rfl
  | cons b bs ih =>
    unfold allRecurrent onceRecurrent
    rw [if_neg (fun hc => hc.2 (h hc.1)), ih]
    rfl

/-- The minibatches of all epochs, if the generator does not fail. -/
def Spec.groups (shuffled : Nat → List (List T)) (mb : Nat) (n k : Nat) : List (List (List T)) :=
  ((List.range n).map fun j => (yieldSubsets (shuffled (k + j)) mb).toOption.getD []).flatten

theorem groups_succ (shuffled : Nat → List (List T)) (mb n k : Nat) :
    Spec.groups shuffled mb (n + 1) k = (yieldSubsets (shuffled k) mb).toOption.getD [] ++ Spec.groups shuffled mb n (k + 1) := by
  unfold Spec.groups
  rw [List.range_succ_eq_map, List.map_cons, List.flatten_cons, List.map_map]
  congr 3
  funext j
  simp only [Function.comp_apply]
  rw [show k + (j + 1) = k + 1 + j by omega]

theorem epochsRecurrent_ok (standardize : Bool) (all : List ℝ) (adv : T → ℝ) (h : standardize = true → 0 < std all)
    (shuffled : Nat → List (List T)) (mb : Nat) (hmb : 0 < mb) (hs : ∀ j, ∀ s ∈ shuffled j, s ≠ []) (n : Nat) : ∀ k : Nat,
    epochsRecurrent standardize all adv shuffled mb n k = .ok ((Spec.groups shuffled mb n k).map fun b =>
      (Recurrent.flattenTimeFirst (Recurrent.sortedDesc b)).map fun t => (t, standard standardize all (adv t))) := by
  induction n with
  | zero => intro k; rfl
  | succ n ih =>
    intro k
    obtain ⟨groups, _, hg, _⟩ := subsets_fixed_size (shuffled k) mb hmb (hs k)
    unfold epochsRecurrent
    rw [hg]
    simp only [allRecurrent_ok standardize all adv h, ih (k + 1)]
    rw [groups_succ, hg, List.map_append]
    rfl

/-- **C84 (recurrent models), as far as it holds.** If two transitions of the data set differ in their advantage, or standardisation is off, the
update of a recurrent model succeeds and uses the same scores.  What is missing is the case in which all advantages are equal: see
`ppo_recurrent_equal_advantages_fail`. -/
theorem ppo_recurrent_standardized_partial (adv : T → ℝ) (shuffled : Nat → List (List T)) (dataset : List (List T)) (mb epochs : Nat)
    (hmb : 0 < mb) (hne : ∀ s ∈ dataset, s ≠ []) (hs : ∀ j, (shuffled j).Perm dataset) :
    (updateRecurrent false adv shuffled dataset mb epochs = .ok ((Spec.groups shuffled mb epochs 0).map fun b =>
      (Recurrent.flattenTimeFirst (Recurrent.sortedDesc b)).map fun t => (t, adv t))) ∧
    ((∃ t ∈ dataset.flatten, ∃ u ∈ dataset.flatten, adv t ≠ adv u) →
      ∃ z : T → ℝ, Spec.Standard adv z dataset.flatten ∧
        updateRecurrent true adv shuffled dataset mb epochs = .ok ((Spec.groups shuffled mb epochs 0).map fun b =>
          (Recurrent.flattenTimeFirst (Recurrent.sortedDesc b)).map fun t => (t, z t))) := by
  have hs' : ∀ j, ∀ s ∈ shuffled j, s ≠ [] := fun j s hsm => hne s ((hs j).mem_iff.mp hsm)
  refine ⟨?_, fun ⟨t, ht, u, hu, htu⟩ => ?_⟩
  · exact epochsRecurrent_ok false _ adv (fun h => by cases h) shuffled mb hmb hs' epochs 0
  · refine ⟨_, standard_standard adv (List.ne_nil_of_mem ht), ?_⟩
    apply epochsRecurrent_ok true _ adv (fun _ => ?_) shuffled mb hmb hs' epochs 0
    exact (std_pos_iff _).mpr ⟨adv t, List.mem_map_of_mem ht, adv u, List.mem_map_of_mem hu, htu⟩

/-- **C84 fails for recurrent models.** If all advantages of the data set are equal (for instance because it holds one transition
only), the update of a recurrent model with standardised advantages raises `AssertionError`, for every data set with at least
one minibatch; that of a feedforward model does not. -/
theorem ppo_recurrent_equal_advantages_fail (adv : T → ℝ) (shuffled : Nat → List (List T)) (dataset : List (List T)) (mb epochs : Nat)
    (hmb : 0 < mb) (hep : 0 < epochs) (hne : ∀ s ∈ dataset, s ≠ []) (hs : ∀ j, (shuffled j).Perm dataset)
    (hsize : mb ≤ dataset.flatten.length) (heq : ∀ t ∈ dataset.flatten, ∀ u ∈ dataset.flatten, adv t = adv u) :
    updateRecurrent true adv shuffled dataset mb epochs = .error .assertionError := by
  obtain ⟨n, rfl⟩ : ∃ n, epochs = n + 1 := ⟨epochs - 1, by omega⟩
  have hs' : ∀ s ∈ shuffled 0, s ≠ [] := fun s hsm => hne s ((hs 0).mem_iff.mp hsm)
  obtain ⟨groups, rest, hg, hlen, _, hflat, hrest⟩ := subsets_fixed_size (shuffled 0) mb hmb hs'
  have hstd : ¬ 0 < std (dataset.flatten.map adv) := by
    rw [std_pos_iff]
    rintro ⟨x, hx, y, hy, hxy⟩
    obtain ⟨t, ht, rfl⟩ := List.mem_map.mp hx
    obtain ⟨u, hu, rfl⟩ := List.mem_map.mp hy
    exact hxy (heq t ht u hu)
  have hgne : groups ≠ [] := by
    rintro rfl
    have h1 := congrArg List.length hflat
    rw [((hs 0).flatten).length_eq] at h1
    simp only [List.flatten_nil, List.nil_append] at h1
    omega
  obtain ⟨b, bs, rfl⟩ := List.exists_cons_of_ne_nil hgne
  unfold updateRecurrent epochsRecurrent
  rw [hg]
  have : allRecurrent true (dataset.flatten.map adv) adv (b :: bs) = .error .assertionError := by
    unfold allRecurrent onceRecurrent
    rw [if_pos ⟨rfl, hstd⟩]
  simp only [this]

/-- One transition: the recurrent update fails, the other one succeeds. -/
example : updateRecurrent true (fun _ : Nat => 5) (fun _ => [[7]]) [[7]] 1 1 = .error .assertionError ∧
    ∃ x, updateAdvs true (fun _ : Nat => 5) (fun _ => [7]) [7] 1 1 = .ok x := by
  refine ⟨ppo_recurrent_equal_advantages_fail _ _ _ 1 1 (by decide) (by decide) (by decide) (fun _ => .refl _) (by decide)
    (fun _ _ _ _ => rfl), ?_⟩
  obtain ⟨_, _, _, _, _, h⟩ := ppo_standardized_advantages (fun _ : Nat => (5 : ℝ)) (fun _ => [7]) [7] (by decide) (by decide) 1 1
    (by decide) (fun _ => .refl _)
  exact ⟨_, h⟩

/-- Two transitions with different advantages: the recurrent update succeeds. -/
example : ∃ x, updateRecurrent true (fun t : Nat => (t : ℝ)) (fun _ => [[7, 8]]) [[7, 8]] 1 3 = .ok x := by
  obtain ⟨_, _, h⟩ := (ppo_recurrent_standardized_partial (fun t : Nat => (t : ℝ)) (fun _ => [[7, 8]]) [[7, 8]] 1 3
    (by decide) (by decide) (fun _ => .refl _)).2 ⟨7, by decide, 8, by decide, by norm_num⟩
  exact ⟨_, h⟩

end Pfrl.Ppo.Loss
