import Verif.Basic
import Mathlib.Analysis.Real.Sqrt
import Mathlib.Algebra.BigOperators.Group.Finset.Basic
import Mathlib.Algebra.Order.BigOperators.Group.Finset
import Mathlib.Tactic.Ring
import Mathlib.Tactic.Linarith
import Mathlib.Tactic.FieldSimp
import Mathlib.Tactic.Positivity
import Mathlib.Data.List.Induction

/-!
# RMSprop with eps inside the square root (C82)

`pfrl/optimizers/rmsprop_eps_inside_sqrt.py`.  Tensors are real functions on `ι`.  The optimiser treats every parameter on its own, with
the settings of its group, so one parameter is modelled.
-/

namespace Pfrl.RMSprop

variable {ι : Type _}

/-! ## Model -/

/-- The settings of a parameter group, except the learning rate, which hooks change between steps. -/
structure Hyper where
  alpha : ℝ
  eps : ℝ
  weightDecay : ℝ
  momentum : ℝ
  centered : Bool

/-- `self.state[p]`, lines 28-35. -/
structure St (ι : Type _) where
  step : Nat
  squareAvg : ι → ℝ
  momentumBuffer : Option (ι → ℝ)
  gradAvg : Option (ι → ℝ)

/-- A parameter and its state (`none`: the empty dict). -/
structure Param (ι : Type _) where
  data : ι → ℝ
  state : Option (St ι)

/-- State initialisation, lines 29-35 and 76-83. -/
noncomputable def initState (h : Hyper) : St ι :=
  ⟨0, fun _ => 0, if h.momentum > 0 then some fun _ => 0 else none, if h.centered then some fun _ => 0 else none⟩

/-- `SharedRMSpropEpsInsideSqrt.__init__`, lines 69-83. -/
noncomputable def shared (h : Hyper) (p : Param ι) : Param ι :=
  match p.state with
  | none => ⟨p.data, some (initState h)⟩
  | some _ => p

open Classical in
/-- `avg`, the square root of what is given.  A number that is not positive would give NaN or a division by zero in the next line. -/
noncomputable def root (v : ι → ℝ) : Except PyErr (ι → ℝ) :=
  if ∀ i, 0 < v i then .ok fun i => Real.sqrt (v i) else .error .valueError

/-- Lines 60-65: the change of the parameter, and its state. -/
noncomputable def move (h : Hyper) (lr : ℝ) (p : Param ι) (s : St ι) (grad avg : ι → ℝ) : Except PyErr (Param ι) :=
  if h.momentum > 0 then
    match s.momentumBuffer with
    | none => .error .keyError
    | some buf =>
      let buf : ι → ℝ := fun i => buf i * h.momentum + grad i / avg i
      .ok ⟨fun i => p.data i + -lr * buf i, some { s with momentumBuffer := some buf }⟩
  else .ok ⟨fun i => p.data i + -lr * (grad i / avg i), some s⟩

/-- `step` for one parameter, lines 18-65; `grad` is `p.grad`. -/
noncomputable def step (h : Hyper) (lr : ℝ) (grad : Option (ι → ℝ)) (p : Param ι) : Except PyErr (Param ι) :=
  match grad with
  | none => .ok p
  | some grad =>
    let s := p.state.getD (initState h)
    let grad : ι → ℝ := if h.weightDecay ≠ 0 then fun i => grad i + h.weightDecay * p.data i else grad
    let squareAvg : ι → ℝ := fun i => s.squareAvg i * h.alpha + (1 - h.alpha) * (grad i * grad i)
    let s := { s with step := s.step + 1, squareAvg := squareAvg }
    if h.centered then
      match s.gradAvg with
      | none => .error .keyError
      | some gradAvg =>
        let gradAvg : ι → ℝ := fun i => gradAvg i * h.alpha + (1 - h.alpha) * grad i
        match root fun i => squareAvg i + -1 * (gradAvg i * gradAvg i) + h.eps with
        | .error e => .error e
        | .ok avg => move h lr p { s with gradAvg := some gradAvg } grad avg
    else
      match root fun i => squareAvg i + h.eps with
      | .error e => .error e
      | .ok avg => move h lr p s grad avg

/-- A history of steps: the learning rate and the gradient of each. -/
noncomputable def run (h : Hyper) : Param ι → List (ℝ × Option (ι → ℝ)) → Except PyErr (Param ι)
  | p, [] => .ok p
  | p, e :: es =>
    match step h e.1 e.2 p with
    | .error err => .error err
    | .ok p => run h p es

/-! ## Specification -/

/-- The settings that make sense. -/
def Spec.Valid (h : Hyper) : Prop := 0 ≤ h.alpha ∧ h.alpha < 1 ∧ 0 < h.eps ∧ 0 ≤ h.momentum ∧ h.momentum < 1

/-- The exponential moving average, with weight `(1 - α) α^k` for the number `k` before the last. -/
noncomputable def Spec.ema (α : ℝ) (x : List ℝ) : ℝ :=
  ∑ k ∈ Finset.range x.length, (1 - α) * α ^ k * x.reverse.getD k 0

/-- The gradients of a history, without the steps in which the parameter had none. -/
def Spec.gradients (es : List (ℝ × Option (ι → ℝ))) : List (ι → ℝ) := es.filterMap Prod.snd

/-! ## Lemmas -/

theorem ema_snoc (α : ℝ) (x : List ℝ) (y : ℝ) : Spec.ema α (x ++ [y]) = Spec.ema α x * α + (1 - α) * y := by
  unfold Spec.ema
  rw [List.length_append, List.length_singleton, Finset.sum_range_succ', List.reverse_append, List.reverse_singleton,
    List.singleton_append, Finset.sum_mul]
  congr 1
  · apply Finset.sum_congr rfl
    intro k _
    simp only [List.getD_cons_succ]
    ring
  · simp

theorem ema_nil (α : ℝ) : Spec.ema α [] = 0 := by simp [Spec.ema]

/-- What is known of a parameter with a state, at one coordinate: `b` bounds the momentum buffer. -/
structure Inv (h : Hyper) (s : St ι) : Prop where
  sq : ∀ i, 0 ≤ s.squareAvg i
  mom : h.momentum > 0 → ∃ buf, s.momentumBuffer = some buf ∧
    (h.centered = false → ∀ i, |buf i| ≤ 1 / ((1 - h.momentum) * Real.sqrt (1 - h.alpha)))
  cen : h.centered = true → ∃ g, s.gradAvg = some g ∧ ∀ i, g i ^ 2 ≤ s.squareAvg i

theorem inv_init {h : Hyper} (hv : Spec.Valid h) : Inv h (initState h : St ι) := by
  obtain ⟨_, h2, _, _, h5⟩ := hv
  refine ⟨fun _ => le_refl _, fun hm => ⟨fun _ => 0, by simp [initState, hm], fun _ _ => ?_⟩, fun hc => ⟨fun _ => 0, by simp [initState, hc], ?_⟩⟩
  · rw [abs_zero]
    have : 0 < 1 - h.momentum := by linarith
    positivity
  · intro i
    simp [initState]

theorem quotient_bound {alpha eps q g : ℝ} (h1 : alpha < 1) (h0 : 0 ≤ alpha) (he : 0 < eps) (hq : 0 ≤ q) :
    |g / Real.sqrt (q * alpha + (1 - alpha) * (g * g) + eps)| ≤ 1 / Real.sqrt (1 - alpha) := by
  have ha : 0 < 1 - alpha := by linarith
  have hgg : 0 ≤ g * g := mul_self_nonneg g
  have hpos : 0 < q * alpha + (1 - alpha) * (g * g) + eps := by positivity
  rw [abs_div, abs_of_pos (Real.sqrt_pos.mpr hpos), div_le_div_iff₀ (Real.sqrt_pos.mpr hpos) (Real.sqrt_pos.mpr ha), one_mul]
  rw [← Real.sqrt_sq (abs_nonneg g), ← Real.sqrt_mul (by positivity)]
  apply Real.sqrt_le_sqrt
  rw [sq_abs]
  nlinarith [mul_nonneg hq h0]

theorem cauchy_step {alpha g a q : ℝ} (h0 : 0 ≤ alpha) (h1 : alpha < 1) (ha : a ^ 2 ≤ q) :
    (a * alpha + (1 - alpha) * g) ^ 2 ≤ q * alpha + (1 - alpha) * (g * g) := by
  have : q * alpha + (1 - alpha) * (g * g) - (a * alpha + (1 - alpha) * g) ^ 2 =
      alpha * (q - a ^ 2) + alpha * (1 - alpha) * (a - g) ^ 2 := by ring
  have h2 : 0 ≤ alpha * (q - a ^ 2) := mul_nonneg h0 (by linarith)
  have h3 : 0 ≤ alpha * (1 - alpha) * (a - g) ^ 2 := mul_nonneg (mul_nonneg h0 (by linarith)) (sq_nonneg _)
  linarith

/-- The gradient with weight decay. -/
noncomputable def effective (h : Hyper) (p : Param ι) (g : ι → ℝ) : ι → ℝ :=
  if h.weightDecay ≠ 0 then fun i => g i + h.weightDecay * p.data i else g

/-- One step with a gradient, from a state that satisfies the invariant. -/
theorem step_spec {h : Hyper} (hv : Spec.Valid h) {p : Param ι} (hp : Inv h (p.state.getD (initState h))) (lr : ℝ) (g : ι → ℝ) :
    ∃ s', step h lr (some g) p = .ok s' ∧ ∃ t, s'.state = some t ∧ Inv h t ∧
      (∀ i, t.squareAvg i = (p.state.getD (initState h)).squareAvg i * h.alpha + (1 - h.alpha) * (effective h p g i * effective h p g i)) ∧
      (h.centered = true → ∃ a a', (p.state.getD (initState h)).gradAvg = some a ∧ t.gradAvg = some a' ∧
        ∀ i, a' i = a i * h.alpha + (1 - h.alpha) * effective h p g i) ∧
      (h.momentum = 0 → ∀ i, s'.data i = p.data i + -lr * (effective h p g i / Real.sqrt (t.squareAvg i -
        (if h.centered then (t.gradAvg.getD fun _ => 0) i ^ 2 else 0) + h.eps))) ∧
      (h.momentum > 0 → ∃ buf, t.momentumBuffer = some buf ∧ ∀ i, s'.data i = p.data i + -lr * buf i) := by
  obtain ⟨h0, h1, he, hm0, hm1⟩ := hv
  set s := p.state.getD (initState h) with hs
  set e := effective h p g with hedef
  have hsq : ∀ i, 0 ≤ s.squareAvg i * h.alpha + (1 - h.alpha) * (e i * e i) := fun i =>
    add_nonneg (mul_nonneg (hp.sq i) h0) (mul_nonneg (by linarith) (mul_self_nonneg _))
  unfold step
  simp only []
  change ∃ s', (if h.centered = true then _ else _) = Except.ok s' ∧ _
  rw [show (if h.weightDecay ≠ 0 then fun i => g i + h.weightDecay * p.data i else g) = e from rfl, ← hs]
  by_cases hc : h.centered = true
  · rw [if_pos hc]
    obtain ⟨a, ha1, ha2⟩ := hp.cen hc
    simp only [ha1]
    have hcs : ∀ i, (a i * h.alpha + (1 - h.alpha) * e i) ^ 2 ≤ s.squareAvg i * h.alpha + (1 - h.alpha) * (e i * e i) :=
      fun i => cauchy_step h0 h1 (ha2 i)
    have hroot : ∀ i, 0 < s.squareAvg i * h.alpha + (1 - h.alpha) * (e i * e i) +
        -1 * ((a i * h.alpha + (1 - h.alpha) * e i) * (a i * h.alpha + (1 - h.alpha) * e i)) + h.eps := by
      intro i
      have := hcs i
      nlinarith
    simp only [root, if_pos hroot]
    unfold move
    by_cases hm : h.momentum > 0
    · rw [if_pos hm]
      obtain ⟨buf, hb1, hb2⟩ := hp.mom hm
      simp only [hb1]
      refine ⟨_, rfl, _, rfl, ⟨hsq, fun _ => ⟨_, rfl, fun hc' => absurd hc (by rw [hc']; simp)⟩, fun _ => ⟨_, rfl, hcs⟩⟩,
        fun _ => rfl, fun _ => ⟨a, _, rfl, rfl, fun _ => rfl⟩, fun hm' => absurd hm (by rw [hm']; exact lt_irrefl _), fun _ => ⟨_, rfl, fun _ => rfl⟩⟩
    · rw [if_neg hm]
      refine ⟨_, rfl, _, rfl, ⟨hsq, fun hm' => absurd hm' hm, fun _ => ⟨_, rfl, hcs⟩⟩,
        fun _ => rfl, fun _ => ⟨a, _, rfl, rfl, fun _ => rfl⟩, fun _ i => ?_, fun hm' => absurd hm' hm⟩
      simp only [if_pos hc, Option.getD_some]
      congr 4
      ring
  · rw [if_neg hc]
    have hroot : ∀ i, 0 < s.squareAvg i * h.alpha + (1 - h.alpha) * (e i * e i) + h.eps := fun i => by
      have := hsq i
      linarith
    simp only [root, if_pos hroot]
    unfold move
    by_cases hm : h.momentum > 0
    · rw [if_pos hm]
      obtain ⟨buf, hb1, hb2⟩ := hp.mom hm
      simp only [hb1]
      have hb2 := hb2 (by simpa using hc)
      refine ⟨_, rfl, _, rfl, ⟨hsq, fun _ => ⟨_, rfl, fun _ i => ?_⟩, fun hc' => absurd hc' hc⟩,
        fun _ => rfl, fun hc' => absurd hc' hc, fun hm' => absurd hm (by rw [hm']; exact lt_irrefl _), fun _ => ⟨_, rfl, fun _ => rfl⟩⟩
      have hq := quotient_bound (g := e i) h1 h0 he (hp.sq i)
      have h1m : 0 < 1 - h.momentum := by linarith
      have ha : 0 < Real.sqrt (1 - h.alpha) := Real.sqrt_pos.mpr (by linarith)
      calc |buf i * h.momentum + e i / Real.sqrt (s.squareAvg i * h.alpha + (1 - h.alpha) * (e i * e i) + h.eps)|
          ≤ |buf i * h.momentum| + |e i / Real.sqrt (s.squareAvg i * h.alpha + (1 - h.alpha) * (e i * e i) + h.eps)| := abs_add_le _ _
        _ ≤ 1 / ((1 - h.momentum) * Real.sqrt (1 - h.alpha)) * h.momentum + 1 / Real.sqrt (1 - h.alpha) := by
          rw [abs_mul, abs_of_pos hm]
          exact add_le_add (mul_le_mul_of_nonneg_right (hb2 i) hm0) hq
        _ = 1 / ((1 - h.momentum) * Real.sqrt (1 - h.alpha)) := by
          field_simp
          ring
    · rw [if_neg hm]
      refine ⟨_, rfl, _, rfl, ⟨hsq, fun hm' => absurd hm' hm, fun hc' => absurd hc' hc⟩,
        fun _ => rfl, fun hc' => absurd hc' hc, fun _ i => ?_, fun hm' => absurd hm' hm⟩
      simp only [if_neg hc, sub_zero]

/-- Every history is error-free and keeps the invariant. -/
theorem run_inv {h : Hyper} (hv : Spec.Valid h) : ∀ (es : List (ℝ × Option (ι → ℝ))) {p : Param ι},
    Inv h (p.state.getD (initState h)) → ∃ p', run h p es = .ok p' ∧ Inv h (p'.state.getD (initState h))
  | [], p, hp => ⟨p, rfl, hp⟩
  | (lr, none) :: es, p, hp => by
    obtain ⟨p', h1, h2⟩ := run_inv hv es hp
    exact ⟨p', by simp only [run, step, h1], h2⟩
  | (lr, some g) :: es, p, hp => by
    obtain ⟨p1, h1, t, h2, h3, _⟩ := step_spec hv hp lr g
    obtain ⟨p', h4, h5⟩ := run_inv hv es (p := p1) (by rw [h2]; exact h3)
    exact ⟨p', by simp only [run, h1, h4], h5⟩

theorem run_append (h : Hyper) : ∀ (es es' : List (ℝ × Option (ι → ℝ))) {p p' : Param ι}, run h p es = .ok p' →
    run h p (es ++ es') = run h p' es'
  | [], es', p, p', hr => by cases hr; rfl
  | e :: es, es', p, p', hr => by
    unfold run at hr
    cases hs : step h e.1 e.2 p with
    | error er => rw [hs] at hr; cases hr
    | ok p1 =>
      rw [hs] at hr
      simp only [List.cons_append, run, hs]
      exact run_append h es es' hr

theorem fresh_inv {h : Hyper} (hv : Spec.Valid h) (x : ι → ℝ) :
    Inv h ((Param.mk x none : Param ι).state.getD (initState h)) := inv_init hv

/-- The moving averages kept in the state. -/
theorem run_ema {h : Hyper} (hv : Spec.Valid h) (hw : h.weightDecay = 0) (es : List (ℝ × Option (ι → ℝ))) {x : ι → ℝ} {p' : Param ι}
    (hr : run h ⟨x, none⟩ es = .ok p') :
    (∀ i, (p'.state.getD (initState h)).squareAvg i = Spec.ema h.alpha ((Spec.gradients es).map fun g => g i * g i)) ∧
    (h.centered = true → ∃ a, (p'.state.getD (initState h)).gradAvg = some a ∧
      ∀ i, a i = Spec.ema h.alpha ((Spec.gradients es).map fun g => g i)) := by
  induction es using List.reverseRecOn generalizing p' with
  | nil =>
    cases hr
    exact ⟨fun i => by simp [Spec.gradients, ema_nil, initState], fun hc => ⟨fun _ => 0, by simp [initState, hc],
      fun i => by simp [Spec.gradients, ema_nil]⟩⟩
  | append_singleton es e ih =>
    obtain ⟨p1, h1, hinv⟩ := run_inv hv es (fresh_inv hv x)
    obtain ⟨ih1, ih2⟩ := ih h1
    rw [run_append h es [e] h1] at hr
    rcases e with ⟨lr, g⟩
    cases g with
    | none =>
      cases hr
      simpa [Spec.gradients] using ⟨ih1, ih2⟩
    | some g =>
      obtain ⟨p2, h2, t, h3, _, h4, h5, _⟩ := step_spec hv hinv lr g
      simp only [run, h2] at hr
      cases hr
      have he : effective h p1 g = g := by simp [effective, hw]
      rw [he] at h4 h5
      have hg : Spec.gradients (es ++ [(lr, some g)]) = Spec.gradients es ++ [g] := by simp [Spec.gradients]
      rw [hg, h3]
      refine ⟨fun i => ?_, fun hc => ?_⟩
      · rw [List.map_append, List.map_singleton, ema_snoc, ← ih1 i]
        exact h4 i
      · obtain ⟨a, a', k1, k2, k3⟩ := h5 hc
        obtain ⟨b, k4, k5⟩ := ih2 hc
        rw [k4] at k1
        cases k1
        refine ⟨a', k2, fun i => ?_⟩
        rw [k3, k5, List.map_append, List.map_singleton, ema_snoc]

/-! ## C82 -/

/-- **C82 (always defined).** With valid settings, no history of learning rates and gradients, whatever they are, ever makes the optimiser fail:
no missing state, no root of a negative number and no division by zero, also in centered mode. -/
theorem rmsprop_never_fails {h : Hyper} (hv : Spec.Valid h) (x : ι → ℝ) (es : List (ℝ × Option (ι → ℝ))) :
    ∃ p', run h ⟨x, none⟩ es = .ok p' := by
  obtain ⟨p', h1, _⟩ := run_inv hv es (fresh_inv hv x)
  exact ⟨p', h1⟩

/-- **C82 (bounded steps).** Without centering, a step changes no entry of the parameter by more than the learning rate divided by
`(1 - momentum) √(1 - alpha)`, however large the gradients are, and whatever came before. -/
theorem rmsprop_step_bounded {h : Hyper} (hv : Spec.Valid h) (hc : h.centered = false) (x : ι → ℝ)
    (es : List (ℝ × Option (ι → ℝ))) (lr : ℝ) (hlr : 0 ≤ lr) (g : Option (ι → ℝ)) {p p' : Param ι} (hr : run h ⟨x, none⟩ es = .ok p)
    (hs : step h lr g p = .ok p') (i : ι) :
    |p'.data i - p.data i| ≤ lr / ((1 - h.momentum) * Real.sqrt (1 - h.alpha)) := by
  obtain ⟨p1, h1, hinv⟩ := run_inv hv es (fresh_inv hv x)
  rw [hr] at h1
  cases h1
  have ha : 0 < Real.sqrt (1 - h.alpha) := Real.sqrt_pos.mpr (by linarith [hv.2.1])
  have hm : 0 < 1 - h.momentum := by linarith [hv.2.2.2.2]
  cases g with
  | none =>
    cases hs
    rw [sub_self, abs_zero]
    positivity
  | some g =>
    obtain ⟨p2, h2, t, h3, h4, h5, _, h6, h7⟩ := step_spec hv hinv lr g
    rw [hs] at h2
    cases h2
    by_cases hmom : h.momentum > 0
    · obtain ⟨buf, k1, k2⟩ := h7 hmom
      obtain ⟨buf', k3, k4⟩ := h4.mom hmom
      rw [k1] at k3
      cases k3
      rw [k2, add_sub_cancel_left, abs_mul, abs_neg, abs_of_nonneg hlr, div_eq_mul_one_div]
      exact mul_le_mul_of_nonneg_left (k4 hc i) hlr
    · have hm0 : h.momentum = 0 := le_antisymm (not_lt.mp hmom) hv.2.2.2.1
      have hq := quotient_bound (g := effective h p g i) hv.2.1 hv.1 hv.2.2.1 (hinv.sq i)
      rw [h6 hm0, add_sub_cancel_left, abs_mul, abs_neg, abs_of_nonneg hlr, div_eq_mul_one_div lr, hm0]
      refine mul_le_mul_of_nonneg_left ?_ hlr
      rw [sub_zero, one_mul, h5 i]
      simp only [hc, Bool.false_eq_true, if_false, sub_zero]
      exact hq

/-- **C82 (the update rule).** Without momentum and weight decay, a step after any history subtracts the learning rate times the gradient
divided by the root of `eps` plus the moving average of the squared gradients (minus, in centered mode, the square of the
moving average of the gradients), the averages being over all gradients the parameter has ever had.  Steps without a gradient
change nothing. -/
theorem rmsprop_update {h : Hyper} (hv : Spec.Valid h) (hm : h.momentum = 0) (hw : h.weightDecay = 0) (x : ι → ℝ)
    (es : List (ℝ × Option (ι → ℝ))) (lr : ℝ) (g : ι → ℝ) {p : Param ι} (hr : run h ⟨x, none⟩ es = .ok p) :
    (∃ p', step h lr (some g) p = .ok p' ∧ ∀ i, p'.data i = p.data i - lr * g i / Real.sqrt (h.eps +
      Spec.ema h.alpha ((Spec.gradients es ++ [g]).map fun g => g i * g i) -
      (if h.centered then (Spec.ema h.alpha ((Spec.gradients es ++ [g]).map fun g => g i)) ^ 2 else 0))) ∧
    step h lr none p = .ok p := by
  refine ⟨?_, rfl⟩
  obtain ⟨p1, h1, hinv⟩ := run_inv hv es (fresh_inv hv x)
  rw [hr] at h1
  cases h1
  obtain ⟨p2, h2, t, h3, _, _, _, h6, _⟩ := step_spec hv hinv lr g
  have hr2 : run h ⟨x, none⟩ (es ++ [(lr, some g)]) = .ok p2 := by
    rw [run_append h es _ hr]
    simp only [run, h2]
  obtain ⟨k1, k2⟩ := run_ema hv hw _ hr2
  rw [h3] at k1 k2
  simp only [Option.getD_some] at k1 k2
  have hg : Spec.gradients (es ++ [(lr, some g)]) = Spec.gradients es ++ [g] := by simp [Spec.gradients]
  rw [hg] at k1 k2
  refine ⟨p2, h2, fun i => ?_⟩
  have he : effective h p g = g := by simp [effective, hw]
  rw [h6 hm i, he, k1 i]
  by_cases hc : h.centered = true
  · obtain ⟨a, k3, k4⟩ := k2 hc
    simp only [if_pos hc, k3, Option.getD_some, k4]
    rw [show ∀ A B : ℝ, A - B + h.eps = h.eps + A - B from fun A B => by ring]
    ring
  · simp only [if_neg hc, sub_zero]
    rw [add_comm h.eps]
    ring

/-- **C82 (shared optimiser).** `SharedRMSpropEpsInsideSqrt`, which creates its states at once so that processes can share them, changes the
parameters exactly as `RMSpropEpsInsideSqrt` does. -/
theorem shared_rmsprop_same {h : Hyper} (hv : Spec.Valid h) (x : ι → ℝ) (es : List (ℝ × Option (ι → ℝ))) :
    ∃ p p', run h ⟨x, none⟩ es = .ok p ∧ run h (shared h ⟨x, none⟩) es = .ok p' ∧ p'.data = p.data := by
  have key : ∀ (es : List (ℝ × Option (ι → ℝ))) {p q : Param ι}, q.data = p.data → q.state.getD (initState h) = p.state.getD (initState h) →
      Inv h (p.state.getD (initState h)) → ∃ p' q', run h p es = .ok p' ∧ run h q es = .ok q' ∧ q'.data = p'.data := by
    intro es
    induction es with
    | nil => intro p q hd _ _; exact ⟨p, q, rfl, rfl, hd⟩
    | cons e es ih =>
      intro p q hd hs hinv
      rcases e with ⟨lr, g⟩
      cases g with
      | none =>
        obtain ⟨p', q', k1, k2, k3⟩ := ih hd hs hinv
        exact ⟨p', q', by simp only [run, step, k1], by simp only [run, step, k2], k3⟩
      | some g =>
        obtain ⟨p1, h1, t, h2, h3, _⟩ := step_spec hv hinv lr g
        have hq : step h lr (some g) q = step h lr (some g) p := by
          unfold step move
          simp only [hs, hd]
        obtain ⟨p', q', k1, k2, k3⟩ := ih (p := p1) (q := p1) rfl rfl (by rw [h2]; exact h3)
        exact ⟨p', q', by simp only [run, h1, k1], by simp only [run, hq, h1, k2], k3⟩
  exact key es rfl rfl (fresh_inv hv x)

/-- The settings used for A3C (`alpha = 0.99`), and their centered variant with momentum, are valid; the bound on the change of an entry is
then ten learning rates. -/
example : Spec.Valid ⟨99 / 100, 1 / 10, 0, 0, false⟩ ∧ Spec.Valid ⟨99 / 100, 1 / 10, 1 / 100, 9 / 10, true⟩ ∧
    1 / ((1 - 0) * Real.sqrt (1 - 99 / 100)) = (10 : ℝ) := by
  refine ⟨by unfold Spec.Valid; norm_num, by unfold Spec.Valid; norm_num, ?_⟩
  rw [show (1 : ℝ) - 99 / 100 = (1 / 10) ^ 2 by norm_num, Real.sqrt_sq (by norm_num)]
  norm_num

/-- After one gradient 3 with `alpha = 0`, `eps = 7`, `lr = 4` the parameter moves from 10 by 3. -/
example : ∃ p' : Param Unit, step ⟨0, 7, 0, 0, false⟩ 4 (some fun _ => 3) ⟨fun _ => 10, none⟩ = .ok p' ∧ p'.data () = 7 := by
  obtain ⟨p', h1, h2⟩ := (rmsprop_update (h := ⟨0, 7, 0, 0, false⟩) (by unfold Spec.Valid; norm_num) rfl rfl (fun _ : Unit => (10 : ℝ)) [] 4
    (fun _ => 3) rfl).1
  refine ⟨p', h1, ?_⟩
  rw [h2]
  have : Spec.ema 0 [(9 : ℝ)] = 9 := by simp [Spec.ema]
  simp only [Spec.gradients, List.filterMap_nil, List.nil_append, List.map_singleton, Bool.false_eq_true, if_false, sub_zero]
  rw [show (3 : ℝ) * 3 = 9 by norm_num, this, show (7 : ℝ) + 9 = 4 ^ 2 by norm_num, Real.sqrt_sq (by norm_num)]
  norm_num

end Pfrl.RMSprop
