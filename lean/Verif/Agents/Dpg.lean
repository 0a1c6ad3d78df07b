import Verif.Returns.PolicyGradient
import Mathlib.Analysis.Calculus.FDeriv.Add
import Mathlib.Analysis.Calculus.FDeriv.Mul
import Mathlib.Analysis.Calculus.FDeriv.Pi
import Mathlib.Analysis.Calculus.FDeriv.Comp
import Mathlib.Analysis.Calculus.Gradient.Basic
import Mathlib.Analysis.Calculus.Deriv.Mul
import Mathlib.Analysis.Calculus.Deriv.Add

/-!
# The actor updates of DDPG and TD3

Model of the actor losses (`pfrl/agents/ddpg.py`, `pfrl/agents/td3.py`) as functions of the parameters of a
deterministic policy (`pfrl/policies/deterministic_policy.py`, `pfrl/distributions/delta.py`).  Environments are those of
`Returns/PolicyGradient.lean`, with any normed space of actions and finitely many states.  Automatic
differentiation is trusted to compute derivatives.
-/

namespace Pfrl.Agents.Dpg

set_option linter.unusedSectionVars false

open Finset
open Pfrl.Returns.PG (Env Outcome)

variable {S O : Type} [Fintype S] [DecidableEq S] [Fintype O]
variable {A : Type} [NormedAddCommGroup A] [NormedSpace ℝ A] {E : Type _} [NormedAddCommGroup E] [NormedSpace ℝ E]

/-! ## Model -/

/-- `Delta(loc).rsample()`, `pfrl/distributions/delta.py:52-54`, of the distribution `DeterministicHead` makes,
`pfrl/policies/deterministic_policy.py:10-11`. -/
def rsample (loc : A) : A := loc

/-- `DDPG.compute_actor_loss`, `pfrl/agents/ddpg.py:176-188`, and the loss of `TD3.update_policy`, `pfrl/agents/td3.py:233-242`,
where `q` is the first Q-function. -/
noncomputable def actorLoss (q : S → A → ℝ) (policy : S → A) (states : List S) : ℝ :=
  -((states.map fun s => q s (rsample (policy s))).sum / states.length)

/-! ## Specification -/

/-- `V` and `Q` are the true values of the deterministic policy `mu`: Bellman's equations. -/
structure Spec.Values (M : Env S A O) (mu : S → A) (gamma : ℝ) (V : S → ℝ) (Q : S → A → ℝ) : Prop where
  q : ∀ s a, Q s a = ∑ o, M.prob s a o *
    ((M.out s a o).reward + gamma * if (M.out s a o).done then 0 else V (M.out s a o).next)
  v : ∀ s, V s = Q s (mu s)

/-- `d s x` is the expected discounted number of visits of `x` in an episode that begins in `s`. -/
def Spec.Visits (M : Env S A O) (mu : S → A) (gamma : ℝ) (d : S → S → ℝ) : Prop :=
  ∀ s x, d s x = (if s = x then 1 else 0) +
    gamma * ∑ o, M.prob s (mu s) o * if (M.out s (mu s) o).done then 0 else d (M.out s (mu s) o).next x

/-- The action decides how probable an outcome is and how it is rewarded, the outcome decides where it leads. -/
def Spec.OutcomeDecides (M : Env S A O) : Prop :=
  ∀ s a b o, (M.out s a o).done = (M.out s b o).done ∧ (M.out s a o).next = (M.out s b o).next

/-! ## Lemmas -/

/-- What follows an outcome. -/
def after (M : Env S A O) (a : A) (s : S) (o : O) (f : S → ℝ) : ℝ := if (M.out s a o).done then 0 else f (M.out s a o).next

theorem abs_after (M : Env S A O) (a : A) (s : S) (o : O) (f : S → ℝ) : |after M a s o f| ≤ ‖f‖ := by
  unfold after
  split
  · simp
  · rw [← Real.norm_eq_abs]; exact norm_le_pi_norm f _

theorem after_sub (M : Env S A O) (a : A) (s : S) (o : O) (f g : S → ℝ) : after M a s o f - after M a s o g = after M a s o (f - g) := by
  unfold after
  split <;> simp

theorem after_congr {M : Env S A O} (hM : Spec.OutcomeDecides M) (a b : A) (s : S) (o : O) (f : S → ℝ) : after M a s o f = after M b s o f := by
  unfold after
  rw [(hM s a b o).1, (hM s a b o).2]

theorem mean_le {M : Env S A O} (hp : ∀ s a o, 0 ≤ M.prob s a o) (s : S) (a : A) {f : O → ℝ} {c : ℝ} (h : ∀ o, |f o| ≤ c) :
    |∑ o, M.prob s a o * f o| ≤ c := by
  refine (abs_sum_le_sum_abs _ _).trans ?_
  calc ∑ o, |M.prob s a o * f o| ≤ ∑ o, M.prob s a o * c := sum_le_sum fun o _ => by
        rw [abs_mul, abs_of_nonneg (hp s a o)]
        exact mul_le_mul_of_nonneg_left (h o) (hp s a o)
    _ = c := by rw [← sum_mul, M.sum_prob, one_mul]

section visits
variable {M : Env S A O} {mu : S → A} {gamma : ℝ} {d : S → S → ℝ}

theorem visits_nonneg (hp : ∀ s a o, 0 ≤ M.prob s a o) (h0 : 0 ≤ gamma) (h1 : gamma < 1) (hd : Spec.Visits M mu gamma d) (s x : S) : 0 ≤ d s x := by
  obtain ⟨m, -, hm⟩ := exists_min_image univ (fun s => d s x) ⟨s, mem_univ s⟩
  have hmin : 0 ≤ d m x := by
    by_contra hneg
    push Not at hneg
    have h2 : d m x ≤ ∑ o, M.prob m (mu m) o * if (M.out m (mu m) o).done then 0 else d (M.out m (mu m) o).next x := by
      calc d m x = ∑ o, M.prob m (mu m) o * d m x := by rw [← sum_mul, M.sum_prob, one_mul]
        _ ≤ _ := sum_le_sum fun o _ => mul_le_mul_of_nonneg_left (by
            split
            · exact hneg.le
            · exact hm _ (mem_univ _)) (hp _ _ _)
    have h3 := hd m x
    have h4 : gamma * d m x ≤ d m x := by
      rw [h3]
      have := mul_le_mul_of_nonneg_left h2 h0
      rw [h3] at this
      have h5 : (0 : ℝ) ≤ if m = x then 1 else 0 := by split <;> norm_num
      linarith
    nlinarith
  exact hmin.trans (hm s (mem_univ s))

theorem visits_self (hp : ∀ s a o, 0 ≤ M.prob s a o) (h0 : 0 ≤ gamma) (h1 : gamma < 1) (hd : Spec.Visits M mu gamma d) (s : S) : 1 ≤ d s s := by
  rw [hd s s, if_pos rfl]
  have : 0 ≤ ∑ o, M.prob s (mu s) o * if (M.out s (mu s) o).done then 0 else d (M.out s (mu s) o).next s :=
    sum_nonneg fun o _ => mul_nonneg (hp _ _ _) (by
      split
      · exact le_rfl
      · exact visits_nonneg hp h0 h1 hd _ _)
  have := mul_nonneg h0 this
  linarith

end visits

section derivative
variable {M : Env S A O} {mu : E → S → A} {gamma : ℝ} {V : E → S → ℝ} {Q : E → S → A → ℝ} {θ₀ : E}

/-- The change of the values is what the new actions are better by, and the change of the values afterwards. -/
theorem change (hM : Spec.OutcomeDecides M) (hV : ∀ θ, Spec.Values M (mu θ) gamma (V θ) (Q θ)) (θ : E) (s : S) :
    V θ s - V θ₀ s = (Q θ₀ s (mu θ s) - V θ₀ s) +
      gamma * ∑ o, M.prob s (mu θ s) o * after M (mu θ₀ s) s o (V θ - V θ₀) := by
  rw [(hV θ).v, (hV θ).q, (hV θ₀).q s (mu θ s)]
  have : ∀ o, M.prob s (mu θ s) o * after M (mu θ₀ s) s o (V θ - V θ₀) =
      M.prob s (mu θ s) o * (if (M.out s (mu θ s) o).done then 0 else V θ (M.out s (mu θ s) o).next) -
      M.prob s (mu θ s) o * (if (M.out s (mu θ s) o).done then 0 else V θ₀ (M.out s (mu θ s) o).next) := by
    intro o
    rw [← after_sub, after_congr hM (mu θ₀ s) (mu θ s) s o (V θ), after_congr hM (mu θ₀ s) (mu θ s) s o (V θ₀), mul_sub]
    rfl
  simp only [this, mul_add, sum_add_distrib, sum_sub_distrib, mul_sub, mul_sum]
  have h2 : ∀ f : O → ℝ, ∑ o, M.prob s (mu θ s) o * (gamma * f o) = ∑ o, gamma * (M.prob s (mu θ s) o * f o) :=
    fun f => sum_congr rfl fun o _ => by ring
  rw [h2, h2]
  ring

theorem change_norm (hp : ∀ s a o, 0 ≤ M.prob s a o) (h0 : 0 ≤ gamma) (h1 : gamma < 1) (hM : Spec.OutcomeDecides M)
    (hV : ∀ θ, Spec.Values M (mu θ) gamma (V θ) (Q θ)) (θ : E) :
    ‖V θ - V θ₀‖ ≤ (1 - gamma)⁻¹ * ‖fun s => Q θ₀ s (mu θ s) - V θ₀ s‖ := by
  have h2 : ‖V θ - V θ₀‖ ≤ ‖fun s => Q θ₀ s (mu θ s) - V θ₀ s‖ + gamma * ‖V θ - V θ₀‖ := by
    refine (pi_norm_le_iff_of_nonneg (by positivity)).mpr fun s => ?_
    rw [Pi.sub_apply, change hM hV θ s]
    refine (norm_add_le _ _).trans (add_le_add (norm_le_pi_norm (fun s => Q θ₀ s (mu θ s) - V θ₀ s) s) ?_)
    rw [norm_mul, Real.norm_of_nonneg h0]
    exact mul_le_mul_of_nonneg_left (mean_le hp s _ fun o => abs_after M _ s o _) h0
  rw [inv_mul_eq_div, le_div_iff₀ (by linarith)]
  linarith

/-- The derivative of the values. -/
theorem hasFDerivAt_values (hp : ∀ s a o, 0 ≤ M.prob s a o) (h0 : 0 ≤ gamma) (h1 : gamma < 1) (hM : Spec.OutcomeDecides M)
    (hV : ∀ θ, Spec.Values M (mu θ) gamma (V θ) (Q θ)) {d : S → S → ℝ} (hd : Spec.Visits M (mu θ₀) gamma d)
    (hmu : ∀ s, ContinuousAt (fun θ => mu θ s) θ₀) (hprob : ∀ s o, ContinuousAt (fun a => M.prob s a o) (mu θ₀ s))
    {G : S → E →L[ℝ] ℝ} (hG : ∀ s, HasFDerivAt (fun θ => Q θ₀ s (mu θ s)) (G s) θ₀) :
    HasFDerivAt V (ContinuousLinearMap.pi fun s => ∑ x, d s x • G x) θ₀ := by
  set g : E → S → ℝ := fun θ s => Q θ₀ s (mu θ s) - V θ₀ s with hg
  set L : E →L[ℝ] S → ℝ := ContinuousLinearMap.pi fun s => ∑ x, d s x • G x with hL
  have hgd : HasFDerivAt g (ContinuousLinearMap.pi G) θ₀ := hasFDerivAt_pi.mpr fun s => (hG s).sub_const _
  have hg0 : g θ₀ = 0 := by funext s; simp [hg, (hV θ₀).v]
  have hLeq : ∀ h s, L h s = G s h + gamma * ∑ o, M.prob s (mu θ₀ s) o * after M (mu θ₀ s) s o (L h) := by
    intro h s
    have e1 : ∀ o, after M (mu θ₀ s) s o (L h) = ∑ x, (if (M.out s (mu θ₀ s) o).done then 0 else d (M.out s (mu θ₀ s) o).next x) * G x h := by
      intro o
      unfold after
      split
      · simp
      · simp [hL]
    have e2 : L h s = ∑ x, d s x * G x h := by simp [hL]
    rw [e2, sum_congr rfl fun x _ => by rw [hd s x, add_mul], sum_add_distrib]
    simp only [ite_mul, one_mul, zero_mul, sum_ite_eq, mem_univ, if_true, e1]
    congr 1
    simp only [mul_sum, sum_mul]
    rw [sum_comm]
    exact sum_congr rfl fun o _ => sum_congr rfl fun x _ => by split_ifs <;> ring
  set C : E → ℝ := fun θ => ∑ s, ∑ o, |M.prob s (mu θ s) o - M.prob s (mu θ₀ s) o| with hC
  have hC0 : Filter.Tendsto C (nhds θ₀) (nhds 0) := by
    have : C θ₀ = 0 := by simp [hC]
    rw [← this]
    refine tendsto_finsetSum _ fun s _ => tendsto_finsetSum _ fun o _ => ?_
    exact (((ContinuousAt.comp (f := fun θ => mu θ s) (hprob s o) (hmu s)).sub continuousAt_const).abs).tendsto
  have hbound : ∀ θ, ‖V θ - V θ₀ - L (θ - θ₀)‖ ≤ (1 - gamma)⁻¹ * (‖g θ - g θ₀ - ContinuousLinearMap.pi G (θ - θ₀)‖ + gamma * (1 - gamma)⁻¹ * (C θ * ‖g θ - g θ₀‖)) := by
    intro θ
    have hCn : 0 ≤ C θ := sum_nonneg fun s _ => sum_nonneg fun o _ => abs_nonneg _
    have hW : ‖V θ - V θ₀‖ ≤ (1 - gamma)⁻¹ * ‖g θ - g θ₀‖ := by
      rw [hg0, sub_zero]; exact change_norm hp h0 h1 hM hV θ
    have h2 : ‖V θ - V θ₀ - L (θ - θ₀)‖ ≤ ‖g θ - g θ₀ - ContinuousLinearMap.pi G (θ - θ₀)‖ + gamma * (C θ * ‖V θ - V θ₀‖) + gamma * ‖V θ - V θ₀ - L (θ - θ₀)‖ := by
      refine (pi_norm_le_iff_of_nonneg (by positivity)).mpr fun s => ?_
      have e : (V θ - V θ₀ - L (θ - θ₀)) s = (g θ - g θ₀ - ContinuousLinearMap.pi G (θ - θ₀)) s +
          gamma * (∑ o, (M.prob s (mu θ s) o - M.prob s (mu θ₀ s) o) * after M (mu θ₀ s) s o (V θ - V θ₀)) +
          gamma * ∑ o, M.prob s (mu θ₀ s) o * after M (mu θ₀ s) s o (V θ - V θ₀ - L (θ - θ₀)) := by
        simp only [Pi.sub_apply, hg0, sub_zero, ContinuousLinearMap.coe_pi']
        rw [change hM hV θ s, hLeq]
        simp only [← after_sub, sub_mul, mul_sub, sum_sub_distrib, hg]
        ring
      rw [e]
      refine (norm_add_le _ _).trans (add_le_add ((norm_add_le _ _).trans (add_le_add (norm_le_pi_norm _ s) ?_)) ?_)
      · rw [norm_mul, Real.norm_of_nonneg h0]
        refine mul_le_mul_of_nonneg_left ?_ h0
        refine (norm_sum_le _ _).trans ?_
        calc ∑ o, ‖(M.prob s (mu θ s) o - M.prob s (mu θ₀ s) o) * after M (mu θ₀ s) s o (V θ - V θ₀)‖
            ≤ ∑ o, |M.prob s (mu θ s) o - M.prob s (mu θ₀ s) o| * ‖V θ - V θ₀‖ := sum_le_sum fun o _ => by
              rw [norm_mul, Real.norm_eq_abs]
              exact mul_le_mul_of_nonneg_left (abs_after M _ s o _) (abs_nonneg _)
          _ = (∑ o, |M.prob s (mu θ s) o - M.prob s (mu θ₀ s) o|) * ‖V θ - V θ₀‖ := by rw [sum_mul]
          _ ≤ C θ * ‖V θ - V θ₀‖ := mul_le_mul_of_nonneg_right
              (single_le_sum (f := fun s => ∑ o, |M.prob s (mu θ s) o - M.prob s (mu θ₀ s) o|) (fun s _ => sum_nonneg fun o _ => abs_nonneg _) (mem_univ s)) (norm_nonneg _)
      · rw [norm_mul, Real.norm_of_nonneg h0]
        exact mul_le_mul_of_nonneg_left (mean_le hp s _ fun o => abs_after M _ s o _) h0
    have h3 : gamma * (C θ * ‖V θ - V θ₀‖) ≤ gamma * (1 - gamma)⁻¹ * (C θ * ‖g θ - g θ₀‖) := by
      rw [mul_assoc]
      refine mul_le_mul_of_nonneg_left ?_ h0
      rw [mul_left_comm]
      exact mul_le_mul_of_nonneg_left hW hCn
    rw [inv_mul_eq_div, le_div_iff₀ (by linarith)]
    linarith
  refine HasFDerivAt.of_isLittleO ?_
  have o1 := hgd.isLittleO
  have o2 : (fun θ => C θ * ‖g θ - g θ₀‖) =o[nhds θ₀] fun θ => θ - θ₀ := by
    have b := hgd.isBigO_sub.norm_left
    have c : C =o[nhds θ₀] fun _ => (1 : ℝ) := (Asymptotics.isLittleO_one_iff ℝ).mpr hC0
    have := c.mul_isBigO b.norm_right
    simpa using this
  have o3 := ((o1.norm_left.add (o2.const_mul_left (gamma * (1 - gamma)⁻¹))).const_mul_left (1 - gamma)⁻¹)
  refine Asymptotics.IsBigO.trans_isLittleO (Asymptotics.IsBigO.of_bound 1 (Filter.Eventually.of_forall fun θ => ?_)) o3
  rw [one_mul]
  exact (hbound θ).trans (le_abs_self _)

end derivative

theorem sum_count (f : S → ℝ) : ∀ l : List S, (l.map f).sum = ∑ x, (l.count x : ℝ) * f x
  | [] => by simp
  | y :: l => by
    rw [List.map_cons, List.sum_cons, sum_count f l]
    simp only [List.count_cons, Nat.cast_add, add_mul, sum_add_distrib]
    rw [add_comm]
    congr 1
    simp

theorem actorLoss_eq (q : S → A → ℝ) (policy : S → A) (states : List S) :
    actorLoss q policy states = -∑ x, (states.count x : ℝ) / states.length * q x (policy x) := by
  rw [actorLoss, sum_count, sum_div]
  congr 1
  exact sum_congr rfl fun x _ => by rw [rsample]; ring

theorem hasFDerivAt_actorLoss {mu : E → S → A} {q : S → A → ℝ} {θ₀ : E} {G : S → E →L[ℝ] ℝ}
    (hG : ∀ s, HasFDerivAt (fun θ => q s (mu θ s)) (G s) θ₀) (states : List S) :
    HasFDerivAt (fun θ => actorLoss q (mu θ) states) (-∑ x, ((states.count x : ℝ) / states.length) • G x) θ₀ := by
  simp only [actorLoss_eq]
  exact (HasFDerivAt.fun_sum fun x _ => (hG x).const_mul ((states.count x : ℝ) / states.length)).fun_neg

/-! ## C126 -/

/-- **C126, descending the actor loss ascends the return.** Let the critic be exact for the current policy, and let the states
of the minibatch occur in proportion to their expected discounted numbers of visits, for start states weighted by `ρ`.
Then the gradient of the expected discounted return is, up to the positive factor `Z`, minus that of the actor loss. -/
theorem actor_loss_return_partial {M : Env S A O} (hp : ∀ s a o, 0 ≤ M.prob s a o) (hM : Spec.OutcomeDecides M)
    {gamma : ℝ} (h0 : 0 ≤ gamma) (h1 : gamma < 1) {mu : E → S → A} {V : E → S → ℝ} {Q : E → S → A → ℝ}
    (hV : ∀ θ, Spec.Values M (mu θ) gamma (V θ) (Q θ)) {θ₀ : E} {d : S → S → ℝ} (hd : Spec.Visits M (mu θ₀) gamma d)
    (hmu : ∀ s, DifferentiableAt ℝ (fun θ => mu θ s) θ₀) (hprob : ∀ s o, ContinuousAt (fun a => M.prob s a o) (mu θ₀ s))
    (hQ : ∀ s, DifferentiableAt ℝ (Q θ₀ s) (mu θ₀ s)) (ρ : S → ℝ) (states : List S) (Z : ℝ)
    (hstates : ∀ x, Z * ((states.count x : ℝ) / states.length) = ∑ s, ρ s * d s x) :
    ∃ L : E →L[ℝ] ℝ, HasFDerivAt (fun θ => actorLoss (Q θ₀) (mu θ) states) L θ₀ ∧
      HasFDerivAt (fun θ => ∑ s, ρ s * V θ s) (-(Z • L)) θ₀ := by
  have hG : ∀ s, HasFDerivAt (fun θ => Q θ₀ s (mu θ s)) (fderiv ℝ (fun θ => Q θ₀ s (mu θ s)) θ₀) θ₀ :=
    fun s => (DifferentiableAt.comp (f := fun θ => mu θ s) θ₀ (hQ s) (hmu s)).hasFDerivAt
  refine ⟨_, hasFDerivAt_actorLoss hG states, ?_⟩
  have hv := hasFDerivAt_pi.mp (hasFDerivAt_values hp h0 h1 hM hV hd (fun s => (hmu s).continuousAt) hprob hG)
  refine (HasFDerivAt.fun_sum (u := univ) fun s _ => (hv s).const_mul (ρ s)).congr_fderiv ?_
  rw [smul_neg, neg_neg]
  simp only [smul_sum, smul_smul]
  rw [sum_comm]
  refine sum_congr rfl fun x _ => ?_
  rw [hstates, ← sum_smul]

/-- **C126, no state gets worse by an update that improves the actions.** If a direction `u` of the parameters lowers
the value of no action, then to first order it lowers the return from no state, and raises it from a state at least as
much as the value of the action there. -/
theorem improvement_everywhere {M : Env S A O} (hp : ∀ s a o, 0 ≤ M.prob s a o) (hM : Spec.OutcomeDecides M)
    {gamma : ℝ} (h0 : 0 ≤ gamma) (h1 : gamma < 1) {mu : E → S → A} {V : E → S → ℝ} {Q : E → S → A → ℝ}
    (hV : ∀ θ, Spec.Values M (mu θ) gamma (V θ) (Q θ)) {θ₀ : E} {d : S → S → ℝ} (hd : Spec.Visits M (mu θ₀) gamma d)
    (hmu : ∀ s, ContinuousAt (fun θ => mu θ s) θ₀) (hprob : ∀ s o, ContinuousAt (fun a => M.prob s a o) (mu θ₀ s))
    {G : S → E →L[ℝ] ℝ} (hG : ∀ s, HasFDerivAt (fun θ => Q θ₀ s (mu θ s)) (G s) θ₀) (u : E) (hu : ∀ s, 0 ≤ G s u) (s : S) :
    ∃ L : E →L[ℝ] ℝ, HasFDerivAt (fun θ => V θ s) L θ₀ ∧ G s u ≤ L u := by
  refine ⟨_, hasFDerivAt_pi.mp (hasFDerivAt_values hp h0 h1 hM hV hd hmu hprob hG) s, ?_⟩
  have e : (∑ x, d s x • G x) u = ∑ x, d s x * G x u := by simp
  rw [e]
  have h2 : d s s * G s u ≤ ∑ x, d s x * G x u :=
    single_le_sum (f := fun x => d s x * G x u) (fun x _ => mul_nonneg (visits_nonneg hp h0 h1 hd s x) (hu x)) (mem_univ s)
  have h3 := mul_le_mul_of_nonneg_right (visits_self hp h0 h1 hd s) (hu s)
  linarith

section tabular
variable {B : Type} [NormedAddCommGroup B] [InnerProductSpace ℝ B] [CompleteSpace B]

/-- **C126, separate actions.** If every state has its own action among the parameters, a step along the negative gradient
of the actor loss on any minibatch lowers the return from no state, and raises it from a state of the minibatch at least in
proportion to the square of the gradient of the critic there. -/
theorem tabular_actor_step {M : Env S B O} (hp : ∀ s a o, 0 ≤ M.prob s a o) (hM : Spec.OutcomeDecides M)
    {gamma : ℝ} (h0 : 0 ≤ gamma) (h1 : gamma < 1) {V : (S → B) → S → ℝ} {Q : (S → B) → S → B → ℝ}
    (hV : ∀ θ, Spec.Values M θ gamma (V θ) (Q θ)) {θ₀ : S → B} {d : S → S → ℝ} (hd : Spec.Visits M θ₀ gamma d)
    (hprob : ∀ s o, ContinuousAt (fun a => M.prob s a o) (θ₀ s)) (hQ : ∀ s, DifferentiableAt ℝ (Q θ₀ s) (θ₀ s)) (states : List S) :
    ∃ u : S → B,
      (∃ L : (S → B) →L[ℝ] ℝ, HasFDerivAt (fun θ => actorLoss (Q θ₀) θ states) L θ₀ ∧ ∀ h, L h = -∑ s, inner ℝ (u s) (h s)) ∧
      ∀ s, ∃ L : (S → B) →L[ℝ] ℝ, HasFDerivAt (fun θ => V θ s) L θ₀ ∧
        (states.count s : ℝ) / states.length * ‖gradient (Q θ₀ s) (θ₀ s)‖ ^ 2 ≤ L u := by
  have hG : ∀ s, HasFDerivAt (fun θ : S → B => Q θ₀ s (θ s)) ((InnerProductSpace.toDual ℝ B (gradient (Q θ₀ s) (θ₀ s))).comp (ContinuousLinearMap.proj s)) θ₀ :=
    fun s => HasFDerivAt.comp (f := fun θ : S → B => θ s) θ₀ (hQ s).hasGradientAt.hasFDerivAt (hasFDerivAt_apply s θ₀)
  have hc : ∀ s, (0 : ℝ) ≤ (states.count s : ℝ) / states.length := fun s => by positivity
  have hGu : ∀ s, ((InnerProductSpace.toDual ℝ B (gradient (Q θ₀ s) (θ₀ s))).comp (ContinuousLinearMap.proj (R := ℝ) (φ := fun _ : S => B) s))
      (fun x => ((states.count x : ℝ) / states.length) • gradient (Q θ₀ x) (θ₀ x)) = (states.count s : ℝ) / states.length * ‖gradient (Q θ₀ s) (θ₀ s)‖ ^ 2 := by
    intro s
    rw [ContinuousLinearMap.comp_apply, InnerProductSpace.toDual_apply_apply, ContinuousLinearMap.proj_apply, inner_smul_right, real_inner_self_eq_norm_sq]
  refine ⟨fun s => ((states.count s : ℝ) / states.length) • gradient (Q θ₀ s) (θ₀ s), ⟨_, hasFDerivAt_actorLoss (mu := fun θ => θ) hG states, ?_⟩, ?_⟩
  · intro h
    simp [inner_smul_left]
  · intro s
    obtain ⟨L, hL, hle⟩ := improvement_everywhere hp hM h0 h1 (mu := fun θ => θ) hV hd (fun s => (continuous_apply s).continuousAt) hprob hG
      (fun x => ((states.count x : ℝ) / states.length) • gradient (Q θ₀ x) (θ₀ x)) (fun s => by rw [hGu]; exact mul_nonneg (hc s) (sq_nonneg _)) s
    exact ⟨L, hL, by rw [← hGu]; exact hle⟩

end tabular

/-! ## A minibatch of the policy's own states -/

/-- Two steps: the first is rewarded with the action, the second with minus three halves of it. -/
noncomputable def twoSteps : Env Bool ℝ Unit where
  prob := fun _ _ _ => 1
  out := fun s a _ => if s then ⟨-(3 / 2) * a, true, false, false⟩ else ⟨a, false, false, true⟩
  sum_prob := by simp

/-- Its values for the policy that takes the action `θ` in both states, with discount 1/2. -/
noncomputable def twoV (θ : ℝ) (s : Bool) : ℝ := if s then -(3 / 2) * θ else θ + 1 / 2 * (-(3 / 2) * θ)

/-- Its action values. -/
noncomputable def twoQ (θ : ℝ) (s : Bool) (a : ℝ) : ℝ := if s then -(3 / 2) * a else a + 1 / 2 * (-(3 / 2) * θ)

theorem two_values (θ : ℝ) : Spec.Values twoSteps (fun _ => θ) (1 / 2) (twoV θ) (twoQ θ) where
  q := by
    intro s a
    cases s <;> simp [twoSteps, twoQ, twoV]
  v := by
    intro s
    cases s <;> simp [twoQ, twoV]

/-- Its visits: the second state comes one step after the first. -/
theorem two_visits (θ : ℝ) : Spec.Visits twoSteps (fun _ => θ) (1 / 2) fun s x => if s = x then 1 else if x then 1 / 2 else 0 := by
  intro s x
  cases s <;> cases x <;> simp [twoSteps]

theorem two_decides : Spec.OutcomeDecides twoSteps := by
  intro s a b o
  cases s <;> simp [twoSteps]

/-- **C126, the full claim is false.** The minibatch holds the states of an episode of the current policy, the critic is
exact, and yet the actor loss and the return have the same positive derivative: descending one lowers the other.  The loss
weights all steps alike, the return discounts them. -/
theorem actor_loss_wrong_direction (θ₀ : ℝ) :
    Spec.Values twoSteps (fun _ => θ₀) (1 / 2) (twoV θ₀) (twoQ θ₀) ∧
      HasDerivAt (fun θ => actorLoss (twoQ θ₀) (fun _ => θ) [false, true]) (1 / 4) θ₀ ∧
      HasDerivAt (fun θ => twoV θ false) (1 / 4) θ₀ := by
  refine ⟨two_values θ₀, ?_, ?_⟩
  · have e : (fun θ => actorLoss (twoQ θ₀) (fun _ => θ) [false, true]) = fun θ => 1 / 4 * θ + 3 / 8 * θ₀ := by
      funext θ
      simp [actorLoss, rsample, twoQ]
      ring
    rw [e]
    exact (((hasDerivAt_id' θ₀).const_mul (1 / 4)).add_const (3 / 8 * θ₀)).congr_deriv (mul_one _)
  · have e : (fun θ => twoV θ false) = fun θ => 1 / 4 * θ := by
      funext θ
      simp [twoV]
      ring
    rw [e]
    exact ((hasDerivAt_id' θ₀).const_mul (1 / 4)).congr_deriv (mul_one _)

/-! ## Non-vacuity -/

/-- The hypotheses of `actor_loss_return_partial` hold in `twoSteps` for a minibatch in which the first state is twice as
frequent as the second, with `Z = 3/2`. -/
example (x : Bool) : (3 / 2 : ℝ) * ((([false, true, false] : List Bool).count x : ℝ) / ([false, true, false] : List Bool).length) =
    ∑ s, (if s then 0 else 1) * (if s = x then 1 else if x then 1 / 2 else 0) := by
  cases x <;> norm_num

example : (∀ s a o, 0 ≤ twoSteps.prob s a o) ∧ Spec.OutcomeDecides twoSteps ∧ (∀ θ, Spec.Values twoSteps (fun _ => θ) (1 / 2) (twoV θ) (twoQ θ)) ∧
    ∀ s, DifferentiableAt ℝ (twoQ 1 s) 1 :=
  ⟨fun _ _ _ => by simp [twoSteps], two_decides, two_values, fun s => by
    cases s
    · exact (differentiableAt_id.add_const _)
    · exact (differentiableAt_id.const_mul _)⟩

end Pfrl.Agents.Dpg
